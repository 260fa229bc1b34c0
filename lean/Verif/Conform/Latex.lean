import Verif.Conform.Dsl

/-! The assertions of /repo/tests/test_latex.py that can be said in the model, evaluated in the kernel (written by tools/gen_conform.py).
These are tests of the model, not properties: they compare it with what the author of the program expects of it. -/

namespace Simpy.Conform
open Simpy Expr
set_option maxRecDepth 100000

/-! test_no_unnecessary_curly_brackets -/

/-- Line 14: `assert_latex(Rat(1, 2), '\\frac12')` -/
example : holds (tex (n (1 / 2)) "\\frac12") = true := by decide +kernel

/-- Line 15: `latex(x / 2) == '\\frac x2'` -/
example : holds (tex (tDiv (sy "x") (n (2))) "\\frac x2") = true := by decide +kernel

/-- Line 16: `assert_latex((x + 2) / 3, '\\frac{x+2}3')` -/
example : holds (tex (tDiv (tAdd (sy "x") (n (2))) (n (3))) "\\frac{x+2}3") = true := by decide +kernel

/-- Line 18: `assert_latex(x ** 2, 'x^2')` -/
example : holds (tex (tPow (sy "x") (n (2))) "x^2") = true := by decide +kernel

/-- Line 19: `assert_latex((2 + x) ** log(x), '(x+2)^{\\ln(x)}')` -/
example : holds (tex (tPow (tAdd (n (2)) (sy "x")) (tLog (sy "x"))) "(x+2)^{\\ln(x)}") = true := by decide +kernel

/-! test_power_groups -/

/-- Line 23: `assert_latex(x ** (y + 3), 'x^{y+3}')` -/
example : holds (tex (tPow (sy "x") (tAdd (sy "y") (n (3)))) "x^{y+3}") = true := by decide +kernel

/-- Line 24: `assert_latex((2 + x) ** y, '(x+2)^y')` -/
example : holds (tex (tPow (tAdd (n (2)) (sy "x")) (sy "y")) "(x+2)^y") = true := by decide +kernel

/-- Line 25: `assert_latex(x ** (-3), 'x^{-3}')` -/
example : holds (tex (tPow (sy "x") (n (-3))) "x^{-3}") = true := by decide +kernel

/-- Line 26: `assert_latex(x ** (-e), 'x^{-e}')` -/
example : holds (tex (tPow (sy "x") (tNeg (.ok euler))) "x^{-e}") = true := by decide +kernel

/-! test_sum_subtraction_bug -/

/-- Line 30: `assert_latex((x - 5) / 2, '\\frac{x - 5}2')` -/
example : holds (tex (tDiv (tSub (sy "x") (n (5))) (n (2))) "\\frac{x - 5}2") = true := by decide +kernel

/-! test_readme -/

/-- Line 35: `assert_latex(sec(2 * x), '\\sec(2 \\cdot x)')` -/
example : holds (tex (tTrig .sec (tMul (n (2)) (sy "x"))) "\\sec(2 \\cdot x)") = true := by decide +kernel

/-- Line 36: `assert_latex(atan(x), '\\tan^{-1}(x)')` -/
example : holds (tex (tTrig .atan (sy "x")) "\\tan^{-1}(x)") = true := by decide +kernel

/-- Line 37: `assert_latex(2 * log(abs(1 - x)) - x / 2, '2 \\cdot \\ln (| -x + 1 |) - \\frac x2')` -/
example : holds (tex (tSub (tMul (n (2)) (tLog (tAbs (tSub (n (1)) (sy "x"))))) (tDiv (sy "x") (n (2)))) "2 \\cdot \\ln (| -x + 1 |) - \\frac x2") = true := by decide +kernel

/-- Line 38: `assert_latex(-log(abs(x ** 2 + 1)) / 2 + x * atan(x), '-\\frac{\\ln \\left( \\left| x^2 + 1 \\right| \\right)}2 + x \\cdot \\tan^{-1} (x)')` -/
example : holds (tex (tAdd (tDiv (tNeg (tLog (tAbs (tAdd (tPow (sy "x") (n (2))) (n (1)))))) (n (2))) (tMul (sy "x") (tTrig .atan (sy "x")))) "-\\frac{\\ln \\left( \\left| x^2 + 1 \\right| \\right)}2 + x \\cdot \\tan^{-1} (x)") = true := by decide +kernel

/-! test_big_frac -/

/-- Line 45: `assert_latex(tan((2 + x) / (x + 3)), '\\tan \\left(\\frac{x + 2}{x + 3} \\right)')` -/
example : holds (tex (tTrig .tan (tDiv (tAdd (n (2)) (sy "x")) (tAdd (sy "x") (n (3))))) "\\tan \\left(\\frac{x + 2}{x + 3} \\right)") = true := by decide +kernel

end Simpy.Conform
