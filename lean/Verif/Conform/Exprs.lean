import Verif.Conform.Dsl

/-! The assertions of /repo/tests/test_exprs.py that can be said in the model, evaluated in the kernel (written by tools/gen_conform.py).
These are tests of the model, not properties: they compare it with what the author of the program expects of it. -/

namespace Simpy.Conform
open Simpy Expr
set_option maxRecDepth 100000

/-! test_equality -/

/-- Line 13: `x == x` -/
example : holds (strict (sy "x") (sy "x")) = true := by decide +kernel

/-- Line 14: `x == Symbol('x')` -/
example : holds (strict (sy "x") (sy "x")) = true := by decide +kernel

/-- Line 15: `not x == y` -/
example : holds (fails (strict (sy "x") (sy "y"))) = true := by decide +kernel

/-- Line 16: `x != y` -/
example : holds (fails (strict (sy "x") (sy "y"))) = true := by decide +kernel

/-- Line 17: `not x == 2 * x` -/
example : holds (fails (strict (sy "x") (tMul (n (2)) (sy "x")))) = true := by decide +kernel

/-- Line 18: `x + 2 == x + 2` -/
example : holds (strict (tAdd (sy "x") (n (2))) (tAdd (sy "x") (n (2)))) = true := by decide +kernel

/-- Line 19: `x + 2 == 2 + x` -/
example : holds (strict (tAdd (sy "x") (n (2))) (tAdd (n (2)) (sy "x"))) = true := by decide +kernel

/-- Line 20: `x + 2 == Symbol('x') + 2` -/
example : holds (strict (tAdd (sy "x") (n (2))) (tAdd (sy "x") (n (2)))) = true := by decide +kernel

/-- Line 21: `x * y == y * x` -/
example : holds (strict (tMul (sy "x") (sy "y")) (tMul (sy "y") (sy "x"))) = true := by decide +kernel

/-- Line 24: `Rat(2) == 2` -/
example : holds (strict (n (2)) (n (2))) = true := by decide +kernel

/-- Line 25: `Rat(2) != 3` -/
example : holds (fails (strict (n (2)) (n (3)))) = true := by decide +kernel

/-- Line 26: `2 == Rat(2)` -/
example : holds (strict (n (2)) (n (2))) = true := by decide +kernel

/-- Line 29: `Rat(2) == Rat(2)` -/
example : holds (strict (n (2)) (n (2))) = true := by decide +kernel

/-- Line 32: `cos(x * 2) == cos(x * 2)` -/
example : holds (strict (tTrig .cos (tMul (sy "x") (n (2)))) (tTrig .cos (tMul (sy "x") (n (2))))) = true := by decide +kernel

/-! test_defaults -/

/-- Line 42: `Sum([]) == 0` -/
example : holds (strict (tSum []) (n (0))) = true := by decide +kernel

/-- Line 43: `Prod([]) == 1` -/
example : holds (strict (tProd []) (n (1))) = true := by decide +kernel

/-- Line 45: `assert_eq_strict(x * 0, 0)` -/
example : holds (strict (tMul (sy "x") (n (0))) (n (0))) = true := by decide +kernel

/-- Line 46: `assert_eq_strict(x * 2, 2 * x)` -/
example : holds (strict (tMul (sy "x") (n (2))) (tMul (n (2)) (sy "x"))) = true := by decide +kernel

/-- Line 47: `assert_eq_strict(x ** 2, x * x)` -/
example : holds (strict (tPow (sy "x") (n (2))) (tMul (sy "x") (sy "x"))) = true := by decide +kernel

/-- Line 48: `assert_eq_strict(x * 2 - 2 * x, 0)` -/
example : holds (strict (tSub (tMul (sy "x") (n (2))) (tMul (n (2)) (sy "x"))) (n (0))) = true := by decide +kernel

/-- Line 49: `assert_eq_strict((x + 1) ** 2 - (x + 1) * (x + 1), 0)` -/
example : holds (strict (tSub (tPow (tAdd (sy "x") (n (1))) (n (2))) (tMul (tAdd (sy "x") (n (1))) (tAdd (sy "x") (n (1))))) (n (0))) = true := by decide +kernel

/-! test_sum_combines_like_terms -/

/-- Line 53: `assert_eq_strict(x + x, 2 * x)` -/
example : holds (strict (tAdd (sy "x") (sy "x")) (tMul (n (2)) (sy "x"))) = true := by decide +kernel

/-- Line 54: `assert_eq_strict(x + x + x, 3 * x)` -/
example : holds (strict (tAdd (tAdd (sy "x") (sy "x")) (sy "x")) (tMul (n (3)) (sy "x"))) = true := by decide +kernel

/-- Line 55: `assert_eq_strict(3 * (x + 2) + 2 * (x + 2), 5 * (x + 2))` -/
example : holds (strict (tAdd (tMul (n (3)) (tAdd (sy "x") (n (2)))) (tMul (n (2)) (tAdd (sy "x") (n (2))))) (tMul (n (5)) (tAdd (sy "x") (n (2))))) = true := by decide +kernel

/-- Line 56: `assert_eq_strict(2 * x * y + 3 * x * y, 5 * x * y)` -/
example : holds (strict (tAdd (tMul (tMul (n (2)) (sy "x")) (sy "y")) (tMul (tMul (n (3)) (sy "x")) (sy "y"))) (tMul (tMul (n (5)) (sy "x")) (sy "y"))) = true := by decide +kernel

/-- Line 64: `assert_eq_strict(3 * x - 2 * x, x)` -/
example : holds (strict (tSub (tMul (n (3)) (sy "x")) (tMul (n (2)) (sy "x"))) (sy "x")) = true := by decide +kernel

/-! test_prod_combines_like_terms_prod -/

/-- Line 68: `assert_eq_strict(x ** 2, x * x)` -/
example : holds (strict (tPow (sy "x") (n (2))) (tMul (sy "x") (sy "x"))) = true := by decide +kernel

/-- Line 69: `assert_eq_strict(x ** 3, x * x * x)` -/
example : holds (strict (tPow (sy "x") (n (3))) (tMul (tMul (sy "x") (sy "x")) (sy "x"))) = true := by decide +kernel

/-- Line 74: `expr == 2` -/
example : holds (strict (tDiv (tMul (tMul (n (2)) (tTrig .sin (sy "x"))) (tPow (tTrig .cos (sy "x")) (n (2)))) (tMul (tTrig .sin (sy "x")) (tPow (tTrig .cos (sy "x")) (n (2))))) (n (2))) = true := by decide +kernel

/-! test_basic_power_simplification -/

/-- Line 78: `assert_eq_strict(x ** 0, 1)` -/
example : holds (strict (tPow (sy "x") (n (0))) (n (1))) = true := by decide +kernel

/-- Line 79: `assert_eq_strict(x ** 1, x)` -/
example : holds (strict (tPow (sy "x") (n (1))) (sy "x")) = true := by decide +kernel

/-- Line 80: `assert_eq_strict(Rat(2) ** 2, 4)` -/
example : holds (strict (tPow (n (2)) (n (2))) (n (4))) = true := by decide +kernel

/-- Line 81: `assert_eq_strict(sqrt(4), 2)` -/
example : holds (strict (tSqrt (n (4))) (n (2))) = true := by decide +kernel

/-- Line 82: `assert_eq_strict(sqrt(x) ** 2, x)` -/
example : holds (strict (tPow (tSqrt (sy "x")) (n (2))) (sy "x")) = true := by decide +kernel

/-- Line 83: `assert_eq_strict(2 / sqrt(2), sqrt(2))` -/
example : holds (strict (tDiv (n (2)) (tSqrt (n (2)))) (tSqrt (n (2)))) = true := by decide +kernel

/-! test_expandable -/

/-- Line 87: `not (x / (x + 2)).expandable()` -/
example : holds (fails (able (tDiv (sy "x") (tAdd (sy "x") (n (2)))))) = true := by decide +kernel

/-- Line 88: `((x + 2) / x).expandable()` -/
example : holds (able (tDiv (tAdd (sy "x") (n (2))) (sy "x"))) = true := by decide +kernel

/-- Line 89: `log(x * (x + 2)).expandable()` -/
example : holds (able (tLog (tMul (sy "x") (tAdd (sy "x") (n (2)))))) = true := by decide +kernel

/-- Line 90: `(log(x * (x + 2)) * 3).expandable()` -/
example : holds (able (tMul (tLog (tMul (sy "x") (tAdd (sy "x") (n (2))))) (n (3)))) = true := by decide +kernel

/-- Line 93: `(y / (x * (x + 6))).expandable()` -/
example : holds (able (tDiv (sy "y") (tMul (sy "x") (tAdd (sy "x") (n (6)))))) = true := by decide +kernel

/-! test_expand_prod -/

/-- Line 98: `assert_eq_strict((1 / (x * (x + 6))).expand(), 1 / (x ** 2 + x * 6))` -/
example : holds (strict (tExpand (tDiv (n (1)) (tMul (sy "x") (tAdd (sy "x") (n (6)))))) (tDiv (n (1)) (tAdd (tPow (sy "x") (n (2))) (tMul (sy "x") (n (6)))))) = true := by decide +kernel

/-- Line 99: `assert_eq_strict((y / (x * (x + 6))).expand(), y / (x ** 2 + x * 6))` -/
example : holds (strict (tExpand (tDiv (sy "y") (tMul (sy "x") (tAdd (sy "x") (n (6)))))) (tDiv (sy "y") (tAdd (tPow (sy "x") (n (2))) (tMul (sy "x") (n (6)))))) = true := by decide +kernel

/-- Line 101: `assert_eq_strict(((2 + x) / sin(x)).expand(), 2 / sin(x) + x / sin(x))` -/
example : holds (strict (tExpand (tDiv (tAdd (n (2)) (sy "x")) (tTrig .sin (sy "x")))) (tAdd (tDiv (n (2)) (tTrig .sin (sy "x"))) (tDiv (sy "x") (tTrig .sin (sy "x"))))) = true := by decide +kernel

/-! test_expand_neg_power -/

/-- Line 106: `expr.expandable()` -/
example : holds (able (tAdd (tSub (tPow (tAdd (tTrig .cos (tMul (n (2)) (sy "x"))) (n (1))) (n (2))) (tDiv (n (8)) (tMul (n (3)) (tPow (tAdd (tTrig .cos (tMul (n (2)) (sy "x"))) (n (1))) (n (3)))))) (tDiv (n (2)) (tPow (tAdd (tTrig .cos (tMul (n (2)) (sy "x"))) (n (1))) (n (-4)))))) = true := by decide +kernel

/-! test_flatten -/

/-- Line 110: `assert_eq_strict(x + (2 + y), x + 2 + y)` -/
example : holds (strict (tAdd (sy "x") (tAdd (n (2)) (sy "y"))) (tAdd (tAdd (sy "x") (n (2))) (sy "y"))) = true := by decide +kernel

/-! test_regex -/

/-- Line 119: `count(Rat(2), x) == 0` -/
example : holds (counts (n (2)) (sy "x") 0) = true := by decide +kernel

/-- Line 120: `count(tan(x + 1) ** 2 - 2 * x, x) == 2` -/
example : holds (counts (tSub (tPow (tTrig .tan (tAdd (sy "x") (n (1)))) (n (2))) (tMul (n (2)) (sy "x"))) (sy "x") 2) = true := by decide +kernel

/-! test_nesting -/

/-- Line 124: `nesting(x ** 2, x) == 2` -/
example : holds (nests "x" (tPow (sy "x") (n (2))) 2) = true := by decide +kernel

/-- Line 125: `nesting(x * y ** 2, x) == 2` -/
example : holds (nests "x" (tMul (sy "x") (tPow (sy "y") (n (2)))) 2) = true := by decide +kernel

/-- Line 126: `nesting(x * (1 / y ** 2 * 3), x) == 2` -/
example : holds (nests "x" (tMul (sy "x") (tMul (tDiv (n (1)) (tPow (sy "y") (n (2)))) (n (3)))) 2) = true := by decide +kernel

/-! test_repr -/

/-- Line 132: `expr.__repr__() == '-x^2 + 1'` -/
example : holds (text (tSub (n (1)) (tPow (sy "x") (n (2)))) "-x^2 + 1") = true := by decide +kernel

/-- Line 133: `repr(x - 2) == 'x - 2'` -/
example : holds (text (tSub (sy "x") (n (2))) "x - 2") = true := by decide +kernel

/-- Line 134: `(2 * x).__repr__() == '2*x'` -/
example : holds (text (tMul (n (2)) (sy "x")) "2*x") = true := by decide +kernel

/-- Line 135: `(2 * (2 + x)).__repr__() == '2*(x + 2)'` -/
example : holds (text (tMul (n (2)) (tAdd (n (2)) (sy "x"))) "2*(x + 2)") = true := by decide +kernel

/-- Line 136: `(2 / (2 + x)).__repr__() == '2/(x + 2)'` -/
example : holds (text (tDiv (n (2)) (tAdd (n (2)) (sy "x"))) "2/(x + 2)") = true := by decide +kernel

/-- Line 137: `repr(2 * (2 + x) ** (-2)) == repr(2 / (2 + x) ** 2) == '2/(x + 2)^2'` -/
example : holds (rand (sameText (tMul (n (2)) (tPow (tAdd (n (2)) (sy "x")) (n (-2)))) (tDiv (n (2)) (tPow (tAdd (n (2)) (sy "x")) (n (2))))) (text (tDiv (n (2)) (tPow (tAdd (n (2)) (sy "x")) (n (2)))) "2/(x + 2)^2")) = true := by decide +kernel

/-- Line 138: `repr(Rat(-1) ** Fraction(1, 4)) == '(-1)^(1/4)'` -/
example : holds (text (tPow (n (-1)) (n (1 / 4))) "(-1)^(1/4)") = true := by decide +kernel

/-- Line 139: `sqrt(3).__repr__() == 'sqrt(3)'` -/
example : holds (text (tSqrt (n (3))) "sqrt(3)") = true := by decide +kernel

/-- Line 140: `repr(1 / sqrt(1 - x ** 2)) == '1/sqrt(-x^2 + 1)'` -/
example : holds (text (tDiv (n (1)) (tSqrt (tSub (n (1)) (tPow (sy "x") (n (2)))))) "1/sqrt(-x^2 + 1)") = true := by decide +kernel

/-- Line 141: `repr(sqrt(1 / x)) == '1/sqrt(x)'` -/
example : holds (text (tSqrt (tDiv (n (1)) (sy "x"))) "1/sqrt(x)") = true := by decide +kernel

/-- Line 142: `repr(x ** (-Fraction(1, 2))) == '1/sqrt(x)'` -/
example : holds (text (tPow (sy "x") (n (-1 / 2))) "1/sqrt(x)") = true := by decide +kernel

/-- Line 145: `repr(sin(x) / (2 * x)) == 'sin(x)/(2*x)'` -/
example : holds (text (tDiv (tTrig .sin (sy "x")) (tMul (n (2)) (sy "x"))) "sin(x)/(2*x)") = true := by decide +kernel

/-- Line 147: `repr(x / 2) == 'x/2'` -/
example : holds (text (tDiv (sy "x") (n (2))) "x/2") = true := by decide +kernel

/-- Line 148: `repr(x * Fraction(1, 2)) == 'x/2'` -/
example : holds (text (tMul (sy "x") (n (1 / 2))) "x/2") = true := by decide +kernel

/-- Line 149: `repr(3 - 2 * x) == '-2*x + 3'` -/
example : holds (text (tSub (n (3)) (tMul (n (2)) (sy "x"))) "-2*x + 3") = true := by decide +kernel

/-- Line 152: `repr(poly) == 'x^5 + 3*x^4/2 - x^2 + 2*x + 3'` -/
example : holds (text (tSub (tAdd (tAdd (tAdd (tDiv (tMul (n (3)) (tPow (sy "x") (n (4)))) (n (2))) (tPow (sy "x") (n (5)))) (tMul (n (2)) (sy "x"))) (n (3))) (tPow (sy "x") (n (2)))) "x^5 + 3*x^4/2 - x^2 + 2*x + 3") = true := by decide +kernel

/-- Line 155: `repr(2 + log(2)) == 'ln(2) + 2'` -/
example : holds (text (tAdd (n (2)) (tLog (n (2)))) "ln(2) + 2") = true := by decide +kernel

/-- Line 156: `repr(log(4) + Rat(9, 16) - log(2)) == '-ln(2) + ln(4) + 9/16'` -/
example : holds (text (tSub (tAdd (tLog (n (4))) (n (9 / 16))) (tLog (n (2)))) "-ln(2) + ln(4) + 9/16") = true := by decide +kernel

/-- Line 157: `repr(Rat(2, 3) ** Rat(2, 3) * -1) == '-(2/3)^(2/3)'` -/
example : holds (text (tMul (tPow (n (2 / 3)) (n (2 / 3))) (n (-1))) "-(2/3)^(2/3)") = true := by decide +kernel

/-- Line 160: `repr(pi * 2) == '2*pi'` -/
example : holds (text (tMul (.ok pi) (n (2))) "2*pi") = true := by decide +kernel

/-- Line 161: `repr(pi * -2) == '-2*pi'` -/
example : holds (text (tMul (.ok pi) (n (-2))) "-2*pi") = true := by decide +kernel

/-! test_factor -/

/-- Line 184: `expr.factor() == expected` -/
example : holds (strict (tFactor (tAdd (tMul (n (6)) (sy "x")) (tPow (sy "x") (n (2))))) (tMul (sy "x") (tAdd (sy "x") (n (6))))) = true := by decide +kernel

/-- Line 196: `assert_eq_strict(factored, expected_factored)` -/
example : holds (strict (tFactor (tSub (tSub (tDiv (tMul (sy "c_3") (sy "r_3")) (tMul (tSqrt (sy "a")) (tSqrt (sy "b")))) (tDiv (tMul (tPow (sy "c_3") (n (2))) (tPow (sy "r_3") (n (2)))) (tMul (tMul (tMul (sy "c_4") (sy "r_4")) (tSqrt (sy "b"))) (tPow (sy "a") (n (3 / 2)))))) (tDiv (tMul (sy "c_4") (sy "r_4")) (tMul (tSqrt (sy "a")) (tPow (sy "b") (n (3 / 2))))))) (tMul (tDiv (n (1)) (tMul (tSqrt (sy "a")) (tSqrt (sy "b")))) (tSub (tSub (tMul (sy "c_3") (sy "r_3")) (tDiv (tMul (tPow (sy "c_3") (n (2))) (tPow (sy "r_3") (n (2)))) (tMul (tMul (sy "c_4") (sy "r_4")) (sy "a")))) (tDiv (tMul (sy "c_4") (sy "r_4")) (sy "b"))))) = true := by decide +kernel

/-! test_factor_const -/

/-- Line 231: `assert_eq_strict(expected, factored)` -/
example : holds (strict (tMul (n (2)) (tSub (n (1)) (sy "x"))) (tFactor (tSub (n (2)) (tMul (n (2)) (sy "x"))))) = true := by decide +kernel

/-! test_strict_const_power_simplification -/

/-- Line 242: `assert_eq_strict(expr, expected)` -/
example : holds (strict (tPower (n (3 / 4)) (n (1 / 2))) (tProd [(tPower (n (3)) (n (1 / 2))), (n (1 / 2))])) = true := by decide +kernel

/-- Line 246: `assert_eq_strict(expr, expected)` -/
example : holds (strict (tPower (n (4 / 3)) (n (1 / 2))) (tProd [(n (2)), (tPower (n (3)) (n (-1 / 2)))])) = true := by decide +kernel

/-- Line 250: `assert_eq_strict(expr, expected)` -/
example : holds (strict (tPower (n (3 / 4)) (n (-1 / 2))) (tProd [(tPower (n (3)) (n (-1 / 2))), (n (2))])) = true := by decide +kernel

/-- Line 254: `assert_eq_strict(expr, expected)` -/
example : holds (strict (tPower (n (4 / 3)) (n (-1 / 2))) (tProd [(n (1 / 2)), (tPower (n (3)) (n (1 / 2)))])) = true := by decide +kernel

/-- Line 259: `assert_eq_strict(expr, expected)` -/
example : holds (strict (tPower (n (-4 / 3)) (n (1 / 2))) (tPower (n (-4 / 3)) (n (1 / 2)))) = true := by decide +kernel

/-- Line 264: `assert_eq_strict(expr, expected)` -/
example : holds (strict (tPower (n (-8 / 3)) (n (1 / 3))) (tProd [(n (-2)), (tPower (n (3)) (n (-1 / 3)))])) = true := by decide +kernel

/-- Line 267: `assert_eq_strict(expr, expected)` -/
example : holds (strict (tPower (n (-8 / 3)) (n (-1 / 3))) (tProd [(n (-1 / 2)), (tPower (n (3)) (n (1 / 3)))])) = true := by decide +kernel

/-- Line 272: `assert_eq_strict(expr, expected)` -/
example : holds (strict (tPower (n (1 / 36)) (n (-1 / 2))) (n (6))) = true := by decide +kernel

/-- Line 276: `assert_eq_strict(expr, expected)` -/
example : holds (strict (tPower (n (36)) (n (-1 / 2))) (n (1 / 6))) = true := by decide +kernel

/-- Line 280: `assert_eq_strict(expr, expected)` -/
example : holds (strict (tPower (n (36)) (n (1 / 2))) (n (6))) = true := by decide +kernel

/-- Line 284: `assert_eq_strict(expr, expected)` -/
example : holds (strict (tPower (n (1 / 36)) (n (1 / 2))) (n (1 / 6))) = true := by decide +kernel

/-- Line 297: `assert_eq_strict(expr, expected)` -/
example : holds (strict (tPower (tPower (n (2)) (n (1 / 2))) (n (-1))) (tPower (n (2)) (n (-1 / 2)))) = true := by decide +kernel

/-! test_fractional_power_beauty_standards -/

/-- Line 314: `assert_eq_strict(f53 ** half, f35 ** neg_half)` -/
example : holds (strict (tPow (n (5 / 3)) (n (1 / 2))) (tPow (n (3 / 5)) (n (-1 / 2)))) = true := by decide +kernel

/-- Line 315: `assert_eq_strict(f35 ** half, f53 ** neg_half)` -/
example : holds (strict (tPow (n (3 / 5)) (n (1 / 2))) (tPow (n (5 / 3)) (n (-1 / 2)))) = true := by decide +kernel

/-- Line 317: `repr(Power(half, neg_half)) == 'sqrt(2)'` -/
example : holds (text (tPower (n (1 / 2)) (n (-1 / 2))) "sqrt(2)") = true := by decide +kernel

/-- Line 318: `assert_eq_strict(Power(half, neg_half), Power(Rat(2), half))` -/
example : holds (strict (tPower (n (1 / 2)) (n (-1 / 2))) (tPower (n (2)) (n (1 / 2)))) = true := by decide +kernel

/-- Line 321: `repr(Power(half, neg_f17)) == '2^(1/7)'` -/
example : holds (text (tPower (n (1 / 2)) (n (-1 / 7))) "2^(1/7)") = true := by decide +kernel

/-- Line 322: `repr(Power(f17, neg_f17)) == '7^(1/7)'` -/
example : holds (text (tPower (n (1 / 7)) (n (-1 / 7))) "7^(1/7)") = true := by decide +kernel

/-- Line 328: `repr(e1) == repr(e2) == '1/3^(1/7)'` -/
example : holds (rand (sameText (tPower (n (1 / 3)) (n (1 / 7))) (tPower (n (3)) (n (-1 / 7)))) (text (tPower (n (3)) (n (-1 / 7))) "1/3^(1/7)")) = true := by decide +kernel

/-- Line 329: `assert_eq_strict(e1, e2)` -/
example : holds (strict (tPower (n (1 / 3)) (n (1 / 7))) (tPower (n (3)) (n (-1 / 7)))) = true := by decide +kernel

/-! test_singlefuncs_auto_simplify_special_values -/

/-- Line 333: `assert_eq_strict(log(1), 0)` -/
example : holds (strict (tLog (n (1))) (n (0))) = true := by decide +kernel

/-- Line 334: `assert_eq_strict(log(e ** x), x)` -/
example : holds (strict (tLog (tPow (.ok euler) (sy "x"))) (sy "x")) = true := by decide +kernel

/-- Line 335: `assert_eq_strict(sin(3 * pi), 0)` -/
example : holds (strict (tTrig .sin (tMul (n (3)) (.ok pi))) (n (0))) = true := by decide +kernel

/-- Line 336: `assert_eq_strict(cos(5 * pi), -1)` -/
example : holds (strict (tTrig .cos (tMul (n (5)) (.ok pi))) (n (-1))) = true := by decide +kernel

/-- Line 337: `assert_eq_strict(csc(pi / 2), 1)` -/
example : holds (strict (tTrig .csc (tDiv (.ok pi) (n (2)))) (n (1))) = true := by decide +kernel

/-- Line 338: `assert_eq_strict(cot(pi / 4), 1)` -/
example : holds (strict (tTrig .cot (tDiv (.ok pi) (n (4)))) (n (1))) = true := by decide +kernel

/-- Line 339: `assert_eq_strict(cos(-x), cos(x))` -/
example : holds (strict (tTrig .cos (tNeg (sy "x"))) (tTrig .cos (sy "x"))) = true := by decide +kernel

/-- Line 340: `assert_eq_strict(sin(-x), -sin(x))` -/
example : holds (strict (tTrig .sin (tNeg (sy "x"))) (tNeg (tTrig .sin (sy "x")))) = true := by decide +kernel

/-- Line 341: `assert_eq_strict(tan(-x), -tan(x))` -/
example : holds (strict (tTrig .tan (tNeg (sy "x"))) (tNeg (tTrig .tan (sy "x")))) = true := by decide +kernel

/-- Line 342: `assert_eq_strict(sin(acos(x + y)), sqrt(1 - (x + y) ** 2))` -/
example : holds (strict (tTrig .sin (tTrig .acos (tAdd (sy "x") (sy "y")))) (tSqrt (tSub (n (1)) (tPow (tAdd (sy "x") (sy "y")) (n (2)))))) = true := by decide +kernel

/-- Line 343: `assert_eq_strict(csc(acos(x + y)), 1 / sqrt(1 - (x + y) ** 2))` -/
example : holds (strict (tTrig .csc (tTrig .acos (tAdd (sy "x") (sy "y")))) (tDiv (n (1)) (tSqrt (tSub (n (1)) (tPow (tAdd (sy "x") (sy "y")) (n (2))))))) = true := by decide +kernel

/-- Line 344: `assert_eq_strict(sec(acos(x + y)), 1 / (x + y))` -/
example : holds (strict (tTrig .sec (tTrig .acos (tAdd (sy "x") (sy "y")))) (tDiv (n (1)) (tAdd (sy "x") (sy "y")))) = true := by decide +kernel

/-- Line 345: `assert_eq_strict(atan(cot(3 * x + 2)), 1 / (3 * x + 2))` -/
example : holds (strict (tTrig .atan (tTrig .cot (tAdd (tMul (n (3)) (sy "x")) (n (2))))) (tDiv (n (1)) (tAdd (tMul (n (3)) (sy "x")) (n (2))))) = true := by decide +kernel

/-! test_trigfuncs_auto_simplify_plus_2pis -/

/-- Line 349: `assert_eq_strict(cos(x + 2 * pi), cos(x))` -/
example : holds (strict (tTrig .cos (tAdd (sy "x") (tMul (n (2)) (.ok pi)))) (tTrig .cos (sy "x"))) = true := by decide +kernel

/-- Line 350: `assert_eq_strict(sin(x + e ** y + 4 * pi), sin(x + e ** y))` -/
example : holds (strict (tTrig .sin (tAdd (tAdd (sy "x") (tPow (.ok euler) (sy "y"))) (tMul (n (4)) (.ok pi)))) (tTrig .sin (tAdd (sy "x") (tPow (.ok euler) (sy "y"))))) = true := by decide +kernel

/-- Line 353: `assert_eq_strict(tan(x + pi), tan(x))` -/
example : holds (strict (tTrig .tan (tAdd (sy "x") (.ok pi))) (tTrig .tan (sy "x"))) = true := by decide +kernel

/-- Line 356: `assert_eq_strict(asin(x + 2 * pi), asin(x + 2 * pi))` -/
example : holds (strict (tTrig .asin (tAdd (sy "x") (tMul (n (2)) (.ok pi)))) (tTrig .asin (tAdd (sy "x") (tMul (n (2)) (.ok pi))))) = true := by decide +kernel

/-! test_trigfuncs_auto_simplify_more_complex_negs -/

/-- Line 360: `assert_eq_strict(cos(-x - 2), cos(x + 2))` -/
example : holds (strict (tTrig .cos (tSub (tNeg (sy "x")) (n (2)))) (tTrig .cos (tAdd (sy "x") (n (2))))) = true := by decide +kernel

/-! test_is_subtraction -/

/-- Line 388: `x.is_subtraction is False` -/
example : holds (isSub (sy "x") false) = true := by decide +kernel

/-- Line 389: `(-x).is_subtraction is True` -/
example : holds (isSub (tNeg (sy "x")) true) = true := by decide +kernel

/-- Line 390: `Rat(0).is_subtraction is False` -/
example : holds (isSub (n (0)) false) = true := by decide +kernel

/-- Line 391: `Rat(-2).is_subtraction is True` -/
example : holds (isSub (n (-2)) true) = true := by decide +kernel

/-- Line 392: `(e ** x).is_subtraction is False` -/
example : holds (isSub (tPow (.ok euler) (sy "x")) false) = true := by decide +kernel

/-- Line 393: `(-e ** (-x)).is_subtraction is True` -/
example : holds (isSub (tNeg (tPow (.ok euler) (tNeg (sy "x")))) true) = true := by decide +kernel

/-- Line 394: `(Rat(-3) ** 3).is_subtraction is True` -/
example : holds (isSub (tPow (n (-3)) (n (3))) true) = true := by decide +kernel

/-- Line 395: `(Rat(Fraction(-3, 2)) ** Fraction(1, 3)).is_subtraction is True` -/
example : holds (isSub (tPow (n (-3 / 2)) (n (1 / 3))) true) = true := by decide +kernel

/-- Line 396: `(Rat(Fraction(-3, 2)) ** Fraction(-2, 3)).is_subtraction is True` -/
example : holds (isSub (tPow (n (-3 / 2)) (n (-2 / 3))) true) = true := by decide +kernel

/-- Line 397: `(Rat(Fraction(-3, 2)) ** Fraction(1, 2)).is_subtraction is False` -/
example : holds (isSub (tPow (n (-3 / 2)) (n (1 / 2))) false) = true := by decide +kernel

/-! test_power_abs -/

/-- Line 401: `sqrt(x ** 2) == abs(x)` -/
example : holds (strict (tSqrt (tPow (sy "x") (n (2)))) (tAbs (sy "x"))) = true := by decide +kernel

/-- Line 402: `sqrt(x) ** 2 == x` -/
example : holds (strict (tPow (tSqrt (sy "x")) (n (2))) (sy "x")) = true := by decide +kernel

/-- Line 403: `(x ** 6) ** Rat(1, 6) == abs(x)` -/
example : holds (strict (tPow (tPow (sy "x") (n (6))) (n (1 / 6))) (tAbs (sy "x"))) = true := by decide +kernel

/-- Line 404: `(x ** 3) ** Rat(1, 3) == x` -/
example : holds (strict (tPow (tPow (sy "x") (n (3))) (n (1 / 3))) (sy "x")) = true := by decide +kernel

end Simpy.Conform
