import Verif.Conform.Dsl

/-! The assertions of /repo/tests/test_trig_simplify.py that can be said in the model, evaluated in the kernel (written by tools/gen_conform.py).
These are tests of the model, not properties: they compare it with what the author of the program expects of it. -/

namespace Simpy.Conform
open Simpy Expr
set_option maxRecDepth 100000

/-! test_simple -/

/-- Line 11: `assert_simplified(1 / sin(x), csc(x))` -/
example : holds (strict (tSimplify (tDiv (n (1)) (tTrig .sin (sy "x")))) (tTrig .csc (sy "x"))) = true := by decide +kernel

/-- Line 12: `assert_simplified(1 / cos(x), sec(x))` -/
example : holds (strict (tSimplify (tDiv (n (1)) (tTrig .cos (sy "x")))) (tTrig .sec (sy "x"))) = true := by decide +kernel

/-- Line 13: `assert_simplified(sin(x) / cos(x), tan(x))` -/
example : holds (strict (tSimplify (tDiv (tTrig .sin (sy "x")) (tTrig .cos (sy "x")))) (tTrig .tan (sy "x"))) = true := by decide +kernel

/-! test_simple_2 -/

/-- Line 17: `assert_simplified(2 * sin(x) / cos(x), 2 * tan(x))` -/
example : holds (strict (tSimplify (tDiv (tMul (n (2)) (tTrig .sin (sy "x"))) (tTrig .cos (sy "x")))) (tMul (n (2)) (tTrig .tan (sy "x")))) = true := by decide +kernel

/-- Line 18: `assert_simplified(-sin(x) / cos(x), -tan(x))` -/
example : holds (strict (tSimplify (tDiv (tNeg (tTrig .sin (sy "x"))) (tTrig .cos (sy "x")))) (tNeg (tTrig .tan (sy "x")))) = true := by decide +kernel

/-- Line 19: `assert_simplified(2 / sin(x), 2 * csc(x))` -/
example : holds (strict (tSimplify (tDiv (n (2)) (tTrig .sin (sy "x")))) (tMul (n (2)) (tTrig .csc (sy "x")))) = true := by decide +kernel

/-- Line 20: `assert_simplified(-1 / sin(x), -csc(x))` -/
example : holds (strict (tSimplify (tDiv (n (-1)) (tTrig .sin (sy "x")))) (tNeg (tTrig .csc (sy "x")))) = true := by decide +kernel

/-! test_simplify_sin2x_plus_cos2x -/

/-- Line 28: `assert_simplified(expr, 4)` -/
example : holds (strict (tSimplify (tAdd (tAdd (tPow (tTrig .sin (sy "x")) (n (2))) (tPow (tTrig .cos (sy "x")) (n (2)))) (n (3)))) (n (4))) = true := by decide +kernel

/-- Line 32: `assert_simplified(expr, 4 + y ** 2 + cos(x))` -/
example : holds (strict (tSimplify (tAdd (tAdd (tAdd (tAdd (tPow (tTrig .sin (tSub (sy "x") (tMul (n (2)) (sy "y")))) (n (2))) (n (3))) (tPow (tTrig .cos (tSub (sy "x") (tMul (n (2)) (sy "y")))) (n (2)))) (tPow (sy "y") (n (2)))) (tTrig .cos (sy "x")))) (tAdd (tAdd (n (4)) (tPow (sy "y") (n (2)))) (tTrig .cos (sy "x")))) = true := by decide +kernel

/-- Line 36: `assert_simplified(expr, 2 * y)` -/
example : holds (strict (tSimplify (tAdd (tMul (tMul (n (2)) (sy "y")) (tPow (tTrig .sin (tPow (sy "x") (n (3)))) (n (2)))) (tMul (tMul (n (2)) (sy "y")) (tPow (tTrig .cos (tPow (sy "x") (n (3)))) (n (2)))))) (tMul (n (2)) (sy "y"))) = true := by decide +kernel

/-! test_simplify_one_minus_sin_squared -/

/-- Line 42: `assert_simplified(expr, -6 * cos(x) ** 2)` -/
example : holds (strict (tSimplify (tSub (tSub (tPow (tTrig .sin (sy "x")) (n (2))) (tMul (n (5)) (tPow (tTrig .cos (sy "x")) (n (2))))) (n (1)))) (tMul (n (-6)) (tPow (tTrig .cos (sy "x")) (n (2))))) = true := by decide +kernel

/-! test_one_plus_tan_squared -/

/-- Line 47: `assert_simplified(expr, sec(x + y) ** 2)` -/
example : holds (strict (tSimplify (tAdd (n (1)) (tPow (tTrig .tan (tAdd (sy "x") (sy "y"))) (n (2))))) (tPow (tTrig .sec (tAdd (sy "x") (sy "y"))) (n (2)))) = true := by decide +kernel

/-- Line 50: `assert_simplified(expr, 2 * sec(x + y) ** 2)` -/
example : holds (strict (tSimplify (tAdd (n (2)) (tMul (n (2)) (tPow (tTrig .tan (tAdd (sy "x") (sy "y"))) (n (2)))))) (tMul (n (2)) (tPow (tTrig .sec (tAdd (sy "x") (sy "y"))) (n (2))))) = true := by decide +kernel

/-! test_one_minus_sin_squared_up_to_sum -/

/-- Line 55: `assert_simplified(expr, x + cos(x) ** 2)` -/
example : holds (strict (tSimplify (tAdd (tSub (n (1)) (tPow (tTrig .sin (sy "x")) (n (2)))) (sy "x"))) (tAdd (sy "x") (tPow (tTrig .cos (sy "x")) (n (2))))) = true := by decide +kernel

/-! test_pts -/

/-- Line 68: `assert_simplified(e1, e2)` -/
example : holds (strict (tSimplify (tSub (tDiv (tMul (tMul (n (2)) (tTrig .cos (sy "x"))) (tTrig .sin (tMul (n (2)) (sy "x")))) (n (3))) (tDiv (tMul (tTrig .sin (sy "x")) (tTrig .cos (tMul (n (2)) (sy "x")))) (n (3))))) (tAdd (tDiv (tTrig .sin (tMul (n (3)) (sy "x"))) (n (6))) (tDiv (tTrig .sin (sy "x")) (n (2))))) = true := by decide +kernel

/-! test_sectan -/

/-- Line 75: `assert_eq_plusc(e1, e2)` -/
example : holds (plusC [] (tAdd (tSub (tDiv (n (1)) (tMul (n (4)) (tPow (tTrig .cos (sy "x")) (n (4))))) (tDiv (n (1)) (tMul (n (3)) (tPow (tTrig .cos (sy "x")) (n (6)))))) (tDiv (n (1)) (tMul (n (8)) (tPow (tTrig .cos (sy "x")) (n (8)))))) (tAdd (tDiv (tPow (tTrig .tan (sy "x")) (n (6))) (n (6))) (tDiv (tPow (tTrig .tan (sy "x")) (n (8))) (n (8))))) = true := by decide +kernel

/-! test_csc_squared_deriv -/

/-- Line 84: `assert_simplified(e1, e2)` -/
example : holds (strict (tSimplify (tSub (tDiv (tTrig .sin (sy "x")) (tTrig .cos (sy "x"))) (tDiv (tTrig .csc (sy "x")) (tTrig .cos (sy "x"))))) (tNeg (tTrig .cot (sy "x")))) = true := by decide +kernel

/-! test_complicated_pts -/

/-- Line 99: `assert_eq_value(e1, e2)` -/
example : holds (sameValue (tAdd (tSub (tSub (tSub (tAdd (tDiv (tMul (tTrig .sin (sy "x")) (tTrig .cos (tMul (n (4)) (sy "x")))) (n (120))) (tDiv (tMul (tTrig .sin (sy "x")) (tTrig .cos (tMul (n (2)) (sy "x")))) (n (12)))) (tDiv (tMul (tTrig .cos (sy "x")) (tTrig .sin (tMul (n (4)) (sy "x")))) (n (30)))) (tDiv (tMul (tTrig .cos (sy "x")) (tTrig .sin (tMul (n (2)) (sy "x")))) (n (6)))) (tDiv (tPow (tTrig .sin (sy "x")) (n (3))) (n (6)))) (tDiv (tMul (n (3)) (tTrig .sin (sy "x"))) (n (8)))) (tSub (tDiv (tPow (tTrig .sin (sy "x")) (n (3))) (n (3))) (tDiv (tPow (tTrig .sin (sy "x")) (n (5))) (n (5))))) = true := by decide +kernel

/-! test_complicated_pts_2 -/

/-- Line 109: `assert_eq_value(e1, e2)` -/
example : holds (sameValue (tAdd (tSub (tAdd (tDiv (tPow (tTrig .sin (tMul (n (2)) (sy "x"))) (n (3))) (n (48))) (tDiv (tMul (n (3)) (tTrig .sin (tMul (n (4)) (sy "x")))) (n (64)))) (tDiv (tTrig .sin (tMul (n (2)) (sy "x"))) (n (4)))) (tDiv (tMul (n (5)) (sy "x")) (n (16)))) (tDiv (tAdd (tSub (tSub (tMul (n (9)) (tTrig .sin (tMul (n (4)) (sy "x")))) (tTrig .sin (tMul (n (6)) (sy "x")))) (tMul (n (45)) (tTrig .sin (tMul (n (2)) (sy "x"))))) (tMul (n (60)) (sy "x"))) (n (192)))) = true := by decide +kernel

end Simpy.Conform
