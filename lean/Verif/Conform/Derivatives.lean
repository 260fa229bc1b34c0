import Verif.Conform.Dsl

/-! The assertions of /repo/tests/test_derivatives.py that can be said in the model, evaluated in the kernel (written by tools/gen_conform.py).
These are tests of the model, not properties: they compare it with what the author of the program expects of it. -/

namespace Simpy.Conform
open Simpy Expr
set_option maxRecDepth 100000

/-! test_basic_differentiation -/

/-- Line 16: `assert_diff(2 ** x, log(2) * 2 ** x)` -/
example : holds (sameValue (tDiff "x" (tPow (n (2)) (sy "x"))) (tMul (tLog (n (2))) (tPow (n (2)) (sy "x")))) = true := by decide +kernel

/-- Line 17: `assert_diff(x ** 7, 7 * x ** 6)` -/
example : holds (sameValue (tDiff "x" (tPow (sy "x") (n (7)))) (tMul (n (7)) (tPow (sy "x") (n (6))))) = true := by decide +kernel

/-- Line 18: `assert_diff(log(x), 1 / x)` -/
example : holds (sameValue (tDiff "x" (tLog (sy "x"))) (tDiv (n (1)) (sy "x"))) = true := by decide +kernel

/-! test_kh_derivatives -/

/-- Line 22: `assert_diff_(cot(x), 5 * pi / 3, Fraction(-4, 3))` -/
example : holds (strict (tSubs "x" (tDiv (tMul (n (5)) (.ok pi)) (n (3))) (tDiff "x" (tTrig .cot (sy "x")))) (n (-4 / 3))) = true := by decide +kernel

/-- Line 23: `assert_diff_(sec(x), 0, 0)` -/
example : holds (strict (tSubs "x" (n (0)) (tDiff "x" (tTrig .sec (sy "x")))) (n (0))) = true := by decide +kernel

/-- Line 24: `assert_diff_(tan(x), 2 * pi / 3, 4)` -/
example : holds (strict (tSubs "x" (tDiv (tMul (n (2)) (.ok pi)) (n (3))) (tDiff "x" (tTrig .tan (sy "x")))) (n (4))) = true := by decide +kernel

/-- Line 25: `assert_diff_(sec(x), 11 * pi / 6, -Fraction(2, 3))` -/
example : holds (strict (tSubs "x" (tDiv (tMul (n (11)) (.ok pi)) (n (6))) (tDiff "x" (tTrig .sec (sy "x")))) (n (-2 / 3))) = true := by decide +kernel

/-- Line 26: `assert_diff_(csc(x), pi / 2, 0)` -/
example : holds (strict (tSubs "x" (tDiv (.ok pi) (n (2))) (tDiff "x" (tTrig .csc (sy "x")))) (n (0))) = true := by decide +kernel

/-- Line 27: `assert_diff_(csc(x), 3 * pi / 4, sqrt(2))` -/
example : holds (strict (tSubs "x" (tDiv (tMul (n (3)) (.ok pi)) (n (4))) (tDiff "x" (tTrig .csc (sy "x")))) (tSqrt (n (2)))) = true := by decide +kernel

/-- Line 29: `assert_diff(-4 * e ** x - sin(x) - 9, -4 * e ** x - cos(x))` -/
example : holds (sameValue (tDiff "x" (tSub (tSub (tMul (n (-4)) (tPow (.ok euler) (sy "x"))) (tTrig .sin (sy "x"))) (n (9)))) (tSub (tMul (n (-4)) (tPow (.ok euler) (sy "x"))) (tTrig .cos (sy "x")))) = true := by decide +kernel

/-- Line 30: `assert_diff(-4 * x ** 3 - sin(x), -cos(x) - 12 * x ** 2)` -/
example : holds (sameValue (tDiff "x" (tSub (tMul (n (-4)) (tPow (sy "x") (n (3)))) (tTrig .sin (sy "x")))) (tSub (tNeg (tTrig .cos (sy "x"))) (tMul (n (12)) (tPow (sy "x") (n (2)))))) = true := by decide +kernel

/-- Line 31: `assert_diff(sqrt(x) * e ** x, e ** x / (2 * sqrt(x)) + sqrt(x) * e ** x)` -/
example : holds (sameValue (tDiff "x" (tMul (tSqrt (sy "x")) (tPow (.ok euler) (sy "x")))) (tAdd (tDiv (tPow (.ok euler) (sy "x")) (tMul (n (2)) (tSqrt (sy "x")))) (tMul (tSqrt (sy "x")) (tPow (.ok euler) (sy "x"))))) = true := by decide +kernel

/-- Line 32: `assert_diff(cos(x) / log(x), (-x * sin(x) * log(x) - cos(x)) / (x * log(x) ** 2))` -/
example : holds (sameValue (tDiff "x" (tDiv (tTrig .cos (sy "x")) (tLog (sy "x")))) (tDiv (tSub (tMul (tMul (tNeg (sy "x")) (tTrig .sin (sy "x"))) (tLog (sy "x"))) (tTrig .cos (sy "x"))) (tMul (sy "x") (tPow (tLog (sy "x")) (n (2)))))) = true := by decide +kernel

/-- Line 33: `assert_diff(sin(x) / e ** x, (cos(x) - sin(x)) / e ** x)` -/
example : holds (sameValue (tDiff "x" (tDiv (tTrig .sin (sy "x")) (tPow (.ok euler) (sy "x")))) (tDiv (tSub (tTrig .cos (sy "x")) (tTrig .sin (sy "x"))) (tPow (.ok euler) (sy "x")))) = true := by decide +kernel

/-- Line 35: `assert_diff(sec(y ** 3 * pi) / 4, 0)` -/
example : holds (sameValue (tDiff "x" (tDiv (tTrig .sec (tMul (tPow (sy "y") (n (3))) (.ok pi))) (n (4)))) (n (0))) = true := by decide +kernel

/-! test_power_with_var_in_base_and_exp -/

/-- Line 43: `assert_diff(x ** x, e ** x * (1 + log(x)))` (expected to fail) -/
example : holds (sameValue (tDiff "x" (tPow (sy "x") (sy "x"))) (tMul (tPow (.ok euler) (sy "x")) (tAdd (n (1)) (tLog (sy "x"))))) = false := by decide +kernel

end Simpy.Conform
