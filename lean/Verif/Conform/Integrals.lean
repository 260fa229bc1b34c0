import Verif.Conform.Dsl

/-! The assertions of /repo/tests/test_integrals.py that can be said in the model, evaluated in the kernel (written by tools/gen_conform.py).
These are tests of the model, not properties: they compare it with what the author of the program expects of it. -/

namespace Simpy.Conform
open Simpy Expr
set_option maxRecDepth 100000

/-! test_basic_integrals -/

/-- Line 19: `assert_definite_integral(2, (x, 5, 3), -4)` -/
example : holds (strict (tIntF "x" (n (5)) (n (3)) (n (2))) (n (-4))) = true := by decide +kernel

/-- Line 20: `assert_integral(x ** Fraction(7, 3), Fraction(3, 10) * x ** Fraction(10, 3))` -/
example : holds (plusC [] (tInt (tPow (sy "x") (n (7 / 3)))) (tMul (n (3 / 10)) (tPow (sy "x") (n (10 / 3))))) = true := by decide +kernel

/-- Line 21: `assert_integral(3 * x ** 2 - 2 * x, x ** 3 - x ** 2)` -/
example : holds (plusC [] (tInt (tSub (tMul (n (3)) (tPow (sy "x") (n (2)))) (tMul (n (2)) (sy "x")))) (tSub (tPow (sy "x") (n (3))) (tPow (sy "x") (n (2))))) = true := by decide +kernel

/-- Line 22: `assert_integral((x + 1) ** 2, x + x ** 2 + x ** 3 / 3)` -/
example : holds (plusC [] (tInt (tPow (tAdd (sy "x") (n (1))) (n (2)))) (tAdd (tAdd (sy "x") (tPow (sy "x") (n (2)))) (tDiv (tPow (sy "x") (n (3))) (n (3))))) = true := by decide +kernel

/-- Line 23: `assert_integral(x ** 12, x ** 13 / 13)` -/
example : holds (plusC [] (tInt (tPow (sy "x") (n (12)))) (tDiv (tPow (sy "x") (n (13))) (n (13)))) = true := by decide +kernel

/-- Line 24: `assert_integral(1 / x, log(abs(x)))` -/
example : holds (plusC [] (tInt (tDiv (n (1)) (sy "x"))) (tLog (tAbs (sy "x")))) = true := by decide +kernel

/-- Line 25: `assert_definite_integral(1 / x, (x, 1, 2), log(2))` -/
example : holds (strict (tIntF "x" (n (1)) (n (2)) (tDiv (n (1)) (sy "x"))) (tLog (n (2)))) = true := by decide +kernel

/-- Line 26: `assert_integral(y, x * y, var=x)` -/
example : holds (plusC [] (tIntV "x" (sy "y")) (tMul (sy "x") (sy "y"))) = true := by decide +kernel

/-- Line 27: `assert_integral(tan(y), x * tan(y), var=x)` -/
example : holds (plusC [] (tIntV "x" (tTrig .tan (sy "y"))) (tMul (sy "x") (tTrig .tan (sy "y")))) = true := by decide +kernel

/-! test_stat_polynomials -/

/-- Line 34: `(I1, I2, I3) == (F(23, 378000), F(2589, 56000), F(37, 224))` -/
example : holds (rand (strict (tIntF "x" (n (5)) (n (6)) (tDiv (tMul (tDiv (sy "x") (n (90))) (tPow (tSub (sy "x") (n (5))) (n (2)))) (n (350)))) (n (23 / 378000))) (rand (strict (tIntF "x" (n (6)) (n (15)) (tDiv (tMul (tSub (n (1 / 15)) (tMul (n (1 / 360)) (tSub (sy "x") (n (6))))) (tPow (tSub (sy "x") (n (5))) (n (2)))) (n (350)))) (n (2589 / 56000))) (strict (tIntF "x" (n (15)) (n (30)) (tMul (tSub (n (1 / 15)) (tMul (n (1 / 360)) (tSub (sy "x") (n (6))))) (tSub (n (1)) (tDiv (tPow (tSub (n (40)) (sy "x")) (n (2))) (n (875)))))) (n (37 / 224))))) = true := by decide +kernel

/-! test_lecture_example -/

/-- Line 45: `assert_integral(expression, expected_integral)` -/
example : holds (plusC [] (tInt (tDiv (tMul (n (-5)) (tPow (sy "x") (n (4)))) (tPow (tSub (n (1)) (tPow (sy "x") (n (2)))) (n (5 / 2))))) (tMul (n (-5)) (tAdd (tAdd (tNeg (tDiv (sy "x") (tSqrt (tSub (n (1)) (tPow (sy "x") (n (2))))))) (tDiv (tMul (n (1 / 3)) (tPow (sy "x") (n (3)))) (tPow (tSub (n (1)) (tPow (sy "x") (n (2)))) (n (3 / 2))))) (tTrig .asin (sy "x"))))) = true := by decide +kernel

/-! test_x2_sqrt_1_x3 -/

/-- Line 51: `assert_integral(expression, expected)` -/
example : holds (plusC [] (tInt (tDiv (tPow (sy "x") (n (2))) (tSqrt (tSub (n (1)) (tPow (sy "x") (n (3))))))) (tDiv (tMul (n (-2)) (tSqrt (tSub (n (1)) (tPow (sy "x") (n (3)))))) (n (3)))) = true := by decide +kernel

/-! test_compound_angle -/

/-- Line 62: `assert_eq_plusc(ac_power, expected)` -/
example : holds (plusC [] (tMul (tDiv (n (1)) (tDiv (tMul (n (2)) (.ok pi)) (sy "w"))) (tIntF "t" (n (0)) (tDiv (tMul (n (2)) (.ok pi)) (sy "w")) (tMul (tTrig .cos (tSub (tMul (sy "w") (sy "t")) (sy "\\phi"))) (tTrig .cos (tMul (sy "w") (sy "t")))))) (tDiv (tTrig .cos (sy "\\phi")) (n (2)))) = true := by decide +kernel

/-! test_sin2x -/

/-- Line 70: `assert_integral(expr, expected)` -/
example : holds (plusC [] (tInt (tPow (tTrig .sin (sy "x")) (n (2)))) (tSub (tDiv (sy "x") (n (2))) (tDiv (tTrig .sin (tMul (n (2)) (sy "x"))) (n (4))))) = true := by decide +kernel

/-! test_cos2x -/

/-- Line 78: `assert_integral(expr, expected)` -/
example : holds (plusC [] (tInt (tPow (tTrig .cos (sy "x")) (n (2)))) (tAdd (tDiv (tTrig .sin (tMul (n (2)) (sy "x"))) (n (4))) (tDiv (sy "x") (n (2))))) = true := by decide +kernel

/-! test_linear_usub_with_multiple_subs -/

/-- Line 88: `integral == expected or integral == expected2` -/
example : holds (ror (strict (tInt (tDiv (tTrig .sin (tMul (n (2)) (sy "x"))) (tTrig .cos (tMul (n (2)) (sy "x"))))) (tDiv (tNeg (tLog (tAbs (tTrig .cos (tMul (n (2)) (sy "x")))))) (n (2)))) (strict (tInt (tDiv (tTrig .sin (tMul (n (2)) (sy "x"))) (tTrig .cos (tMul (n (2)) (sy "x"))))) (tDiv (tLog (tAbs (tTrig .sec (tMul (n (2)) (sy "x"))))) (n (2))))) = true := by decide +kernel

/-! test_misc -/

/-- Line 96: `assert_eq_plusc(integrate(expr, t), expected, t)` -/
example : holds (plusC ["t"] (tIntV "t" (tMul (tTrig .sin (tMul (sy "w") (sy "t"))) (tTrig .cos (tMul (sy "w") (sy "t"))))) (tDiv (tPow (tTrig .sin (tMul (sy "w") (sy "t"))) (n (2))) (tMul (n (2)) (sy "w")))) = true := by decide +kernel

/-- Line 99: `assert_eq_strict((x * log(x) - x).diff(x), log(x))` -/
example : holds (strict (tDiff "x" (tSub (tMul (sy "x") (tLog (sy "x"))) (sy "x"))) (tLog (sy "x"))) = true := by decide +kernel

/-- Line 100: `assert_integral(log(x), x * log(x) - x)` -/
example : holds (plusC [] (tInt (tLog (sy "x"))) (tSub (tMul (sy "x") (tLog (sy "x"))) (sy "x"))) = true := by decide +kernel

/-- Line 104: `assert_integral(integrand, expected)` -/
example : holds (plusC [] (tInt (tDiv (tLog (tAdd (sy "x") (n (6)))) (tPow (sy "x") (n (2))))) (tSub (tSub (tDiv (tLog (tAbs (sy "x"))) (n (6))) (tDiv (tLog (tAdd (sy "x") (n (6)))) (sy "x"))) (tDiv (tLog (tAbs (tAdd (sy "x") (n (6))))) (n (6))))) = true := by decide +kernel

/-- Line 109: `ans is None` -/
example : holds (isNone (tIntV "x" (tSqrt (tAdd (tPow (sy "x") (n (2))) (n (11)))))) = true := by decide +kernel

/-- Line 114: `assert_integral(integrand, expected_ans)` -/
example : holds (plusC [] (tInt (tMul (tTrig .cos (sy "x")) (tTrig .cos (tMul (n (2)) (sy "x"))))) (tAdd (tDiv (tTrig .sin (tMul (n (3)) (sy "x"))) (n (6))) (tDiv (tTrig .sin (sy "x")) (n (2))))) = true := by decide +kernel

/-! test_integrate_with_completing_the_square -/

/-- Line 120: `assert_integral(expr, expected)` -/
example : holds (plusC [] (tInt (tDiv (n (1)) (tSqrt (tAdd (tAdd (tNeg (tPow (sy "x") (n (2)))) (tMul (n (10)) (sy "x"))) (n (11)))))) (tTrig .asin (tDiv (tSub (sy "x") (n (5))) (n (6))))) = true := by decide +kernel

/-! test_area_between -/

/-- Line 133: `assert_eq_value(ans, pi)` -/
example : holds (sameValue (tSub (tDiv (tIntF "theta" (tDiv (.ok pi) (n (6))) (tDiv (tMul (n (5)) (.ok pi)) (n (6))) (tPow (tMul (n (3)) (tTrig .sin (sy "theta"))) (n (2)))) (n (2))) (tDiv (tIntF "theta" (tDiv (.ok pi) (n (6))) (tDiv (tMul (n (5)) (.ok pi)) (n (6))) (tPow (tAdd (n (1)) (tTrig .sin (sy "theta"))) (n (2)))) (n (2)))) (.ok pi)) = true := by decide +kernel

/-! test_multiterm_pts -/

/-- Line 138: `assert_integral(expr, 2 * sin(x) ** 3 / 3 - 4 * sin(x) ** 5 / 5)` -/
example : holds (plusC [] (tInt (tMul (tMul (tTrig .sin (sy "x")) (tTrig .cos (tMul (n (2)) (sy "x")))) (tTrig .sin (tMul (n (2)) (sy "x"))))) (tSub (tDiv (tMul (n (2)) (tPow (tTrig .sin (sy "x")) (n (3)))) (n (3))) (tDiv (tMul (n (4)) (tPow (tTrig .sin (sy "x")) (n (5)))) (n (5))))) = true := by decide +kernel

end Simpy.Conform
