import Verif.Conform.Dsl

/-! The assertions of /repo/tests/test_khan_academy_integrals.py that can be said in the model, evaluated in the kernel (written by tools/gen_conform.py).
These are tests of the model, not properties: they compare it with what the author of the program expects of it. -/

namespace Simpy.Conform
open Simpy Expr
set_option maxRecDepth 100000

/-! test_ex -/

/-- Line 15: `assert_eq_plusc(ans, 6 * e ** 12 - 6 * e ** 6)` -/
example : holds (plusC [] (tIntF "x" (n (6)) (n (12)) (tMul (n (6)) (tPow (.ok euler) (sy "x")))) (tSub (tMul (n (6)) (tPow (.ok euler) (n (12)))) (tMul (n (6)) (tPow (.ok euler) (n (6)))))) = true := by decide +kernel

/-! test_xcosx -/

/-- Line 22: `assert_eq_plusc(ans, 3 * pi / 2 - 1)` -/
example : holds (plusC [] (tIntF "x" (tDiv (tMul (n (3)) (.ok pi)) (n (2))) (.ok pi) (tMul (sy "x") (tTrig .cos (sy "x")))) (tSub (tDiv (tMul (n (3)) (.ok pi)) (n (2))) (n (1)))) = true := by decide +kernel

/-! test_partial_fractions -/

/-- Line 28: `assert_integral(integrand, expected_ans)` -/
example : holds (plusC [] (tInt (tDiv (tAdd (sy "x") (n (8))) (tMul (sy "x") (tAdd (sy "x") (n (6)))))) (tSub (tMul (n (4 / 3)) (tLog (tAbs (sy "x")))) (tMul (n (1 / 3)) (tLog (tAbs (tAdd (sy "x") (n (6)))))))) = true := by decide +kernel

/-- Line 32: `assert_integral(integrand, expected_ans)` -/
example : holds (plusC [] (tInt (tDiv (tDiv (tSub (n (18)) (tMul (n (12)) (sy "x"))) (tSub (tMul (n (4)) (sy "x")) (n (1)))) (tSub (sy "x") (n (4))))) (tSub (tNeg (tLog (tAbs (tSub (tMul (n (4)) (sy "x")) (n (1)))))) (tMul (n (2)) (tLog (tAbs (tSub (sy "x") (n (4)))))))) = true := by decide +kernel

/-- Line 35: `assert_integral(integrand, expected_ans)` -/
example : holds (plusC [] (tInt (tDiv (tDiv (tAdd (tMul (n (2)) (sy "x")) (n (3))) (tSub (sy "x") (n (3)))) (tAdd (sy "x") (n (3))))) (tAdd (tDiv (tMul (n (3)) (tLog (tAbs (tSub (sy "x") (n (3)))))) (n (2))) (tDiv (tLog (tAbs (tAdd (sy "x") (n (3))))) (n (2))))) = true := by decide +kernel

/-- Line 38: `assert_integral(integrand, expected_ans)` -/
example : holds (plusC [] (tInt (tDiv (tDiv (tSub (sy "x") (n (2))) (tAdd (tMul (n (2)) (sy "x")) (n (1)))) (tAdd (sy "x") (n (3))))) (tAdd (tDiv (tNeg (tLog (tAbs (tAdd (tMul (n (2)) (sy "x")) (n (1)))))) (n (2))) (tLog (tAbs (tAdd (sy "x") (n (3))))))) = true := by decide +kernel

/-! test_integration_by_parts -/

/-- Line 44: `assert_integral(integrand, expected)` -/
example : holds (plusC [] (tInt (tMul (sy "x") (tPow (.ok euler) (tNeg (sy "x"))))) (tMul (tNeg (tPow (.ok euler) (tNeg (sy "x")))) (tAdd (sy "x") (n (1))))) = true := by decide +kernel

/-- Line 48: `assert_integral(integrand, expected)` -/
example : holds (plusC [] (tInt (tDiv (tLog (sy "x")) (tPow (sy "x") (n (2))))) (tSub (tDiv (tNeg (tLog (sy "x"))) (sy "x")) (tDiv (n (1)) (sy "x")))) = true := by decide +kernel

/-- Line 51: `ans == Fraction(4, 15) * (-y) ** Fraction(5, 2)` -/
example : holds (strict (tIntF "x" (n (0)) (sy "y") (tMul (sy "x") (tSqrt (tSub (sy "x") (sy "y"))))) (tMul (n (4 / 15)) (tPow (tNeg (sy "y")) (n (5 / 2))))) = true := by decide +kernel

/-- Line 54: `assert_definite_integral(integrand, (0, 2), Fraction(7, 16) * e ** 8 + Fraction(1, 16))` -/
example : holds (strict (tIntB (n (0)) (n (2)) (tMul (sy "x") (tPow (.ok euler) (tMul (n (4)) (sy "x"))))) (tAdd (tMul (n (7 / 16)) (tPow (.ok euler) (n (8)))) (n (1 / 16)))) = true := by decide +kernel

/-- Line 56: `assert_definite_integral(-x * cos(x), (pi / 2, pi), 1 + pi / 2)` -/
example : holds (strict (tIntB (tDiv (.ok pi) (n (2))) (.ok pi) (tMul (tNeg (sy "x")) (tTrig .cos (sy "x")))) (tAdd (n (1)) (tDiv (.ok pi) (n (2))))) = true := by decide +kernel

/-- Line 61: `assert_integral(integrand, expected)` -/
example : holds (plusC [] (tInt (tMul (tPow (.ok euler) (sy "x")) (tTrig .sin (sy "x")))) (tMul (tDiv (tPow (.ok euler) (sy "x")) (n (2))) (tSub (tTrig .sin (sy "x")) (tTrig .cos (sy "x"))))) = true := by decide +kernel

/-- Line 65: `assert_integral(integrand, expected)` -/
example : holds (plusC [] (tInt (tMul (tPow (sy "x") (n (2))) (tTrig .sin (tMul (.ok pi) (sy "x"))))) (tAdd (tAdd (tDiv (tMul (tNeg (tPow (sy "x") (n (2)))) (tTrig .cos (tMul (.ok pi) (sy "x")))) (.ok pi)) (tDiv (tMul (tMul (n (2)) (sy "x")) (tTrig .sin (tMul (.ok pi) (sy "x")))) (tPow (.ok pi) (n (2))))) (tDiv (tMul (n (2)) (tTrig .cos (tMul (.ok pi) (sy "x")))) (tPow (.ok pi) (n (3)))))) = true := by decide +kernel

/-! test_arcsin -/

/-- Line 71: `assert_eq_plusc(ans, expected_ans)` -/
example : holds (plusC [] (tIntV "x" (tTrig .asin (sy "x"))) (tAdd (tMul (sy "x") (tTrig .asin (sy "x"))) (tSqrt (tSub (n (1)) (tPow (sy "x") (n (2))))))) = true := by decide +kernel

/-- Line 75: `assert_eq_plusc(ans, expected_ans)` -/
example : holds (plusC [] (tIntV "x" (tTrig .acos (sy "x"))) (tSub (tMul (sy "x") (tTrig .acos (sy "x"))) (tSqrt (tSub (n (1)) (tPow (sy "x") (n (2))))))) = true := by decide +kernel

/-- Line 79: `assert_eq_plusc(ans, expected_ans)` -/
example : holds (plusC [] (tIntV "x" (tTrig .atan (sy "x"))) (tSub (tMul (sy "x") (tTrig .atan (sy "x"))) (tDiv (tLog (tAbs (tAdd (n (1)) (tPow (sy "x") (n (2)))))) (n (2))))) = true := by decide +kernel

/-! test_sec2x_tan2x -/

/-- Line 86: `ans == Fraction(1, 2)` -/
example : holds (strict (tIntF "x" (n (0)) (tDiv (.ok pi) (n (6))) (tMul (tTrig .sec (tMul (n (2)) (sy "x"))) (tTrig .tan (tMul (n (2)) (sy "x"))))) (n (1 / 2))) = true := by decide +kernel

/-! test_misc -/

/-- Line 90: `assert_integral(4 * sec(x) ** 2, 4 * tan(x))` -/
example : holds (plusC [] (tInt (tMul (n (4)) (tPow (tTrig .sec (sy "x")) (n (2))))) (tMul (n (4)) (tTrig .tan (sy "x")))) = true := by decide +kernel

/-- Line 91: `assert_integral(sec(x) ** 2 * tan(x) ** 2, tan(x) ** 3 / 3)` -/
example : holds (plusC [] (tInt (tMul (tPow (tTrig .sec (sy "x")) (n (2))) (tPow (tTrig .tan (sy "x")) (n (2))))) (tDiv (tPow (tTrig .tan (sy "x")) (n (3))) (n (3)))) = true := by decide +kernel

/-- Line 92: `assert_integral(5 / x - 3 * e ** x, 5 * log(abs(x)) - 3 * e ** x)` -/
example : holds (plusC [] (tInt (tSub (tDiv (n (5)) (sy "x")) (tMul (n (3)) (tPow (.ok euler) (sy "x"))))) (tSub (tMul (n (5)) (tLog (tAbs (sy "x")))) (tMul (n (3)) (tPow (.ok euler) (sy "x"))))) = true := by decide +kernel

/-- Line 93: `assert_integral(sec(x), log(sec(x) + tan(x)))` -/
example : holds (plusC [] (tInt (tTrig .sec (sy "x"))) (tLog (tAdd (tTrig .sec (sy "x")) (tTrig .tan (sy "x"))))) = true := by decide +kernel

/-- Line 94: `assert_integral(2 * cos(2 * x - 5), sin(2 * x - 5))` -/
example : holds (plusC [] (tInt (tMul (n (2)) (tTrig .cos (tSub (tMul (n (2)) (sy "x")) (n (5)))))) (tTrig .sin (tSub (tMul (n (2)) (sy "x")) (n (5))))) = true := by decide +kernel

/-- Line 95: `assert_integral(3 * x ** 5 - x ** 3 + 6, 6 * x - x ** 4 / 4 + x ** 6 / 2)` -/
example : holds (plusC [] (tInt (tAdd (tSub (tMul (n (3)) (tPow (sy "x") (n (5)))) (tPow (sy "x") (n (3)))) (n (6)))) (tAdd (tSub (tMul (n (6)) (sy "x")) (tDiv (tPow (sy "x") (n (4))) (n (4)))) (tDiv (tPow (sy "x") (n (6))) (n (2))))) = true := by decide +kernel

/-- Line 96: `assert_integral(x ** 3 * e ** x ** 4, e ** x ** 4 / 4)` -/
example : holds (plusC [] (tInt (tMul (tPow (sy "x") (n (3))) (tPow (.ok euler) (tPow (sy "x") (n (4)))))) (tDiv (tPow (.ok euler) (tPow (sy "x") (n (4)))) (n (4)))) = true := by decide +kernel

/-- Line 99: `assert_definite_integral(e ** x / (1 + e ** x), (log(2), log(8)), log(9) - log(3))` -/
example : holds (strict (tIntB (tLog (n (2))) (tLog (n (8))) (tDiv (tPow (.ok euler) (sy "x")) (tAdd (n (1)) (tPow (.ok euler) (sy "x"))))) (tSub (tLog (n (9))) (tLog (n (3))))) = true := by decide +kernel

/-- Line 101: `assert_definite_integral(8 * x / sqrt(1 - 4 * x ** 2), (0, Fraction(1, 4)), 2 - sqrt(3))` -/
example : holds (strict (tIntB (n (0)) (n (1 / 4)) (tDiv (tMul (n (8)) (sy "x")) (tSqrt (tSub (n (1)) (tMul (n (4)) (tPow (sy "x") (n (2)))))))) (tSub (n (2)) (tSqrt (n (3))))) = true := by decide +kernel

/-- Line 102: `assert_definite_integral(sin(4 * x), (0, pi / 4), Fraction(1, 2))` -/
example : holds (strict (tIntB (n (0)) (tDiv (.ok pi) (n (4))) (tTrig .sin (tMul (n (4)) (sy "x")))) (n (1 / 2))) = true := by decide +kernel

/-! test_csc_x_squared -/

/-- Line 108: `assert_integral(integrand, expected_ans)` -/
example : holds (plusC [] (tInt (tMul (n (5)) (tPow (tTrig .csc (sy "x")) (n (2))))) (tMul (n (-5)) (tTrig .cot (sy "x")))) = true := by decide +kernel

/-! test_csc_x_cot_x -/

/-- Line 115: `assert_integral(integrand, expected)` -/
example : holds (plusC [] (tInt (tMul (tMul (n (2)) (tTrig .csc (sy "x"))) (tTrig .cot (sy "x")))) (tMul (n (-2)) (tTrig .csc (sy "x")))) = true := by decide +kernel

/-! test_expanding_big_power -/

/-- Line 121: `assert_integral(integrand, expected_ans)` -/
example : holds (plusC [] (tInt (tPow (tSub (tMul (n (2)) (sy "x")) (n (5))) (n (10)))) (tDiv (tPow (tSub (tMul (n (2)) (sy "x")) (n (5))) (n (11))) (n (22)))) = true := by decide +kernel

/-- Line 125: `assert_integral(integrand, expected_ans)` -/
example : holds (plusC [] (tInt (tMul (tMul (n (3)) (tPow (sy "x") (n (2)))) (tPow (tAdd (tPow (sy "x") (n (3))) (n (1))) (n (6))))) (tDiv (tPow (tAdd (n (1)) (tPow (sy "x") (n (3)))) (n (7))) (n (7)))) = true := by decide +kernel

/-! test_polynomial_div_integrals -/

/-- Line 131: `assert_integral(expr, expected)` -/
example : holds (plusC [] (tInt (tDiv (tSub (sy "x") (n (5))) (tAdd (tMul (n (-2)) (sy "x")) (n (2))))) (tAdd (tDiv (tNeg (sy "x")) (n (2))) (tMul (n (2)) (tLog (tAbs (tSub (n (1)) (sy "x"))))))) = true := by decide +kernel

/-- Line 132: `assert_integral((x ** 3 - 1) / (x + 2), x ** 3 / 3 - x ** 2 + 4 * x - 9 * log(abs(2 + x)))` -/
example : holds (plusC [] (tInt (tDiv (tSub (tPow (sy "x") (n (3))) (n (1))) (tAdd (sy "x") (n (2))))) (tSub (tAdd (tSub (tDiv (tPow (sy "x") (n (3))) (n (3))) (tPow (sy "x") (n (2)))) (tMul (n (4)) (sy "x"))) (tMul (n (9)) (tLog (tAbs (tAdd (n (2)) (sy "x"))))))) = true := by decide +kernel

/-- Line 133: `assert_integral((x - 1) / (2 * x + 4), x / 2 - Fraction(3, 2) * log(abs(x + 2)))` -/
example : holds (plusC [] (tInt (tDiv (tSub (sy "x") (n (1))) (tAdd (tMul (n (2)) (sy "x")) (n (4))))) (tSub (tDiv (sy "x") (n (2))) (tMul (n (3 / 2)) (tLog (tAbs (tAdd (sy "x") (n (2)))))))) = true := by decide +kernel

/-! test_complete_the_square_integrals -/

/-- Line 141: `assert_integral(1 / (3 * x ** 2 + 6 * x + 78), atan((1 + x) / 5) / 15)` -/
example : holds (plusC [] (tInt (tDiv (n (1)) (tAdd (tAdd (tMul (n (3)) (tPow (sy "x") (n (2)))) (tMul (n (6)) (sy "x"))) (n (78))))) (tDiv (tTrig .atan (tDiv (tAdd (n (1)) (sy "x")) (n (5)))) (n (15)))) = true := by decide +kernel

/-- Line 142: `assert_integral(1 / (x ** 2 - 8 * x + 65), atan((-4 + x) / 7) / 7)` -/
example : holds (plusC [] (tInt (tDiv (n (1)) (tAdd (tSub (tPow (sy "x") (n (2))) (tMul (n (8)) (sy "x"))) (n (65))))) (tDiv (tTrig .atan (tDiv (tAdd (n (-4)) (sy "x")) (n (7)))) (n (7)))) = true := by decide +kernel

/-- Line 143: `assert_integral(1 / sqrt(-x ** 2 - 6 * x + 40), asin((3 + x) / 7))` -/
example : holds (plusC [] (tInt (tDiv (n (1)) (tSqrt (tAdd (tSub (tNeg (tPow (sy "x") (n (2)))) (tMul (n (6)) (sy "x"))) (n (40)))))) (tTrig .asin (tDiv (tAdd (n (3)) (sy "x")) (n (7))))) = true := by decide +kernel

/-! test_neg_inf -/

/-- Line 147: `integrate(-e ** x, (-inf, 1)) == -e` -/
example : holds (strict (tIntB (tNeg (.ok inf)) (n (1)) (tNeg (tPow (.ok euler) (sy "x")))) (tNeg (.ok euler))) = true := by decide +kernel

/-- Line 148: `integrate(e ** (-x), (0, inf)) == 1` -/
example : holds (strict (tIntB (n (0)) (.ok inf) (tPow (.ok euler) (tNeg (sy "x")))) (n (1))) = true := by decide +kernel

/-! test_bigger_power_trig -/

/-- Line 172: `assert_integral(expr, expected)` -/
example : holds (plusC [] (tInt (tPow (tTrig .sin (sy "x")) (n (4)))) (tDiv (tAdd (tSub (tTrig .sin (tMul (n (4)) (sy "x"))) (tMul (n (8)) (tTrig .sin (tMul (n (2)) (sy "x"))))) (tMul (n (12)) (sy "x"))) (n (32)))) = true := by decide +kernel

/-! test_bigger_power_trig_2 -/

/-- Line 179: `assert_integral(sin(x) ** 6, (e1, e2))` -/
example : holds (ror (plusC [] (tInt (tPow (tTrig .sin (sy "x")) (n (6)))) (tAdd (tSub (tAdd (tDiv (tPow (tTrig .sin (tMul (n (2)) (sy "x"))) (n (3))) (n (48))) (tDiv (tMul (n (3)) (tTrig .sin (tMul (n (4)) (sy "x")))) (n (64)))) (tDiv (tTrig .sin (tMul (n (2)) (sy "x"))) (n (4)))) (tDiv (tMul (n (5)) (sy "x")) (n (16))))) (plusC [] (tInt (tPow (tTrig .sin (sy "x")) (n (6)))) (tDiv (tAdd (tSub (tSub (tMul (n (9)) (tTrig .sin (tMul (n (4)) (sy "x")))) (tTrig .sin (tMul (n (6)) (sy "x")))) (tMul (n (45)) (tTrig .sin (tMul (n (2)) (sy "x"))))) (tMul (n (60)) (sy "x"))) (n (192))))) = true := by decide +kernel

/-! test_rewrite_pythag -/

/-- Line 186: `assert_integral(expr, expected_ans)` -/
example : holds (plusC [] (tInt (tMul (tPow (tTrig .sin (sy "x")) (n (2))) (tPow (tTrig .cos (sy "x")) (n (3))))) (tSub (tDiv (tPow (tTrig .sin (sy "x")) (n (3))) (n (3))) (tDiv (tPow (tTrig .sin (sy "x")) (n (5))) (n (5))))) = true := by decide +kernel

/-! test_rewrite_pythag_2 -/

/-- Line 190: `assert_integral(sin(x) ** 3, cos(x) ** 3 / 3 - cos(x))` -/
example : holds (plusC [] (tInt (tPow (tTrig .sin (sy "x")) (n (3)))) (tSub (tDiv (tPow (tTrig .cos (sy "x")) (n (3))) (n (3))) (tTrig .cos (sy "x")))) = true := by decide +kernel

/-- Line 191: `assert_integral(cos(x) ** 5, sin(x) ** 5 / 5 - 2 * sin(x) ** 3 / 3 + sin(x))` -/
example : holds (plusC [] (tInt (tPow (tTrig .cos (sy "x")) (n (5)))) (tAdd (tSub (tDiv (tPow (tTrig .sin (sy "x")) (n (5))) (n (5))) (tDiv (tMul (n (2)) (tPow (tTrig .sin (sy "x")) (n (3)))) (n (3)))) (tTrig .sin (sy "x")))) = true := by decide +kernel

/-! test_tan_x_4 -/

/-- Line 198: `assert_eq_value(ans, pi / 4 - Fraction(2, 3))` -/
example : holds (sameValue (tIntB (n (0)) (tDiv (.ok pi) (n (4))) (tPow (tTrig .tan (sy "x")) (n (4)))) (tSub (tDiv (.ok pi) (n (4))) (n (2 / 3)))) = true := by decide +kernel

/-! test_more_complicated_trig -/

/-- Line 204: `assert_integral(expr, expected_ans)` -/
example : holds (plusC [] (tInt (tMul (tPow (tTrig .tan (sy "x")) (n (5))) (tPow (tTrig .sec (sy "x")) (n (4))))) (tAdd (tDiv (tPow (tTrig .tan (sy "x")) (n (6))) (n (6))) (tDiv (tPow (tTrig .tan (sy "x")) (n (8))) (n (8))))) = true := by decide +kernel

end Simpy.Conform
