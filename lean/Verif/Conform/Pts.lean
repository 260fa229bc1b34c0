import Verif.Conform.Dsl

/-! The assertions of /repo/tests/test_pts.py that can be said in the model, evaluated in the kernel (written by tools/gen_conform.py).
These are tests of the model, not properties: they compare it with what the author of the program expects of it. -/

namespace Simpy.Conform
open Simpy Expr
set_option maxRecDepth 100000

/-! test_sin_x_3 -/

/-- Line 9: `product_to_sum_unit(sin(x) ** 3) == 3 * sin(x) / 4 - sin(3 * x) / 4` -/
example : holds (strict (tPtsU (tPow (tTrig .sin (sy "x")) (n (3)))) (tSub (tDiv (tMul (n (3)) (tTrig .sin (sy "x"))) (n (4))) (tDiv (tTrig .sin (tMul (n (3)) (sy "x"))) (n (4))))) = true := by decide +kernel

/-! test_cos_x_5 -/

/-- Line 14: `product_to_sum_unit(cos(x) ** 5) == cos(5 * x) / 16 + 5 * cos(3 * x) / 16 + 5 * cos(x) / 8` -/
example : holds (strict (tPtsU (tPow (tTrig .cos (sy "x")) (n (5)))) (tAdd (tAdd (tDiv (tTrig .cos (tMul (n (5)) (sy "x"))) (n (16))) (tDiv (tMul (n (5)) (tTrig .cos (tMul (n (3)) (sy "x")))) (n (16)))) (tDiv (tMul (n (5)) (tTrig .cos (sy "x"))) (n (8))))) = true := by decide +kernel

/-! test_multiterm_prod -/

/-- Line 18: `product_to_sum_unit(sin(x) * cos(x) * sin(2 * x)) == sin(x) ** 2 / 2 + sin(3 * x) * sin(x) / 2` -/
example : holds (strict (tPtsU (tMul (tMul (tTrig .sin (sy "x")) (tTrig .cos (sy "x"))) (tTrig .sin (tMul (n (2)) (sy "x"))))) (tAdd (tDiv (tPow (tTrig .sin (sy "x")) (n (2))) (n (2))) (tDiv (tMul (tTrig .sin (tMul (n (3)) (sy "x"))) (tTrig .sin (sy "x"))) (n (2))))) = true := by decide +kernel

/-! test_power_in_prod -/

/-- Line 22: `product_to_sum_unit(sin(x) ** 3 * cos(x)) == sin(2 * x) / 4 - sin(4 * x) / 8` -/
example : holds (strict (tPtsU (tMul (tPow (tTrig .sin (sy "x")) (n (3))) (tTrig .cos (sy "x")))) (tSub (tDiv (tTrig .sin (tMul (n (2)) (sy "x"))) (n (4))) (tDiv (tTrig .sin (tMul (n (4)) (sy "x"))) (n (8))))) = true := by decide +kernel

/-- Line 23: `product_to_sum_unit(sin(x) ** 3 * cos(x) ** 2) == sin(x) / 8 + sin(3 * x) / 16 - sin(5 * x) / 16` -/
example : holds (strict (tPtsU (tMul (tPow (tTrig .sin (sy "x")) (n (3))) (tPow (tTrig .cos (sy "x")) (n (2))))) (tSub (tAdd (tDiv (tTrig .sin (sy "x")) (n (8))) (tDiv (tTrig .sin (tMul (n (3)) (sy "x"))) (n (16)))) (tDiv (tTrig .sin (tMul (n (5)) (sy "x"))) (n (16))))) = true := by decide +kernel

end Simpy.Conform
