import Verif.Conform.Dsl

/-! The assertions of /repo/tests/test_nums.py that can be said in the model, evaluated in the kernel (written by tools/gen_conform.py).
These are tests of the model, not properties: they compare it with what the author of the program expects of it. -/

namespace Simpy.Conform
open Simpy Expr
set_option maxRecDepth 100000

/-! test_infinity_basic_ops -/

/-- Line 19: `Rat(1) == 1` -/
example : holds (strict (n (1)) (n (1))) = true := by decide +kernel

/-- Line 20: `inf ** 1 == inf` -/
example : holds (strict (tPow (.ok inf) (n (1))) (.ok inf)) = true := by decide +kernel

/-- Line 21: `inf == inf + 1` -/
example : holds (strict (.ok inf) (tAdd (.ok inf) (n (1)))) = true := by decide +kernel

/-- Line 22: `sqrt(inf) == inf` -/
example : holds (strict (tSqrt (.ok inf)) (.ok inf)) = true := by decide +kernel

/-- Line 23: `inf == 2 * inf` -/
example : holds (strict (.ok inf) (tMul (n (2)) (.ok inf))) = true := by decide +kernel

/-- Line 27: `-inf == -inf - 1` -/
example : holds (strict (tNeg (.ok inf)) (tSub (tNeg (.ok inf)) (n (1)))) = true := by decide +kernel

/-- Line 28: `-inf == -2 * inf` -/
example : holds (strict (tNeg (.ok inf)) (tMul (n (-2)) (.ok inf))) = true := by decide +kernel

end Simpy.Conform
