import Verif.Conform.Dsl

/-! The assertions of /repo/tests/test_expand_power.py that can be said in the model, evaluated in the kernel (written by tools/gen_conform.py).
These are tests of the model, not properties: they compare it with what the author of the program expects of it. -/

namespace Simpy.Conform
open Simpy Expr
set_option maxRecDepth 100000

/-! test_expand_power -/

/-- Line 12: `assert_eq_strict(power.expand(), prod.expand())` -/
example : holds (strict (tExpand (tPow (tAdd (tPow (sy "x") (n (3))) (n (1))) (n (6)))) (tExpand (tProd [(tSum [(tPow (sy "x") (n (3))), (n (1))]), (tSum [(tPow (sy "x") (n (3))), (n (1))]), (tSum [(tPow (sy "x") (n (3))), (n (1))]), (tSum [(tPow (sy "x") (n (3))), (n (1))]), (tSum [(tPow (sy "x") (n (3))), (n (1))]), (tSum [(tPow (sy "x") (n (3))), (n (1))])]))) = true := by decide +kernel

end Simpy.Conform
