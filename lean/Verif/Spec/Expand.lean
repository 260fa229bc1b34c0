import Verif.Spec.Built

/-!
# Specification: expressions with integer exponents
-/

namespace Simpy
open Expr

mutual
/-- Every power in `e` has an integer literal as exponent. -/
def intPows : Expr → Bool
  | sum ts => intPowsL ts
  | prod ts => intPowsL ts
  | pow b x => intPows b && intExp x
  | log i b => intPows i && intPows b
  | trig _ i => intPows i
  | absv i => intPows i
  | _ => true
def intPowsL : List Expr → Bool
  | [] => true
  | t :: r => intPows t && intPowsL r
end

end Simpy
