import Verif.Model.Transforms
import Verif.Spec.Sub

/-!
# Specification: a symbol that occurs only inside a given expression
-/

namespace Simpy
open Expr

/-- Every occurrence of the symbol `v` in the expression lies inside a part that is equal (`==`) to `q`. -/
inductive Inside (O : Oracle) (v : Str) (q : Expr) : Expr → Prop
  | here {e : Expr} : beq O e q = true → Inside O v q e
  | node {e : Expr} : e ≠ sym v → (∀ t ∈ e.children, Inside O v q t) → Inside O v q e

/-- `v ** k` as an expression: `v` itself if `k` is 1. -/
def varPow (v : Str) (k : ℚ) : Expr := if k = 1 then sym v else pow (sym v) (rat k)

/-- No part of the expression is taken for a constant times a power of the variable. -/
def NoScaledPower (O : Oracle) (n : Nat) (v : Str) (e : Expr) : Prop :=
  ∀ t, Sub t e → ∀ w ic, linearShape O n v t ≠ .ok (some (w, some ic))

end Simpy
