import Verif.Spec.Integral

/-!
# Specification: definite integrals
-/

namespace Simpy
open Expr

/-- `F` is an antiderivative of `f` with respect to `v` on the whole closed interval between `a` and `b`, on which `f` is regular. -/
def AntiOn (ρ : Str → ℝ) (v : Str) (a b : ℝ) (F f : Expr) : Prop :=
  ∀ t ∈ Set.uIcc a b, AntiAt (Function.update ρ v t) v F f ∧ Regular (Function.update ρ v t) f

end Simpy
