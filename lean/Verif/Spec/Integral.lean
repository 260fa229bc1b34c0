import Verif.Spec.Diff
import Mathlib.Analysis.Calculus.Deriv.Basic

/-!
# Specification: antiderivatives
-/

namespace Simpy
open Expr

/-- `F` is an antiderivative of `f` with respect to `v` at the point `ρ`: the function of `v` that `F` denotes is
differentiable there and its derivative is the value of `f`. -/
def AntiAt (ρ : Str → ℝ) (v : Str) (F f : Expr) : Prop := HasDerivAt (fnOf ρ v F) (den ρ f) (ρ v)

/-- Where the table's answer is defined although the integrand is: not `v**n` at points with `n = -1`, not `b**v` at points
with `b = 1`, and `sec(v)` only where `tan(v) + sec(v)`, the argument of the logarithm, is positive. -/
def TableOk (ρ : Str → ℝ) (v : Str) (e : Expr) : Prop :=
  (∀ x, e = pow (sym v) x → x ≠ rat (-1) → den ρ x ≠ -1) ∧ (∀ b, e = pow b (sym v) → den ρ b ≠ 1) ∧
    (e = trig .sec (sym v) → 0 < Real.sin (ρ v) / Real.cos (ρ v) + 1 / Real.cos (ρ v))

/-- `S`, as a function of `v`, is regular at the point `ρ` and has the derivative `τ` there. -/
structure SolAt (ρ : Str → ℝ) (v : Str) (S : Expr) (τ : ℝ) : Prop where
  wf : WF S
  reg : Regular ρ S
  deriv : HasDerivAt (fnOf ρ v S) τ (ρ v)

end Simpy
