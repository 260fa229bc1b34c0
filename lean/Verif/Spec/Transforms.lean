import Verif.Spec.Backward

/-!
# Specification: the problem that an integrand poses, and what a substitution makes of it
-/

namespace Simpy
open Expr
namespace Node

/-- Find an antiderivative of `e` with respect to `v` at the point `ρ`, in terms of the symbols in `A`. -/
noncomputable def posed (ρ : Str → ℝ) (v : Str) (A : Str → Prop) (e : Expr) : Goal := ⟨ρ, v, den ρ e, A⟩

/-- The point at which the problem is posed after the substitution `u = q`. -/
noncomputable def pointAfter (ρ : Str → ℝ) (u : Str) (q : Expr) : Str → ℝ := Function.update ρ u (den ρ q)

/-- The symbols that may occur after a substitution that replaces the variable `v` by `u`. -/
def scopeAfter (A : Str → Prop) (v u : Str) (s : Str) : Prop := s = u ∨ A s ∧ s ≠ v

/-- The problem posed by the new integrand `g` after the substitution `u = q`. -/
noncomputable def posedAfter (ρ : Str → ℝ) (v u : Str) (A : Str → Prop) (q g : Expr) : Goal :=
  posed (pointAfter ρ u q) u (scopeAfter A v u) g

/-- `e` is a well-formed expression in the symbols `A` that is regular at `ρ`. -/
structure Integrand (ρ : Str → ℝ) (A : Str → Prop) (e : Expr) : Prop where
  wf : WF e
  reg : Regular ρ e
  scope : ∀ s ∈ syms e, A s

end Node

/-- What `integrate_without_heuristics` is trusted with: what it returns for a factor of `e` is an antiderivative. -/
def IntegOk (ρ : Str → ℝ) (x : Str) (A : Str → Prop) (integ : Expr → R (Option Expr)) (e : Expr) : Prop :=
  ∀ dv w, dv ∈ Expr.children e → integ dv = .ok (some w) → SolAt ρ x w (den ρ dv) ∧ ∀ s ∈ syms w, A s

end Simpy
