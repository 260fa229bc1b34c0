import Verif.Proofs.SubsSound
import Verif.Proofs.ExactOracle
import Verif.Proofs.Check

/-!
# C12: substitution

`subsE O n σ e` is `e.subs(σ)` with `n` stack levels left; `subsEnv σ ρ` is `ρ` with the substituted symbols updated to the
values of their replacements.
-/

namespace Simpy
open Expr

variable {O : Oracle}

/-- **C12** for every expression without inverse trig functions in which every power has an integer exponent or a simple base
and every logarithm a simple argument (`Tame`): what `e.subs(σ)` returns evaluates at `ρ` to what `e` evaluates to at the
updated assignment. -/
theorem subs_value (hO : O.Exact) (n : Nat) {ρ : Str → ℝ} {σ : Str → Option Expr} {e r : Expr} (he : Built O e)
    (hσ : ∀ s v, σ s = some v → Built O v) (hd : ∀ s v, σ s = some v → Dom ρ v)
    (ht : Tame σ e = true) (hi : containsCls isInvTrig e = false)
    (hj : ∀ s v, σ s = some v → containsCls isInvTrig v = false)
    (hdom : Dom (subsEnv σ ρ) e) (h : subsE O n σ e = .ok r) : den ρ r = den (subsEnv σ ρ) e ∧ Dom ρ r :=
  have w := fun s v hs => (hσ s v hs).wf hO
  have := subs_sound hO w n (he.wf hO) (fun s _ v hs => hd s v hs) hdom
    (subsOk_of_tame hO w hj n (he.wf hO) (fun s _ v hs => hd s v hs) hdom ht hi) h
  ⟨this.2.2, this.2.1⟩

/-- **C12** for all expressions, under the run conditions `SubsOk`. Missing: the cases in which a rebuilt radicand or argument
of a logarithm is split into negative factors, for which it is false (`subs_value_fails`). -/
theorem subs_value_partial (hO : O.Exact) (n : Nat) {ρ : Str → ℝ} {σ : Str → Option Expr} {e r : Expr} (he : Built O e)
    (hσ : ∀ s v, σ s = some v → Built O v) (hd : ∀ s v, σ s = some v → Dom ρ v)
    (hdom : Dom (subsEnv σ ρ) e) (hok : SubsOk O ρ σ n e) (h : subsE O n σ e = .ok r) :
    den ρ r = den (subsEnv σ ρ) e ∧ Dom ρ r :=
  have := subs_sound hO (fun s v hs => (hσ s v hs).wf hO) n (he.wf hO) (fun s _ v hs => hd s v hs) hdom hok h
  ⟨this.2.2, this.2.1⟩

section examples
set_option maxRecDepth 10000
private abbrev x : Expr := sym ['x']
private abbrev y : Expr := sym ['y']
private abbrev a : Expr := sym ['a']
private abbrev b : Expr := sym ['b']

private def σ1 : Str → Option Expr := fun s => if s = ['x'] then some (sum [y, rat 1]) else none
private def e1 : Expr := sum [prod [rat 3, x, pow (trig .sin x) (rat 2)], pow y (prod [rat (1 / 2), x])]

/-- `(3*x*sin(x)**2 + y**(x/2)).subs({"x": y + 1})` at every `y ≥ 0`. -/
example (ρ : Str → ℝ) (hy : 0 < ρ ['y']) :
    den ρ (sum [prod [rat 3, sum [y, rat 1], pow (trig .sin (sum [y, rat 1])) (rat 2)],
      pow y (prod [rat (1 / 2), sum [y, rat 1]])]) = den (subsEnv σ1 ρ) e1 := by
  have hσ : ∀ s v, σ1 s = some v → v = sum [y, rat 1] := by
    intro s v h
    simp only [σ1] at h
    split at h <;> simp_all
  refine (subs_value exactOracle_exact 30 (σ := σ1) (e := e1) (built_of_self (by decide +kernel)) ?_ ?_
    (by decide +kernel) (by decide +kernel) ?_ ?_ (by decide +kernel)).1
  · intro s v h; rw [hσ s v h]; exact built_of_self (by decide +kernel)
  · intro s v h; rw [hσ s v h]; simp [Dom, DomS, DomSL]
  · intro s v h; rw [hσ s v h]; decide
  · have e : subsEnv σ1 ρ ['y'] = ρ ['y'] := by simp [subsEnv, σ1, den]
    simp [e1, Dom, DomS, DomSL, den, denS, denP, HN, intExp, TrigFn.ok, e, hy.le, hy.ne']

private def σ2 : Str → Option Expr := fun s => if s = ['a'] then some (prod [x, y]) else if s = ['b'] then
  some (prod [x, y]) else none

/-- `sqrt(a + b).subs({"a": x*y, "b": x*y})` returns `sqrt(2)*sqrt(x)*sqrt(y)`, which is not defined at `x = y = -1`, where
`sqrt(a + b)` is `sqrt(2)`. -/
theorem subs_value_fails : ∃ (σ : Str → Option Expr) (e r : Expr) (ρ : Str → ℝ), Built exactOracle e ∧
    (∀ s v, σ s = some v → Built exactOracle v ∧ Dom ρ v) ∧ Dom (subsEnv σ ρ) e ∧ subsE exactOracle 30 σ e = .ok r ∧
    ¬ DomF ρ r := by
  refine ⟨σ2, pow (sum [b, a]) (rat (1 / 2)), prod [pow (rat 2) (rat (1 / 2)), pow x (rat (1 / 2)), pow y (rat (1 / 2))],
    fun _ => -1, built_of_self (by decide +kernel), ?_, ?_, by decide +kernel, ?_⟩
  · intro s v h
    have : v = prod [x, y] := by
      simp only [σ2] at h
      split at h
      · simp_all
      · split at h <;> simp_all
    subst this
    exact ⟨built_of_self (by decide +kernel), by simp [Dom, DomS, DomSL]⟩
  · have e1 : subsEnv σ2 (fun _ => -1) ['a'] = 1 := by simp [subsEnv, σ2, den, denP]
    have e2 : subsEnv σ2 (fun _ => -1) ['b'] = 1 := by simp [subsEnv, σ2, den, denP]
    simp [Dom, DomS, DomSL, den, denS, HN, e1, e2]
  · simp only [DomF, DomFL, den, not_and, and_true]
    intro _ h
    rcases h.2.2.2 with h | ⟨q, hq, ho⟩
    · norm_num at h
    · have : q = 1 / 2 := by exact_mod_cast hq
      subst this
      exact absurd ho (by decide +kernel)

end examples
end Simpy
