import Verif.Proofs.Algebraic
import Verif.Proofs.ExactOracle
import Verif.Proofs.Check

/-!
# C57: `simplify` preserves the value

`simplifyE O n e` is `simplify(e)` with `n` stack levels left (`Model/Simplify.lean`).
-/

namespace Simpy
open Expr

variable {O : Oracle}

/-- **C57** for expressions built from numbers, symbols, `+`, `*`, integer powers and `|·|`: wherever the expression is defined,
so is what `simplify` returns, and it has the same value. -/
theorem simplify_value (hO : O.Exact) (n : Nat) {ρ : Str → ℝ} {e r : Expr} (he : Built O e) (hp : intPows e = true)
    (hl : containsCls isLog e = false) (hi : containsCls isInvTrig e = false) (hf : containsCls isFwdTrig e = false)
    (hd : DomR ρ e) (h : simplifyE O n e = .ok r) : den ρ r = den ρ e ∧ Dom ρ r :=
  have v := simplify_V hO (he.wf hO) ((Dom_iff_DomR (he.wf hO) hl).2 hd) (Alg.simplifyOk n ⟨hp, hl, hi, hf⟩) h
  ⟨v.2.2, v.2.1⟩

/-- **C57** for all expressions, provided that each stage of the run is on the safe side: see `SimplifyOk` and, for the trig rules,
`trigRunOk` (`Spec/SimplifyRun.lean`). Missing: the runs in which a rule is wrong (`simplify_value_fails`). -/
theorem simplify_value_partial (hO : O.Exact) (n : Nat) {ρ : Str → ℝ} {e r : Expr} (he : Built O e) (hd : Dom ρ e)
    (hok : SimplifyOk O false ρ n e) (h : simplifyE O n e = .ok r) : den ρ r = den ρ e ∧ Dom ρ r :=
  have v := simplify_V hO (he.wf hO) hd hok h
  ⟨v.2.2, v.2.1⟩

/-- **C57** for expressions that are not expandable and have no logarithms before or after the trig rules: the condition is then decidable. -/
theorem simplify_trig_value_partial (hO : O.Exact) (n : Nat) {ρ : Str → ℝ} {e r : Expr} (he : Built O e) (hd : Dom ρ e)
    (hx : expandableE O n e = .ok false) (ht : trigRunOk O n e = true)
    (hl : ∀ e2 b, trigPart O n e = .ok (e2, b) → containsCls isLog e2 = false) (h : simplifyE O n e = .ok r) :
    den ρ r = den ρ e ∧ Dom ρ r := by
  have h1 : ∀ e1, expandOr (expandableE O n) (expandE O n) e = .ok e1 → e1 = e := by
    intro e1 h1
    unfold expandOr at h1
    rw [hx] at h1
    exact (pure_ok.1 h1).symm
  refine simplify_value_partial hO n he hd ⟨fun h0 => ?_, fun e1 he1 => ?_, fun e1 e2 b he1 h2 hc => ?_⟩ h
  · rw [hx] at h0; cases h0
  · rw [h1 e1 he1]; exact ht
  · rw [h1 e1 he1] at h2
    rw [hl e2 b h2] at hc; cases hc

section
set_option maxRecDepth 10000
private abbrev x : Expr := sym ['x']
private abbrev y : Expr := sym ['y']
private abbrev sq (f : TrigFn) (u : Expr) : Expr := pow (trig f u) (rat 2)

/-- `simplify_value` applies to `(x+1)(x-1) + 1`, which becomes `x^2`. -/
example (ρ : Str → ℝ) : Built exactOracle (sum [prod [sum [x, rat 1], sum [x, rat (-1)]], rat 1]) ∧
    DomR ρ (sum [prod [sum [x, rat 1], sum [x, rat (-1)]], rat 1]) ∧
    intPows (sum [prod [sum [x, rat 1], sum [x, rat (-1)]], rat 1]) = true ∧
    simplifyE exactOracle 30 (sum [prod [sum [x, rat 1], sum [x, rat (-1)]], rat 1]) = .ok (pow x (rat 2)) := by
  refine ⟨built_of_self (by decide +kernel), by simp [DomR, DomRL], by decide +kernel, by decide +kernel⟩

private def good : Expr := sum [sq .sin x, sq .cos x, prod [x, trig .sec x, trig .sin x]]

/-- `simplify_trig_value_partial` applies to `sin(x)^2 + cos(x)^2 + x sec(x) sin(x)`, which becomes `x tan(x) + 1`. -/
example : Built exactOracle good ∧ expandableE exactOracle 40 good = .ok false ∧ trigRunOk exactOracle 40 good = true ∧
    trigPart exactOracle 40 good = .ok (sum [prod [x, trig .tan x], rat 1], true) ∧
    simplifyE exactOracle 40 good = .ok (sum [prod [x, trig .tan x], rat 1]) ∧
    Dom (fun _ => 0) good := by
  refine ⟨built_of_self (by decide +kernel), by decide +kernel, by decide +kernel, by decide +kernel, by decide +kernel, ?_⟩
  simp [good, sq, x, Dom, DomS, DomSL, den, intExp, TrigFn.ok, TrigFn.real]

private def mixed : Expr := sum [prod [sq .cos y, sq .sin x], prod [sq .cos x, sq .cos y]]

/-- The property fails for `sin(x)^2 cos(y)^2 + cos(x)^2 cos(y)^2`: `simplify` returns `sin(x)^2 cos(y)^2 + cos(y)^2`, which is 2 instead
of 1 at `x = π/2, y = 0`. -/
theorem simplify_value_fails : ∃ e r, Built exactOracle e ∧ Dom (fun s => if s = ['x'] then Real.pi / 2 else 0) e ∧
    simplifyE exactOracle 30 e = .ok r ∧
    den (fun s => if s = ['x'] then Real.pi / 2 else 0) r ≠ den (fun s => if s = ['x'] then Real.pi / 2 else 0) e := by
  refine ⟨mixed, sum [prod [sq .cos y, sq .sin x], sq .cos y], built_of_self (by decide +kernel), ?_, by decide +kernel, ?_⟩
  · simp [mixed, sq, x, y, Dom, DomS, DomSL, den, intExp, TrigFn.ok, TrigFn.real]
  · simp [mixed, sq, x, y, den, denS, denP, intExp, TrigFn.real, pw_of_nonneg]

end

end Simpy
