import Verif.Proofs.ReplaceSound
import Verif.Proofs.Sub
import Verif.Proofs.ExactOracle
import Verif.Proofs.Check

/-!
# C22: replacing

`replaceE O perf n e` is `kinder_replace_many(e, performs)` / `replace_factory_list(…)(e)` with `n` stack levels left, where
`perf k e` is the joint verdict of the rules on the node `e`; `replaceOld O n e old new` is `replace(e, old, new)`.
-/

namespace Simpy
open Expr

variable {O : Oracle}

/-- **C22** for `replace`, on expressions in which powers have integer exponents or plain bases, logarithms plain arguments, and
no trig function is applied to an inverse one or conversely (`TameR`). -/
theorem replace_value (hO : O.Exact) (n : Nat) {ρ : Str → ℝ} {e old new r : Expr} (he : Built O e) (hn : Built O new)
    (hf : floatFree old = true) (hr : isRat old = false) (ht : TameR old new e = true)
    (hdom : Dom ρ e) (hdn : Dom ρ new) (hv : den ρ old = den ρ new)
    (h : replaceOld O n e old new = .ok r) : den ρ r = den ρ e ∧ Dom ρ r := by
  have hfo := (floatFree_iff old).1 hf
  have ho : ∀ b, NoFlt b → (beq O b old = true ↔ b = old) := fun b hb =>
    ⟨beq_eq hO.isPi hO.isE _ _ hb hfo, fun h => h ▸ beq_refl _ hb⟩
  have hp : PerfOk false ρ ρ (replacePerf O old new) := by
    refine ⟨?_, ?_, fun _ _ _ => rfl⟩
    · intro k b u wb db hb
      simp only [replacePerf, Except.ok.injEq] at hb
      split at hb
      · next hbo =>
        cases hb
        rw [(ho b db.noFlt).1 hbo]
        exact ⟨hn.wf hO, hdn, hv.symm⟩
      · cases hb
    · intro k b wb db hb
      exact ⟨db, rfl⟩
  have hnum : ∀ k q, replacePerf O old new k (rat q) = .ok .pass := by
    intro k q
    simp only [replacePerf]
    rw [if_neg]
    intro hb
    rw [← (ho (rat q) (by simp [NoFlt])).1 hb] at hr
    simp [isRat] at hr
  have := replace_sound hO hp n (he.wf hO) hdom
    (repOk_of_tame hO hp hnum n (he.wf hO) hdom (replacePerf_tame ho hdom.noFlt ht)) h
  exact ⟨this.2.2, this.2.1⟩

/-- **C22** replacing a symbol: the result has the value of `e` with the symbol set to the value of `new`. -/
theorem replace_symbol_value (hO : O.Exact) (n : Nat) {ρ : Str → ℝ} {x : Str} {e new r : Expr} (he : Built O e)
    (hn : Built O new) (ht : TameR (sym x) new e = true)
    (hdom : Dom (Function.update ρ x (den ρ new)) e) (hdn : Dom ρ new)
    (h : replaceOld O n e (sym x) new = .ok r) : den ρ r = den (Function.update ρ x (den ρ new)) e ∧ Dom ρ r := by
  have ho : ∀ b, NoFlt b → (beq O b (sym x) = true ↔ b = sym x) := fun b hb =>
    ⟨beq_eq hO.isPi hO.isE _ _ hb (by simp [NoFlt]), fun h => h ▸ beq_refl _ hb⟩
  have hp : PerfOk false ρ (Function.update ρ x (den ρ new)) (replacePerf O (sym x) new) := by
    refine ⟨?_, ?_, ?_⟩
    · intro k b u wb db hb
      simp only [replacePerf, Except.ok.injEq] at hb
      split at hb
      · next hbo =>
        cases hb
        rw [(ho b db.noFlt).1 hbo]
        exact ⟨hn.wf hO, hdn, by simp [den]⟩
      · cases hb
    · intro k b wb db hb
      simp only [replacePerf, Except.ok.injEq] at hb
      split at hb <;> cases hb
    · intro k s hb
      by_cases hs : s = x
      · subst hs
        simp [replacePerf, beq] at hb
      · simp [hs]
  have hnum : ∀ k q, replacePerf O (sym x) new k (rat q) = .ok .pass := by
    intro k q
    simp [replacePerf, beq]
  have := replace_sound hO hp n (he.wf hO) hdom
    (repOk_of_tame hO hp hnum n (he.wf hO) hdom (replacePerf_tame ho hdom.noFlt ht)) h
  exact ⟨this.2.2, this.2.1⟩

/-- **C22** for all rules: if every replacement that the rules propose for a (well-formed) node where it is defined is well-formed,
defined and has the node's value, and integers are left alone, then so does the result. -/
theorem replace_rules_value (hO : O.Exact) (n : Nat) {ρ : Str → ℝ} {perf : Nat → Expr → R Rep} {e r : Expr}
    (hp : ∀ k t u, WF t → Dom ρ t → perf k t = .ok (.hit u) → WF u ∧ Dom ρ u ∧ den ρ u = den ρ t)
    (hnum : ∀ k q, perf k (rat q) = .ok .pass) (he : Built O e) (ht : TameP perf e) (hdom : Dom ρ e)
    (h : replaceE O perf n e = .ok r) : den ρ r = den ρ e ∧ Dom ρ r := by
  have hp : PerfOk false ρ ρ perf := ⟨hp, fun k b _ db _ => ⟨db, rfl⟩, fun _ _ _ => rfl⟩
  have := replace_sound hO hp n (he.wf hO) hdom (repOk_of_tame hO hp hnum n (he.wf hO) hdom ht) h
  exact ⟨this.2.2, this.2.1⟩

/-- **C22** for all rules and all expressions, under the run conditions `RepOk`. Missing: the runs in which a rebuilt radicand or
argument of a logarithm splits into negative factors, for which it is false (`replace_value_fails`). -/
theorem replace_rules_value_partial (hO : O.Exact) (n : Nat) {ρ : Str → ℝ} {perf : Nat → Expr → R Rep} {e r : Expr}
    (hp : ∀ k t u, WF t → Dom ρ t → perf k t = .ok (.hit u) → WF u ∧ Dom ρ u ∧ den ρ u = den ρ t)
    (he : Built O e) (hdom : Dom ρ e) (hok : RepOk O false ρ perf n e)
    (h : replaceE O perf n e = .ok r) : den ρ r = den ρ e ∧ Dom ρ r := by
  have hp : PerfOk false ρ ρ perf := ⟨hp, fun k b _ db _ => ⟨db, rfl⟩, fun _ _ _ => rfl⟩
  have := replace_sound hO hp n (he.wf hO) hdom hok h
  exact ⟨this.2.2, this.2.1⟩

/-- **C22** when `old` does not occur the value stays the same. -/
theorem replace_absent_value (hO : O.Exact) (n : Nat) {ρ : Str → ℝ} {e old new r : Expr} (he : Built O e)
    (hf : floatFree old = true) (ha : ¬ Sub old e) (ht : TameP (fun _ _ => .ok .pass) e) (hdom : Dom ρ e)
    (h : replaceOld O n e old new = .ok r) : den ρ r = den ρ e ∧ Dom ρ r := by
  have hfo := (floatFree_iff old).1 hf
  rw [replaceOld, replaceE_congr (q := fun _ _ => .ok .pass) n] at h
  · exact replace_rules_value hO n (by simp) (by simp) he ht hdom h
  · intro k s hs
    simp only [replacePerf]
    rw [if_neg]
    intro hb
    have hsf := (floatFree_iff s).1 (floatFree_sub hs ((floatFree_iff e).2 hdom.noFlt))
    rw [beq_eq hO.isPi hO.isE _ _ hsf hfo hb] at hs
    exact ha hs

section examples
set_option maxRecDepth 10000
private abbrev x : Expr := sym ['x']
private abbrev y : Expr := sym ['y']
private abbrev z : Expr := sym ['z']

/-- `replace(3*sin(x)**2 + y**(sin(x)), sin(x), z)` where `z = sin x`. -/
example (ρ : Str → ℝ) (hy : 0 < ρ ['y']) (hz : Real.sin (ρ ['x']) = ρ ['z']) :
    den ρ (sum [prod [rat 3, pow z (rat 2)], pow y z]) =
      den ρ (sum [prod [rat 3, pow (trig .sin x) (rat 2)], pow y (trig .sin x)]) := by
  refine (replace_value exactOracle_exact 30 (old := trig .sin x) (new := z) (built_of_self (by decide +kernel))
    (built_of_self (by decide +kernel)) (by decide) (by decide) (by decide +kernel) ?_ ?_ ?_ (by decide +kernel)).1
  · simp [Dom, DomS, DomSL, den, HN, intExp, TrigFn.ok, hy.le, hy.ne']
  · simp [Dom, DomS]
  · simp [den, TrigFn.real, hz]

/-- `replace(x**2 + y, x, y + 1)` -/
example (ρ : Str → ℝ) : den ρ (sum [pow (sum [y, rat 1]) (rat 2), y]) = (ρ ['y'] + 1) ^ 2 + ρ ['y'] := by
  rw [(replace_symbol_value exactOracle_exact 30 (ρ := ρ) (x := ['x']) (e := sum [pow x (rat 2), y]) (new := sum [y, rat 1])
    (built_of_self (by decide +kernel)) (built_of_self (by decide +kernel)) (by decide +kernel)
    (by simp [Dom, DomS, DomSL, den, intExp]) (by simp [Dom, DomS, DomSL]) (by decide +kernel)).1]
  have := pw_int (ρ ['y'] + 1) 2
  simp only [den, denS, Function.update_apply]
  norm_num at this ⊢
  rw [this, if_neg (by decide)]

/-- a rule: `sin(t)**2` becomes `1 - cos(t)**2` -/
private def pyth (_n : Nat) (e : Expr) : R Rep :=
  match e with
  | pow (trig .sin t) (rat q) => if q = 2 then .ok (.hit (sum [rat 1, prod [rat (-1), pow (trig .cos t) (rat 2)]])) else .ok .pass
  | _ => .ok .pass

private theorem pyth_hit {k : Nat} {t u : Expr} (h : pyth k t = .ok (.hit u)) : ∃ a, t = pow (trig .sin a) (rat 2) ∧
    u = sum [rat 1, prod [rat (-1), pow (trig .cos a) (rat 2)]] := by
  unfold pyth at h
  split at h
  · split at h
    · next hq => subst hq; cases h; exact ⟨_, rfl, rfl⟩
    · cases h
  · cases h

/-- Rewriting with `sin² = 1 - cos²` everywhere. -/
example (ρ : Str → ℝ) : den ρ (sum [prod [rat (-1), pow (trig .cos x) (rat 2)], y, rat 1]) =
    den ρ (sum [pow (trig .sin x) (rat 2), y]) := by
  refine (replace_rules_value exactOracle_exact 30 (perf := pyth) ?_ ?_ (built_of_self (by decide +kernel)) ?_ ?_
    (by decide +kernel)).1
  · intro k t u wt dt h
    obtain ⟨a, rfl, rfl⟩ := pyth_hit h
    obtain ⟨⟨d1, -, -⟩, -, -, -, -⟩ := dt
    have h2 := fun t : ℝ => pw_int t 2
    have wa : WF a := wt.1
    refine ⟨by simp [WF, WFL, isAcc, baseOk, wa, List.filter], by simp [Dom, DomS, DomSL, TrigFn.ok, den, intExp, d1], ?_⟩
    simp only [den, denS, denP, TrigFn.real]
    norm_num at h2 ⊢
    rw [h2, h2, Real.sin_sq]
    ring
  · intro k q; rfl
  · refine ⟨⟨⟨trivial, ?_⟩, trivial, .inl (by decide)⟩, trivial, trivial⟩
    rw [if_neg (by decide)]
    refine ⟨by decide, fun k t u ht h => ?_⟩
    obtain ⟨a, rfl, rfl⟩ := pyth_hit h
    simpa [containsCls, containsClsL, isInvTrig, TrigFn.isInverse] using ht
  · simp [Dom, DomS, DomSL, TrigFn.ok, den, intExp]

/-- `replace(sqrt(z), z, x*y)` returns `sqrt(x)*sqrt(y)`, which is not defined at `x = y = -1`, `z = 1` although `z` and
`x*y` have the same value there. -/
theorem replace_value_fails : ∃ (e old new r : Expr) (ρ : Str → ℝ), Built exactOracle e ∧ Built exactOracle new ∧
    Dom ρ e ∧ Dom ρ new ∧ den ρ old = den ρ new ∧ replaceOld exactOracle 30 e old new = .ok r ∧ ¬ DomF ρ r := by
  refine ⟨pow z (rat (1 / 2)), z, prod [x, y], prod [pow x (rat (1 / 2)), pow y (rat (1 / 2))],
    fun s => if s = ['z'] then 1 else -1, built_of_self (by decide +kernel), built_of_self (by decide +kernel), ?_, ?_, ?_,
    by decide +kernel, ?_⟩
  · simp [Dom, DomS, den, HN]
  · simp [Dom, DomS, DomSL]
  · simp [den, denP]
  · simp only [DomF, DomFL, den, not_and, and_true]
    intro h
    exfalso
    rcases h.2.2.2 with h | ⟨q, hq, ho⟩
    · rw [if_neg (by decide)] at h; norm_num at h
    · have : q = 1 / 2 := by exact_mod_cast hq
      subst this
      exact absurd ho (by decide +kernel)

end examples
end Simpy
