import Verif.Proofs.ReplaceSound
import Verif.Proofs.RewriteSound

/-! `replace` with rules that are right on the nodes the run looks at. -/

namespace Simpy
open Expr

variable {O : Oracle}

/-- The rules, with an exception where the test fails. -/
def guardP (P : Nat → Expr → Bool) (perf : Nat → Expr → R Rep) : Nat → Expr → R Rep :=
  fun k e => if P k e then perf k e else .error .assertion

theorem visits_guard {perf : Nat → Expr → R Rep} {P : Nat → Expr → Bool} : ∀ (n : Nat) {e : Expr},
    Visits perf P n e = true →
      replaceE O (guardP P perf) n e = replaceE O perf n e ∧ RunTame O (guardP P perf) n e = RunTame O perf n e
  | 0, _, _ => ⟨rfl, rfl⟩
  | n + 1, e, h => by
    have ih := fun {e : Expr} => visits_guard (perf := perf) (P := P) n (e := e)
    unfold Visits at h
    rw [Bool.and_eq_true] at h
    have hg : guardP P perf n e = perf n e := by simp [guardP, h.1]
    unfold replaceE RunTame
    rw [hg]
    rcases hp : perf n e with er | v
    · exact ⟨rfl, rfl⟩
    cases v with
    | hit u => exact ⟨rfl, rfl⟩
    | stop => exact ⟨rfl, rfl⟩
    | pass =>
      have hc : ∀ t ∈ e.children, replaceE O (guardP P perf) n t = replaceE O perf n t ∧
          RunTame O (guardP P perf) n t = RunTame O perf n t := by
        have h2 := h.2
        rw [hp] at h2
        simp only [List.all_eq_true] at h2
        exact fun t ht => ih (h2 t ht)
      have hall : ∀ {ts : List Expr}, (∀ t ∈ ts, replaceE O (guardP P perf) n t = replaceE O perf n t ∧
          RunTame O (guardP P perf) n t = RunTame O perf n t) → ts.all (RunTame O (guardP P perf) n) = ts.all (RunTame O perf n) := by
        intro ts h
        induction ts with
        | nil => rfl
        | cons a l ih => simp only [List.all_cons]; rw [(h a (by simp)).2, ih fun t ht => h t (by simp [ht])]
      cases e <;> simp only [children] at hc <;> refine ⟨?_, ?_⟩ <;> (try rfl)
      case sum.refine_1 ts => simp only [bind, Except.bind]; rw [mapR_congr fun t ht => (hc t ht).1]
      case sum.refine_2 ts => exact hall hc
      case prod.refine_1 ts => simp only [bind, Except.bind]; rw [mapR_congr fun t ht => (hc t ht).1]
      case prod.refine_2 ts => exact hall hc
      case pow.refine_1 b x => simp only [bind, Except.bind]; rw [(hc b (by simp)).1, (hc x (by simp)).1]
      case pow.refine_2 b x =>
        simp only
        rw [(hc b (by simp)).1, (hc x (by simp)).1, (hc b (by simp)).2, (hc x (by simp)).2]
      case log.refine_1 b x => simp only [bind, Except.bind]; rw [(hc b (by simp)).1, (hc x (by simp)).1]
      case log.refine_2 b x => simp only; rw [(hc b (by simp)).1, (hc b (by simp)).2, (hc x (by simp)).2]
      case trig.refine_1 f x => simp only [bind, Except.bind]; rw [(hc x (by simp)).1]
      case trig.refine_2 f x => simp only; rw [(hc x (by simp)).1, (hc x (by simp)).2]
      case absv.refine_1 x => simp only [bind, Except.bind]; rw [(hc x (by simp)).1]
      case absv.refine_2 x => exact (hc x (by simp)).2

/-- The rules preserve the value on the nodes that pass the test. -/
def PerfOn (P : Nat → Expr → Bool) (st : Bool) (ρ : Str → ℝ) (perf : Nat → Expr → R Rep) : Prop :=
  ∀ k e u, P k e = true → WF e → DomS st ρ e → perf k e = .ok (.hit u) → Val st ρ u (den ρ e)

theorem PerfOn.guard {P : Nat → Expr → Bool} {st : Bool} {ρ : Str → ℝ} {perf : Nat → Expr → R Rep} (h : PerfOn P st ρ perf) :
    PerfOk st ρ ρ (guardP P perf) where
  hit := by
    intro k e u w d hu
    unfold guardP at hu
    split at hu
    · rename_i hP; exact h k e u hP w d hu
    · cases hu
  stop := fun _ _ _ d _ => ⟨d, rfl⟩
  pass := fun _ _ _ => rfl

/-- Runs of `replace` that are tame and whose nodes pass the test preserve the value. -/
theorem replace_on (hO : O.Exact) {P : Nat → Expr → Bool} {st : Bool} {ρ : Str → ℝ} {perf : Nat → Expr → R Rep}
    (hp : PerfOn P st ρ perf) {n : Nat} {e r : Expr} (w : WF e) (d : DomS st ρ e) (hv : Visits perf P n e = true)
    (ht : RunTame O perf n e = true) (h : replaceE O perf n e = .ok r) : Val st ρ r (den ρ e) := by
  obtain ⟨g1, g2⟩ := visits_guard (O := O) n hv
  rw [← g1] at h
  rw [← g2] at ht
  exact replace_sound hO hp.guard n w d (repOk_of_run hO hp.guard n w d ht) h

open Classical in
theorem visits_of_P {perf : Nat → Expr → R Rep} {P : Nat → Expr → Prop} : ∀ (n : Nat) {e : Expr}, VisitsP perf P n e →
    Visits perf (fun k t => decide (P k t)) n e = true
  | 0, _, _ => rfl
  | n + 1, e, h => by
    unfold VisitsP at h
    unfold Visits
    rw [Bool.and_eq_true]
    refine ⟨decide_eq_true h.1, ?_⟩
    split
    · rename_i hp
      rw [List.all_eq_true]
      exact fun t ht => visits_of_P n (h.2 hp t ht)
    · rfl

/-- `replace_on` for a test that need not be decidable. -/
theorem replace_onP (hO : O.Exact) {P : Nat → Expr → Prop} {st : Bool} {ρ : Str → ℝ} {perf : Nat → Expr → R Rep}
    (hp : ∀ k e u, P k e → WF e → DomS st ρ e → perf k e = .ok (.hit u) → Val st ρ u (den ρ e)) {n : Nat} {e r : Expr} (w : WF e)
    (d : DomS st ρ e) (hv : VisitsP perf P n e) (ht : RunTame O perf n e = true) (h : replaceE O perf n e = .ok r) :
    Val st ρ r (den ρ e) := by
  classical
  exact replace_on hO (P := fun k t => decide (P k t)) (fun k e u hP => hp k e u (of_decide_eq_true hP)) w d (visits_of_P n hv) ht h

end Simpy
