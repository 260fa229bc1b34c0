import Verif.Model.Parked
import Verif.Proofs.EasyRep
import Verif.Proofs.USubSound
import Verif.Proofs.PythSound

namespace Simpy
open Expr

variable {O : Oracle}

theorem compoundPerf_some {k : Nat} {e u : Expr} (h : compoundPerf O k e = .ok (.hit u)) :
    ∃ a b, (e = trig .sin (sum [a, b]) ∧ ∃ p q x p' q' y, trigCtor O k .sin a = .ok p ∧ trigCtor O k .cos b = .ok q ∧
        opMul (ctors O k) p q = .ok x ∧ trigCtor O k .cos a = .ok p' ∧ trigCtor O k .sin b = .ok q' ∧
        opMul (ctors O k) p' q' = .ok y ∧ opAdd (ctors O k) x y = .ok u) ∨
      (e = trig .cos (sum [a, b]) ∧ ∃ p q x p' q' y, trigCtor O k .cos a = .ok p ∧ trigCtor O k .cos b = .ok q ∧
        opMul (ctors O k) p q = .ok x ∧ trigCtor O k .sin a = .ok p' ∧ trigCtor O k .sin b = .ok q' ∧
        opMul (ctors O k) p' q' = .ok y ∧ opSub (ctors O k) x y = .ok u) := by
  unfold compoundPerf at h
  split at h
  · rename_i a b
    obtain ⟨p, h1, h⟩ := bind_ok.1 h
    obtain ⟨q, h2, h⟩ := bind_ok.1 h
    obtain ⟨x, h3, h⟩ := bind_ok.1 h
    obtain ⟨p', h4, h⟩ := bind_ok.1 h
    obtain ⟨q', h5, h⟩ := bind_ok.1 h
    obtain ⟨y, h6, h⟩ := bind_ok.1 h
    obtain ⟨r, h7, h⟩ := bind_ok.1 h
    cases pure_ok.1 h
    exact ⟨a, b, .inl ⟨rfl, p, q, x, p', q', y, h1, h2, h3, h4, h5, h6, h7⟩⟩
  · rename_i a b
    obtain ⟨p, h1, h⟩ := bind_ok.1 h
    obtain ⟨q, h2, h⟩ := bind_ok.1 h
    obtain ⟨x, h3, h⟩ := bind_ok.1 h
    obtain ⟨p', h4, h⟩ := bind_ok.1 h
    obtain ⟨q', h5, h⟩ := bind_ok.1 h
    obtain ⟨y, h6, h⟩ := bind_ok.1 h
    obtain ⟨r, h7, h⟩ := bind_ok.1 h
    cases pure_ok.1 h
    exact ⟨a, b, .inr ⟨rfl, p, q, x, p', q', y, h1, h2, h3, h4, h5, h6, h7⟩⟩
  · cases h

theorem noInv_two {f : TrigFn} {a b : Expr} (h : containsCls isInvTrig (trig f (sum [a, b])) = false) :
    containsCls isInvTrig a = false ∧ containsCls isInvTrig b = false := by
  simp only [containsCls, containsClsL, Bool.or_eq_false_iff] at h
  exact ⟨h.2.2.1, h.2.2.2.1⟩

theorem compoundPerf_V (hO : O.Exact) {st : Bool} {ρ : Str → ℝ} {k : Nat} {e u : Expr} (hn : containsCls isInvTrig e = false) (w : WF e)
    (d : DomS st ρ e) (h : compoundPerf O k e = .ok (.hit u)) : Val st ρ u (den ρ e) := by
  have hC := ctors_sound hO k
  obtain ⟨a, b, ⟨rfl, p, q, x, p', q', y, h1, h2, h3, h4, h5, h6, h7⟩ | ⟨rfl, p, q, x, p', q', y, h1, h2, h3, h4, h5, h6, h7⟩⟩ :=
    compoundPerf_some h <;>
  obtain ⟨na, nb⟩ := noInv_two hn <;>
  simp only [WF, WFL] at w <;>
  simp only [DomS, DomSL] at d <;>
  obtain ⟨wa, wb, -⟩ := w <;>
  obtain ⟨⟨da, db, -⟩, -⟩ := d
  · have v1 := Val.trig hO (f := .sin) rfl wa da na trivial h1
    have v2 := Val.trig hO (f := .cos) rfl wb db nb trivial h2
    have v4 := Val.trig hO (f := .cos) rfl wa da na trivial h4
    have v5 := Val.trig hO (f := .sin) rfl wb db nb trivial h5
    refine (Val.add hC (Val.mul hC v1 v2 h3) (Val.mul hC v4 v5 h6) h7).congr ?_
    simp [den, denS, TrigFn.real, Real.sin_add]
  · have v1 := Val.trig hO (f := .cos) rfl wa da na trivial h1
    have v2 := Val.trig hO (f := .cos) rfl wb db nb trivial h2
    have v4 := Val.trig hO (f := .sin) rfl wa da na trivial h4
    have v5 := Val.trig hO (f := .sin) rfl wb db nb trivial h5
    refine (Val.sub hC (Val.mul hC v1 v2 h3) (Val.mul hC v4 v5 h6) h7).congr ?_
    simp [den, denS, TrigFn.real, Real.cos_add]

theorem compoundPerf_noInv : KeepsOut isInvTrig (compoundPerf O) := by
  intro k e u he h
  have hE := (admE_noInv O)
  obtain ⟨a, b, ⟨rfl, p, q, x, p', q', y, h1, h2, h3, h4, h5, h6, h7⟩ | ⟨rfl, p, q, x, p', q', y, h1, h2, h3, h4, h5, h6, h7⟩⟩ :=
    compoundPerf_some h <;>
  obtain ⟨na, nb⟩ := noInv_two he
  · exact hE.opAdd (hE.opMul (noInv_ptrig O k .sin rfl na h1) (noInv_ptrig O k .cos rfl nb h2) h3)
      (hE.opMul (noInv_ptrig O k .cos rfl na h4) (noInv_ptrig O k .sin rfl nb h5) h6) h7
  · exact hE.opSub (hE.opMul (noInv_ptrig O k .cos rfl na h1) (noInv_ptrig O k .cos rfl nb h2) h3)
      (hE.opMul (noInv_ptrig O k .sin rfl na h4) (noInv_ptrig O k .sin rfl nb h5) h6) h7

theorem noInv_children {e : Expr} (h : containsCls isInvTrig e = false) : ∀ t ∈ e.children, containsCls isInvTrig t = false := by
  intro t ht
  have hl : ∀ ts : List Expr, containsClsL isInvTrig ts = false → t ∈ ts → containsCls isInvTrig t = false := by
    intro ts hts htt
    by_contra hc
    rw [Bool.not_eq_false] at hc
    rw [Bool.eq_false_iff] at hts
    exact hts (containsClsL_iff.2 ⟨t, htt, hc⟩)
  cases e <;> simp only [Expr.children, List.mem_cons, List.not_mem_nil, or_false] at ht <;>
    simp only [containsCls, Bool.or_eq_false_iff] at h
  case sum ts => exact hl ts h.2 ht
  case prod ts => exact hl ts h.2 ht
  case pow b x => rcases ht with rfl | rfl; exacts [h.2.1, h.2.2]
  case log b x => rcases ht with rfl | rfl; exacts [h.2.1, h.2.2]
  case trig f i => subst ht; exact h.2
  case absv i => subst ht; exact h.2

theorem noInv_visits {perf : Nat → Expr → R Rep} : ∀ (n : Nat) {e : Expr}, containsCls isInvTrig e = false →
    Visits perf (fun _ e => !containsCls isInvTrig e) n e = true
  | 0, _, _ => rfl
  | n + 1, e, h => by
    unfold Visits
    rw [h, Bool.not_false, Bool.true_and]
    split
    · simp only [List.all_eq_true]
      exact fun t ht => noInv_visits n (noInv_children h t ht)
    · rfl

theorem compoundAngle_some {n : Nat} {e g : Expr} (h : compoundAngle O n e = .ok (some g)) :
    generalContains isCompound e = true ∧ replaceE O (compoundPerf O) n e = .ok g := by
  unfold compoundAngle at h
  split at h
  · next hc =>
    obtain ⟨r, h1, h⟩ := bind_ok.1 h
    have := pure_ok.1 h
    simp only [Option.some.injEq] at this
    subst this
    exact ⟨hc, h1⟩
  · cases h

/-! ## SinUSub -/

theorem constTimesVar_some (hO : O.Exact) {n : Nat} {v : Str} {i : Expr} (hi : NoFlt i) (h : constTimesVar O n v i = .ok true) :
    i = sym v ∨ ∃ q, opDiv (ctors O n) i (sym v) = .ok q ∧ v ∉ syms q := by
  unfold constTimesVar at h
  split at h
  · next hb => exact .inl ((beq_iff hO hi (by simp [NoFlt])).1 hb)
  · obtain ⟨q, h1, h⟩ := bind_ok.1 h
    have := pure_ok.1 h
    refine .inr ⟨q, h1, ?_⟩
    simpa using this

theorem sinLoop_some {n : Nat} {v : Str} {ts : List Expr} {i : Expr} : ∀ {r sins coses : List Expr},
    (∀ s ∈ sins, trig .sin s ∈ ts ∧ constTimesVar O n v s = .ok true) → (∀ c ∈ coses, trig .cos c ∈ ts) → (∀ t ∈ r, t ∈ ts) →
    sinLoop O n v sins coses r = .ok (some i) →
    trig .sin i ∈ ts ∧ constTimesVar O n v i = .ok true ∧ ∃ c, trig .cos c ∈ ts ∧ (beq O i c = true ∨ beq O c i = true)
  | [], _, _, _, _, _, h => by simp [sinLoop] at h
  | t :: r, sins, coses, hs, hc, hr, h => by
    have ht := hr t List.mem_cons_self
    have hr' : ∀ t ∈ r, t ∈ ts := fun t h => hr t (List.mem_cons_of_mem _ h)
    unfold sinLoop at h
    split at h
    · rename_i j
      obtain ⟨b, h1, h⟩ := bind_ok.1 h
      split at h
      · next hb =>
        subst hb
        split at h
        · next ha =>
          have := pure_ok.1 h
          simp only [Option.some.injEq] at this
          subst this
          obtain ⟨c, hc1, hc2⟩ := List.any_eq_true.1 ha
          exact ⟨ht, h1, c, hc c hc1, .inl hc2⟩
        · refine sinLoop_some (fun s h => ?_) hc hr' h
          rcases List.mem_append.1 h with h | h
          · exact hs s h
          · rw [List.mem_singleton] at h; subst h; exact ⟨ht, h1⟩
      · exact sinLoop_some hs hc hr' h
    · rename_i j
      obtain ⟨b, h1, h⟩ := bind_ok.1 h
      split at h
      · split at h
        · next s hf =>
          have := pure_ok.1 h
          simp only [Option.some.injEq] at this
          subst this
          obtain ⟨h2, h3⟩ := hs _ (List.mem_of_find?_eq_some hf)
          exact ⟨h2, h3, j, ht, .inr (List.find?_some hf)⟩
        · refine sinLoop_some hs (fun c h => ?_) hr' h
          rcases List.mem_append.1 h with h | h
          · exact hc c h
          · rw [List.mem_singleton] at h; subst h; exact ht
      · exact sinLoop_some hs hc hr' h
    · exact sinLoop_some hs hc hr' h

theorem sinUSub_some {n : Nat} {v u : Str} {e q g : Expr} (h : sinUSub O n v u e = .ok (some (q, g))) :
    ∃ ts i d r, e = prod ts ∧ q = trig .sin i ∧ sinLoop O n v [] [] ts = .ok (some i) ∧ diffE O n v q = .ok d ∧
      replaceOld O n e q (sym u) = .ok r ∧ opDiv (ctors O n) r d = .ok g ∧ v ∉ syms g := by
  cases e with
  | prod ts =>
    simp only [sinUSub] at h
    obtain ⟨k, h1, h⟩ := bind_ok.1 h
    cases k with
    | none => have := pure_ok.1 h; simp at this
    | some i =>
      simp only at h
      obtain ⟨d, h3, h⟩ := bind_ok.1 h
      obtain ⟨r, h4, h⟩ := bind_ok.1 h
      obtain ⟨g', h5, h⟩ := bind_ok.1 h
      split at h
      · have := pure_ok.1 h; simp at this
      · next hv =>
        have := pure_ok.1 h
        simp only [Option.some.injEq, Prod.mk.injEq] at this
        obtain ⟨rfl, rfl⟩ := this
        exact ⟨ts, i, d, r, rfl, rfl, h1, h3, h4, h5, hv⟩
  | _ => simp [sinUSub] at h

end Simpy
