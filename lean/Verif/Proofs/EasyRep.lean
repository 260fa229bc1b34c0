import Verif.Proofs.VisitSound
import Verif.Props.Expand
import Verif.Model.Simplify
import Verif.Spec.SimplifyRun

/-! `replace` on expressions with integer exponents and without logarithms and inverse trig functions, and the rule
`_reciprocate_trigs`. -/

namespace Simpy
open Expr

variable {O : Oracle}

/-- The test for `Easy`. -/
def easyB (_ : Nat) (e : Expr) : Bool := intPows e && !containsCls isLog e && !containsCls isInvTrig e

theorem easyB_iff {k : Nat} {e : Expr} : easyB k e = true ↔ Easy e := by
  simp [easyB, Easy, and_assoc]

theorem Easy.trig {f : TrigFn} {i : Expr} (h : Easy (trig f i)) : Easy i ∧ f.isInverse = false := by
  have hi : Easy i := ⟨closed_intPows.trig h.1, closed_noLog.trig h.2.1, closed_noInv.trig h.2.2⟩
  refine ⟨hi, ?_⟩
  have := h.2.2
  simp only [containsCls, isInvTrig, Bool.or_eq_false_iff] at this
  exact this.1

theorem Easy.absv {i : Expr} (h : Easy (absv i)) : Easy i :=
  ⟨closed_intPows.absv.1 h.1, closed_noLog.absv.1 h.2.1, closed_noInv.absv.1 h.2.2⟩

theorem Easy.intExp {x : Expr} (h : intExp x = true) : Easy x := by
  obtain ⟨k, rfl⟩ := intExp_iff.1 h
  exact Easy.rat _

theorem Easy.children {e : Expr} (h : Easy e) : ∀ t ∈ Expr.children e, Easy t := by
  intro t ht
  cases e with
  | sum ts => exact h.sum t ht
  | prod ts => exact h.prod t ht
  | pow b x =>
    simp only [Expr.children, List.mem_cons, List.not_mem_nil, or_false] at ht
    rcases ht with rfl | rfl
    · exact h.pow.1
    · exact .intExp h.pow.2
  | log i b => have := h.2.1; simp [containsCls, isLog] at this
  | trig f i => simp only [Expr.children, List.mem_cons, List.not_mem_nil, or_false] at ht; subst ht; exact h.trig.1
  | absv i => simp only [Expr.children, List.mem_cons, List.not_mem_nil, or_false] at ht; subst ht; exact h.absv
  | _ => simp [Expr.children] at ht

theorem Easy.visits {perf : Nat → Expr → R Rep} : ∀ (n : Nat) {e : Expr}, Easy e → Visits perf easyB n e = true
  | 0, _, _ => rfl
  | n + 1, e, h => by
    unfold Visits
    rw [easyB_iff.2 h, Bool.true_and]
    split
    · simp only [List.all_eq_true]
      exact fun t ht => Easy.visits n (h.children t ht)
    · rfl

mutual
theorem Easy.tame {perf : Nat → Expr → R Rep} (hk : KeepsOut isInvTrig perf) : ∀ {e : Expr}, Easy e → TameP perf e := by
  intro e h
  cases e with
  | sum ts => exact Easy.tameL hk h.sum
  | prod ts => exact Easy.tameL hk h.prod
  | pow b x => exact ⟨Easy.tame hk h.pow.1, by obtain ⟨k, hx⟩ := intExp_iff.1 h.pow.2; rw [hx]; trivial, .inl h.pow.2⟩
  | log i b => have := h.2.1; simp [containsCls, isLog] at this
  | trig f i =>
    refine ⟨Easy.tame hk h.trig.1, ?_⟩
    rw [h.trig.2, if_neg (by simp)]
    exact ⟨h.trig.1.2.2, hk⟩
  | absv i => exact (Easy.tame hk h.absv : TameP perf i)
  | _ => trivial
theorem Easy.tameL {perf : Nat → Expr → R Rep} (hk : KeepsOut isInvTrig perf) : ∀ {ts : List Expr}, (∀ t ∈ ts, Easy t) →
    TamePL perf ts
  | [], _ => trivial
  | t :: r, h => ⟨Easy.tame hk (h t (by simp)), Easy.tameL hk fun u hu => h u (by simp [hu])⟩
end

/-- Rules that are right on easy nodes, keep inverse trig functions out and have no verdict on numbers preserve the value of easy
expressions. -/
theorem replace_easy (hO : O.Exact) {st : Bool} {ρ : Str → ℝ} {perf : Nat → Expr → R Rep}
    (hp : PerfOn easyB st ρ perf) (hk : KeepsOut isInvTrig perf) (hnum : ∀ k q, perf k (rat q) = .ok .pass)
    {n : Nat} {e r : Expr} (w : WF e) (d : DomS st ρ e) (he : Easy e)
    (h : replaceE O perf n e = .ok r) : Val st ρ r (den ρ e) := by
  rw [← (visits_guard (O := O) n (he.visits (perf := perf) n)).1] at h
  refine replace_sound hO hp.guard n w d (repOk_of_tame hO hp.guard ?_ n w d (Easy.tame ?_ he)) h
  · intro k q
    have : easyB k (rat q) = true := easyB_iff.2 (.rat q)
    simp [guardP, this, hnum]
  · intro k e u hi hu
    unfold guardP at hu
    split at hu
    · exact hk k e u hi hu
    · cases hu

/-- The reciprocal function is defined where the function is not 0, and has the reciprocal value. -/
theorem recip_value {f g : TrigFn} (hg : f.recip = some g) {t : ℝ} (hok : f.ok t) (h0 : f.real t ≠ 0) :
    g.ok t ∧ g.real t = (f.real t)⁻¹ := by
  cases f <;> simp [TrigFn.recip] at hg <;> subst hg <;> simp_all [TrigFn.ok, TrigFn.real]

theorem recip_isInverse {f g : TrigFn} (hg : f.recip = some g) : f.isInverse = false ∧ g.isInverse = false := by
  cases f <;> simp [TrigFn.recip] at hg <;> subst hg <;> exact ⟨rfl, rfl⟩

theorem pw_neg_inv {b x : ℝ} (h : ∃ k : ℤ, x = k ∨ 0 ≤ b) : pw b⁻¹ (-x) = pw b x := by
  obtain ⟨k, rfl | h0⟩ := h
  · have : (-(k : ℝ)) = ((-k : ℤ) : ℝ) := by push_cast; rfl
    rw [this, pw_int, pw_int]; simp
  · rw [pw_of_nonneg (inv_nonneg.2 h0), pw_of_nonneg h0, Real.inv_rpow h0, Real.rpow_neg h0, inv_inv]

/-- `_reciprocate_trigs`. -/
theorem recipPerf_on (hO : O.Exact) (st : Bool) (ρ : Str → ℝ) : PerfOn (recipOk O) st ρ (recipPerf O) := by
  intro k e u hP w d h
  unfold recipPerf at h
  split at h
  · rename_i f i q
    split at h
    · rename_i hq
      split at h
      · rename_i g hg
        obtain ⟨b, h1, h⟩ := bind_ok.1 h
        obtain ⟨r, h2, h⟩ := bind_ok.1 h
        cases pure_ok.1 h
        have hC := ctors_sound hO k
        obtain ⟨⟨di, fok, fin⟩, -, d1, d2, d3⟩ := d
        simp only [recipOk, hg, Bool.and_eq_true, Bool.not_eq_true', Bool.or_eq_true] at hP
        have hq' : (q : ℝ) < 0 := by exact_mod_cast hq
        have hb0 : den ρ (trig f i) ≠ 0 := d1.resolve_right (by simpa using hq')
        have hb0' : f.real (den ρ i) ≠ 0 := hb0
        obtain ⟨gok, greal⟩ := recip_value hg fok hb0'
        have vb := Val.trig (a := i) hO (recip_isInverse hg).2 w.1 di hP.1 gok h1
        rw [greal] at vb
        have key : (∃ j : ℤ, (q : ℝ) = j ∨ 0 ≤ f.real (den ρ i)) ∧ PowDomS st ρ b (rat (-q)) := by
          rcases hx : intExp (rat q) with _ | _
          · have hn : 0 ≤ f.real (den ρ i) := d2 hx
            refine ⟨⟨0, .inr hn⟩, vb.2.1, by simp, .inl (by rw [vb.2.2]; exact inv_ne_zero hb0'), fun _ => ?_,
              fun _ => .inl (by rw [vb.2.2]; exact inv_ne_zero hb0')⟩
            have hbo : baseOk b = true := by
              have := hP.2.resolve_left (by rw [hx]; simp)
              simpa [okR, h1] using this
            exact ((HN_of_baseOk hbo).2 (by rw [vb.2.2]; exact inv_nonneg.2 hn)).radOk
          · obtain ⟨j, hj⟩ := intExp_iff.1 hx
            cases hj
            refine ⟨⟨j, .inl (by simp)⟩, vb.2.1, by simp, .inl (by rw [vb.2.2]; exact inv_ne_zero hb0'), fun hx' => ?_,
              fun _ => .inl (by rw [vb.2.2]; exact inv_ne_zero hb0')⟩
            exfalso
            simp [Simpy.intExp] at hx'
        obtain ⟨v, dr⟩ := hC.pow ρ b (rat (-q)) u vb.1 (by simp) key.2 h2
        refine ⟨hC.powW b _ u vb.1 (by simp) h2, dr, ?_⟩
        rw [v, vb.2.2]
        simp only [den_rat, Rat.cast_neg]
        rw [pw_neg_inv key.1]
        simp [den]
      · cases h
    · cases h
  · cases h

theorem recipPerf_easy (hO : O.Exact) (st : Bool) (ρ : Str → ℝ) : PerfOn easyB st ρ (recipPerf O) := by
  intro k e u hP
  refine recipPerf_on hO st ρ k e u ?_
  have he := easyB_iff.1 hP
  unfold recipOk
  split
  · have h := he.pow
    simp [h.2, h.1.trig.1.2.2]
  · rfl

theorem recipPerf_noInv : KeepsOut isInvTrig (recipPerf O) := by
  intro k e u he h
  unfold recipPerf at h
  split at h
  · rename_i f i q
    split at h
    · split at h
      · rename_i g hg
        obtain ⟨b, h1, h⟩ := bind_ok.1 h
        obtain ⟨r, h2, h⟩ := bind_ok.1 h
        cases pure_ok.1 h
        have hi := closed_noInv.trig (closed_noInv.pow.1 he).1
        exact (ctors_pres closed_noInv O k).pow _ _ _ ((admE_noInv O).rtrig k (f := g) (i := i)
          (by simp [containsCls, isInvTrig, hi, (recip_isInverse hg).2]) hi h1) (by simp [containsCls, isInvTrig]) h2
      · cases h
    · cases h
  · cases h

/-! ### `replace_class` -/

theorem noInv_ptrig (O : Oracle) (n : Nat) (f : TrigFn) {i r : Expr} (hf : f.isInverse = false)
    (hi : containsCls isInvTrig i = false) (h : trigCtor O n f i = .ok r) : containsCls isInvTrig r = false :=
  (admE_noInv O).rtrig n (f := f) (i := i) (by simp [containsCls, isInvTrig, hi, hf]) hi h

theorem noInv_plog (O : Oracle) {i b r : Expr} (hi : containsCls isInvTrig i = false) (hb : containsCls isInvTrig b = false)
    (h : logCtor O i b = .ok r) : containsCls isInvTrig r = false :=
  logCtor_Q closed_noInv (fun _ => id) (fun i b hi hb => by simp [containsCls, isInvTrig, hi, hb]) hi hb h

/-- Runs of `replace_class` on easy expressions are tame. -/
theorem Easy.runTameC {new : TrigFn → Option (Nat → Expr → R Expr)} (hn : NewQ (fun e => containsCls isInvTrig e = false) new) :
    ∀ (n : Nat) {e : Expr}, Easy e → RunTameC O new n e = true
  | 0, _, _ => rfl
  | n + 1, e, h => by
    unfold RunTameC
    split
    · rfl
    cases e with
    | sum ts => simp only [List.all_eq_true]; exact fun t ht => Easy.runTameC hn n (h.sum t ht)
    | prod ts => simp only [List.all_eq_true]; exact fun t ht => Easy.runTameC hn n (h.prod t ht)
    | pow b x =>
      have hx : okR Simpy.intExp (replaceClass O new n x) = true := by
        obtain ⟨k, hk⟩ := intExp_iff.1 h.pow.2
        cases n with
        | zero => rfl
        | succ n => rw [hk]; simp [replaceClass, containsCls, listed, okR, Simpy.intExp]
      simp [Easy.runTameC hn n h.pow.1, Easy.runTameC hn n (Easy.intExp h.pow.2), hx]
    | log i b => have := h.2.1; simp [containsCls, isLog] at this
    | trig f i =>
      simp only [Easy.runTameC hn n h.trig.1, h.trig.2, Bool.true_and]
      rw [if_neg (by simp)]
      rcases hr : replaceClass O new n i with er | r
      · rfl
      · simp [okR, (admE_noInv O).replaceClass (noInv_plog O) hn n h.trig.1.2.2 hr]
    | absv i => exact Easy.runTameC hn n h.absv
    | _ => rfl

end Simpy
