import Verif.Proofs.VisitSound
import Verif.Proofs.FactorSound
import Verif.Spec.Logs

/-! Rules for logarithms. -/

namespace Simpy
open Expr

variable {O : Oracle} {st : Bool} {ρ : Str → ℝ}

theorem ln_V (hO : O.Exact) {t r : Expr} (w : WF t) (d : DomS st ρ t) (hp : PosArg ρ t) (h : ln O t = .ok r) :
    Val st ρ r (Real.log (den ρ t)) := by
  have e1 : Real.exp 1 ≠ 1 := by simp
  obtain ⟨v, -, dr⟩ := logCtor_V hO.isPi hO.isE (st := st) (ρ := ρ) (b := euler)
    ⟨d.domF, by simp [DomF], hp.2, by simp [den, Real.exp_pos], by simpa [den] using e1⟩ h
  exact ⟨logCtor_W w (by simp [WF]) h, dr d (by simp [DomS]) hp.1, by rw [v]; simp [den]⟩

theorem lnAbs_V (hO : O.Exact) {n : Nat} {t r : Expr} (w : WF t) (d : DomS st ρ t) (h0 : den ρ t ≠ 0)
    (h : lnAbs O (ctors O n) t = .ok r) : Val st ρ r (Real.log (den ρ t)) := by
  have hC := ctors_sound hO n
  unfold lnAbs at h
  obtain ⟨a, ha, h⟩ := bind_ok.1 h
  obtain ⟨va, da⟩ := hC.abs ρ _ _ w d (fun _ => h0) ha
  refine (ln_V hO (hC.absW _ _ w ha) da ⟨ctors_abs_HN hO n w d ha, by rw [va]; positivity⟩ h).congr ?_
  rw [va, Real.log_abs]

theorem sumLn_V (hO : O.Exact) {n : Nat} {l : Expr → R Expr} {ts : List Expr} {r : Expr}
    (hl : ∀ t ∈ ts, ∀ u, l t = .ok u → Val st ρ u (Real.log (den ρ t))) (h0 : ∀ t ∈ ts, den ρ t ≠ 0)
    (h : sumLn (ctors O n) l ts = .ok r) : Val st ρ r (Real.log (ts.map (den ρ)).prod) := by
  unfold sumLn at h
  obtain ⟨us, hu, h'⟩ := bind_ok.1 h
  clear h
  have hv : List.Forall₂ (Val st ρ) us (ts.map fun t => Real.log (den ρ t)) := by
    have := mapR_ok.1 hu
    clear hu h' h0
    induction this with
    | nil => exact .nil
    | cons h1 _ ih => exact .cons (hl _ (by simp) _ h1) (ih fun t ht => hl t (by simp [ht]))
  refine (Val.sum (ctors_sound hO n) hv h').congr ?_
  clear hv hu h' hl
  induction ts with
  | nil => simp
  | cons a ts ih =>
    simp only [List.map_cons, List.sum_cons, List.prod_cons]
    rw [ih fun t ht => h0 t (by simp [ht]), Real.log_mul (h0 a (by simp))]
    intro h
    obtain ⟨t, ht, he⟩ := List.mem_map.1 (List.prod_eq_zero_iff.1 h)
    exact h0 t (by simp [ht]) he

theorem sumFactors_V (hO : O.Exact) {n : Nat} {ts us : List Expr} (w : ∀ t ∈ ts, WF t) (d : ∀ t ∈ ts, DomS st ρ t)
    (hc : ∀ c, factorCommon (ctors O n) ts = .ok c → DomS st ρ c ∧ den ρ c ≠ 0)
    (h : sumFactors (ctors O n) ts = .ok (some us)) :
    (∀ u ∈ us, WF u ∧ DomS st ρ u) ∧ (us.map (den ρ)).prod = (ts.map (den ρ)).sum := by
  unfold sumFactors at h
  obtain ⟨f, hf, h⟩ := bind_ok.1 h
  cases hcc : factorCommon (ctors O n) ts with
  | error er => unfold factorSum at hf; rw [hcc] at hf; cases hf
  | ok c =>
    obtain ⟨w1, d1, v1⟩ := factorSum_V hO (fun t ht => ⟨w t ht, d t ht⟩) hcc (factorCommon_W hO w hcc).1 (hc c hcc).1 (hc c hcc).2 hf
    cases f with
    | prod vs =>
      cases pure_ok.1 h
      exact ⟨fun u hu => ⟨(WF_prod.1 w1).2 u hu, Dom_prod.1 d1 u hu⟩, by rw [← v1, den_prod]⟩
    | _ => cases pure_ok.1 h

theorem prod_ne_zero_mem {ts : List Expr} (h : (ts.map (den ρ)).prod ≠ 0) : ∀ t ∈ ts, den ρ t ≠ 0 := by
  intro t ht h0
  exact h (List.prod_eq_zero_iff.2 (List.mem_map.2 ⟨t, ht, h0⟩))

theorem logArg_V (hO : O.Exact) {n : Nat} {i r : Expr} (w : WF i) (d : DomS st ρ i) (hp : PosArg ρ i)
    (hl : LogPieces O st ρ n i) (h : logArg O n i = .ok r) : Val st ρ r (Real.log (den ρ i)) := by
  have hC := ctors_sound hO n
  have other : ln O i = .ok r → Val st ρ r (Real.log (den ρ i)) := ln_V hO w d hp
  have neglog : ∀ {g : TrigFn} {j : Expr}, g.isInverse = false → WF j → DomS st ρ j → containsCls isInvTrig j = false →
      g.ok (den ρ j) → (∀ t, trigCtor O n g j = .ok t → PosArg ρ t) → (do
        let t ← trigCtor O n g j
        let l ← ln O t
        opMul (ctors O n) (rat (-1)) l) = .ok r → Val st ρ r (-Real.log (g.real (den ρ j))) := by
    intro g j hg wj dj nj ok pos h
    obtain ⟨t, ht, h⟩ := bind_ok.1 h
    obtain ⟨l, hl, h⟩ := bind_ok.1 h
    have vt := Val.trig hO hg wj dj nj ok ht
    have vl := ln_V hO vt.1 vt.2.1 (pos t ht) hl
    refine (Val.mul hC (Val.rat (-1)) vl h).congr ?_
    rw [vt.2.2]; simp
  cases i with
  | pow b x =>
    obtain ⟨l, h1, h2⟩ := bind_ok.1 h
    have hb : 0 < den ρ b := hl
    have vl := ln_V hO (show WF b ∧ _ from w).1 (show DomS st ρ b ∧ _ from d).1 ⟨hp.1, hb⟩ h1
    refine (Val.mul hC vl (Val.self (show WF b ∧ WF x ∧ _ from w).2.1 (show DomS st ρ b ∧ DomS st ρ x ∧ _ from d).2.1) h2).congr ?_
    rw [show den ρ (pow b x) = pw (den ρ b) (den ρ x) from rfl, pw_of_nonneg hb.le, Real.log_rpow hb, mul_comm]
  | prod ts =>
    rw [den_prod]
    have h0 : ∀ t ∈ ts, den ρ t ≠ 0 := fun t ht => (hl t ht).2.ne'
    exact sumLn_V hO (fun t ht u hu => ln_V hO ((WF_prod.1 w).2 t ht) (Dom_prod.1 d t ht) (hl t ht) hu) h0 h
  | sum ts =>
    obtain ⟨k, h1, h2⟩ := bind_ok.1 h
    cases k with
    | none => exact other h2
    | some us =>
      obtain ⟨hw, hv⟩ := sumFactors_V hO (WF_sum.1 w) (Dom_sum.1 d) hl.1 h1
      rw [den_sum, ← hv]
      exact sumLn_V hO (fun t ht u hu => ln_V hO (hw t ht).1 (hw t ht).2 (hl.2 us h1 t ht) hu)
        (fun t ht => (hl.2 us h1 t ht).2.ne') h2
  | trig f j =>
    have wj : WF j := w
    have dj := (show DomS st ρ j ∧ f.ok _ ∧ _ from d).1
    have okj := (show DomS st ρ j ∧ f.ok _ ∧ _ from d).2.1
    have pos : 0 < f.real (den ρ j) := hp.2
    have e : den ρ (trig f j) = f.real (den ρ j) := rfl
    rw [e]
    cases f with
    | sec =>
      obtain ⟨n1, n2⟩ := hl .cos (by simp)
      refine (neglog (g := .cos) rfl wj dj n1 trivial n2 h).congr ?_
      simp [TrigFn.real, Real.log_inv]
    | csc =>
      obtain ⟨n1, n2⟩ := hl .sin (by simp)
      refine (neglog (g := .sin) rfl wj dj n1 trivial n2 h).congr ?_
      simp [TrigFn.real, Real.log_inv]
    | cot =>
      obtain ⟨n1, n2⟩ := hl .tan (by simp)
      have hc : Real.cos (den ρ j) ≠ 0 := by
        intro h0
        simp only [TrigFn.real, h0, zero_div, lt_irrefl] at pos
      refine (neglog (g := .tan) rfl wj dj n1 hc n2 h).congr ?_
      simp only [TrigFn.real]
      rw [← Real.log_inv, inv_div]
    | _ => exact other h
  | absv j =>
    have wj : WF j := w
    have dj := (show DomS st ρ j ∧ _ from d).1
    have e : den ρ (absv j) = |den ρ j| := rfl
    have h0 : den ρ j ≠ 0 := by
      have := hp.2
      rw [e] at this
      exact abs_pos.1 this
    rw [e, Real.log_abs]
    have other' : ln O (absv j) = .ok r → Val st ρ r (Real.log (den ρ j)) := by rw [← Real.log_abs, ← e]; exact other
    cases j with
    | pow b x =>
      obtain ⟨l, h1, h2⟩ := bind_ok.1 h
      have hb : den ρ b ≠ 0 := hl
      have vl := lnAbs_V hO (show WF b ∧ _ from wj).1 (show DomS st ρ b ∧ _ from dj).1 hb h1
      refine (Val.mul hC vl (Val.self (show WF b ∧ WF x ∧ _ from wj).2.1
        (show DomS st ρ b ∧ DomS st ρ x ∧ _ from dj).2.1) h2).congr ?_
      rw [show den ρ (pow b x) = pw (den ρ b) (den ρ x) from rfl]
      by_cases hi : intExp x = true
      · obtain ⟨k, hk⟩ := intExp_iff.1 hi
        subst hk
        have e2 : den ρ (rat (k : ℚ)) = ((k : ℤ) : ℝ) := by simp
        rw [e2, pw_int, Real.log_zpow, mul_comm]
      · have := HN.nonneg ((show DomS st ρ b ∧ DomS st ρ x ∧ _ ∧ (intExp x = false → HN ρ b) ∧ _ from dj).2.2.2.1 (by simpa using hi))
        rw [pw_of_nonneg this, Real.log_rpow (lt_of_le_of_ne this hb.symm), mul_comm]
    | prod ts =>
      rw [den_prod] at h0 ⊢
      exact sumLn_V hO (fun t ht u hu => lnAbs_V hO ((WF_prod.1 wj).2 t ht) (Dom_prod.1 dj t ht) (prod_ne_zero_mem h0 t ht) hu)
        (prod_ne_zero_mem h0) h
    | sum ts =>
      obtain ⟨k, h1, h2⟩ := bind_ok.1 h
      cases k with
      | none => exact other' h2
      | some us =>
        obtain ⟨hw, hv⟩ := sumFactors_V hO (WF_sum.1 wj) (Dom_sum.1 dj) hl h1
        rw [den_sum] at h0 ⊢
        rw [← hv] at h0 ⊢
        exact sumLn_V hO (fun t ht u hu => lnAbs_V hO (hw t ht).1 (hw t ht).2 (prod_ne_zero_mem h0 t ht) hu)
          (prod_ne_zero_mem h0) h2
    | _ => exact other' h
  | _ => exact other h

theorem logPerf_on (hO : O.Exact) : ∀ k e u, LogOk O st ρ k e → WF e → DomS st ρ e → logPerf O k e = .ok (.hit u) →
    Val st ρ u (den ρ e) := by
  intro k e u hP w d h
  cases e with
  | log i b =>
    obtain ⟨r, hr, h⟩ := bind_ok.1 h
    cases pure_ok.1 h
    obtain ⟨rfl, hP⟩ := hP
    obtain ⟨di, -, hn, hpos, -⟩ := d
    refine (logArg_V hO (show WF i ∧ _ from w).1 di ⟨hn, hpos⟩ hP hr).congr ?_
    simp [den]
  | _ => cases h

end Simpy
