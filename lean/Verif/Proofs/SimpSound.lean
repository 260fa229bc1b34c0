import Verif.Proofs.CombineSound
import Verif.Proofs.PTSSound
import Verif.Proofs.LogSound
import Verif.Proofs.FracSound
import Verif.Spec.SimplifyRun

/-! `simplify`: the trig passes and the whole. -/

namespace Simpy
open Expr

variable {O : Oracle}

/-- The run of the log rules in `simplify`: natural logarithms with positive pieces, and principal branches. -/
def LogRunOk (O : Oracle) (st : Bool) (ρ : Str → ℝ) (n : Nat) (e : Expr) : Prop :=
  containsCls isLog e = true → VisitsP (logPerf O) (LogOk O st ρ) n e ∧ RunTame O (logPerf O) n e = true ∧
    ∀ s, replaceE O (logPerf O) n e = .ok s → expandableE O n s = .ok true → ExpandOk O ρ n s

/-- What a run of `simplify(e)` with `n` stack levels needs to be right at `ρ`: for each of its stages, the condition of the
stage on what the stage starts from. -/
structure SimplifyOk (O : Oracle) (st : Bool) (ρ : Str → ℝ) (n : Nat) (e : Expr) : Prop where
  expand : expandableE O n e = .ok true → ExpandOk O ρ n e
  trig : ∀ e1, expandOr (expandableE O n) (expandE O n) e = .ok e1 → trigRunOk O n e1 = true
  log : ∀ e1 e2 b, expandOr (expandableE O n) (expandE O n) e = .ok e1 → trigPart O n e1 = .ok (e2, b) → LogRunOk O st ρ n e2

theorem replace_run (hO : O.Exact) {P : Nat → Expr → Bool} {st : Bool} {ρ : Str → ℝ} {perf : Nat → Expr → R Rep}
    (hp : PerfOn P st ρ perf) {n : Nat} {e r : Expr} (w : WF e) (d : DomS st ρ e) (hr : runOk O perf P n e = true)
    (h : replaceE O perf n e = .ok r) : Val st ρ r (den ρ e) := by
  unfold runOk at hr
  rw [Bool.and_eq_true] at hr
  exact replace_on hO hp w d hr.1 hr.2 h

theorem pythComplexPerf_on (hO : O.Exact) (st : Bool) (ρ : Str → ℝ) : PerfOn (pythComplexOk O) st ρ (pythComplexPerf O) := by
  intro n e u hP w d h
  unfold pythComplexOk at hP
  rw [h] at hP
  cases e with
  | sum ts =>
    simp only [Bool.and_eq_true] at hP
    rw [pythComplexPerf] at h
    obtain ⟨s, hs, h⟩ := bind_ok.1 h
    obtain ⟨k, hk, h⟩ := bind_ok.1 h
    obtain ⟨ws, ds, vs⟩ := replaceClass_sound hO (toSinCos_ok hO st ρ) n w d (fun _ _ _ _ => trivial) hP.1 hs
    have hf : sinCosFraction O n (sum ts) = .ok k := by
      unfold sinCosFraction
      rw [hs]; exact hk
    rw [hf] at hP
    cases k with
    | none => cases pure_ok.1 h
    | some t =>
      obtain ⟨wt, dt, vt⟩ := oneFraction_V hO ws ds hk
      obtain ⟨r, hr, h⟩ := bind_ok.1 h
      have hP2 := hP.2
      simp only [Bool.and_eq_true, hr, okR] at hP2
      obtain ⟨wr, dr, vr⟩ := replace_run hO (pythPerf_on hO st ρ) wt dt hP2.1 hr
      split at h
      · obtain ⟨u', hu, h⟩ := bind_ok.1 h
        have := pure_ok.1 h
        injection this with this
        subst this
        obtain ⟨wu, du, vu⟩ := replace_run hO (recipPerf_on hO st ρ) wr dr hP2.2 hu
        exact ⟨wu, du, by rw [vu, vr, vt, vs]⟩
      · cases pure_ok.1 h
  | _ => cases h

theorem ptsPerf_on (hO : O.Exact) (st : Bool) (ρ : Str → ℝ) : PerfOn (ptsPerfOk O) st ρ (ptsPerf O) := by
  intro n e u hP w d h
  cases e with
  | sum ts =>
    unfold ptsPerfOk at hP
    simp only [h, Bool.and_eq_true, Bool.not_eq_true'] at hP
    obtain ⟨hi, hok⟩ := hP
    unfold ptsPerf at h
    obtain ⟨o, ho, h⟩ := bind_ok.1 h
    cases o with
    | none => cases pure_ok.1 h
    | some us =>
      obtain ⟨s, hs, h⟩ := bind_ok.1 h
      have h := pure_ok.1 h
      split at h
      swap
      · cases h
      cases h
      have pt : ∀ t ∈ ts, PV st ρ t := fun t ht => ⟨WF_sum.1 w t ht, Dom_sum.1 d t ht, closed_noInv.sum.1 hi t ht⟩
      have p := ptsList_V hO (x := (ts.map (den ρ)).sum) (mult := none) ⟨pt, rfl⟩ (by simp) (by
        intro t ht vs hv
        simpa [multVal] using ptsUnit_V hO n (pt t ht) (by simp) (List.all_eq_true.1 hok t ht) hv) ho
      obtain ⟨p1, e1⟩ := PV.sumL hO p hs
      exact ⟨p1.1, p1.2.1, by rw [e1, den_sum]; simp [multVal]⟩
  | _ => cases h

theorem secToTan_on (hO : O.Exact) (st : Bool) (ρ : Str → ℝ) : PerfOn secOk st ρ (secToTan O) := by
  intro n e u hP w d h
  unfold secToTan at h
  split at h
  · rename_i i q
    split at h
    · rename_i hq
      obtain ⟨t, ht, h⟩ := bind_ok.1 h
      obtain ⟨p, hp, h⟩ := bind_ok.1 h
      obtain ⟨s, hs, h⟩ := bind_ok.1 h
      obtain ⟨r, hr, h⟩ := bind_ok.1 h
      have := pure_ok.1 h
      injection this with this
      subst this
      have hC := ctors_sound hO n
      obtain ⟨⟨di, fok, -⟩, -, -⟩ := d
      simp only [secOk, Bool.not_eq_true'] at hP
      have fok' : Real.cos (den ρ i) ≠ 0 := fok
      have vt := Val.trig (a := i) hO (f := .tan) rfl w.1 di hP fok' ht
      obtain ⟨ws, ds, vs⟩ := Val.add hC Val.one (Val.sq hC vt hp) hs
      have hpos : den ρ s = (Real.cos (den ρ i))⁻¹ ^ 2 := by
        rw [vs]
        simp only [TrigFn.real]
        field_simp
        linarith [Real.sin_sq_add_cos_sq (den ρ i)]
      have hne : den ρ s ≠ 0 := by rw [hpos]; exact pow_ne_zero _ (inv_ne_zero fok')
      have hx : Simpy.intExp (Expr.rat ((q.num / 2 : ℤ) : ℚ)) = true := by simp [Simpy.intExp]
      have hd : PowDomS st ρ s (rat ((q.num / 2 : ℤ) : ℚ)) :=
        ⟨ds, by simp, .inl hne, fun h => (by rw [hx] at h; cases h), fun _ => .inl hne⟩
      obtain ⟨v, dr⟩ := opPow_V hC ws (by simp) hd hr
      refine ⟨opPow_W hC ws (by simp) hr, dr, ?_⟩
      have hq' : q = ((2 * (q.num / 2) : ℤ) : ℚ) := by
        simp only [ratEven, Bool.and_eq_true, beq_iff_eq] at hq
        have h1 : q = (q.num : ℚ) := (Rat.den_eq_one_iff q).1 hq.1 |>.symm
        have h2 : 2 * (q.num / 2) = q.num := by omega
        rw [h2]; exact h1
      have e1 : den ρ (rat ((q.num / 2 : ℤ) : ℚ)) = ((q.num / 2 : ℤ) : ℝ) := by simp
      have e2 : den ρ (rat q) = ((2 * (q.num / 2) : ℤ) : ℝ) := by
        conv_lhs => rw [hq']
        simp only [den_rat]; norm_cast
      rw [v, e1, pw_int, hpos]
      rw [den, e2, pw_int, den]
      simp only [TrigFn.real, one_div]
      rw [zpow_mul]
      norm_cast
    · cases h
  · cases h

theorem secTerms_V (hO : O.Exact) {n : Nat} {st : Bool} {ρ : Str → ℝ} {s : Expr} {us : List Expr} (w : WF s) (d : DomS st ρ s)
    (hok : secTermOk O n s = true) (h : secTerms O n s = .ok us) :
    (∀ u ∈ us, WF u ∧ DomS st ρ u) ∧ (us.map (den ρ)).sum = den ρ s := by
  unfold secTermOk at hok
  unfold secTerms at h
  obtain ⟨r, hr, h⟩ := bind_ok.1 h
  obtain ⟨b, hb, h⟩ := bind_ok.1 h
  rw [hr] at hok
  simp only [Bool.and_eq_true, okR, Bool.not_eq_true'] at hok
  obtain ⟨wr, dr, vr⟩ := replace_run hO (secToTan_on hO st ρ) w d hok.1 hr
  have fin : ∀ {e : Expr}, Val st ρ e (den ρ s) → (match e with
      | sum ts => (pure ts : R (List Expr))
      | _ => .error .assertion) = .ok us → (∀ u ∈ us, WF u ∧ DomS st ρ u) ∧ (us.map (den ρ)).sum = den ρ s := by
    intro e ve he
    cases e with
    | sum ts =>
      have he := pure_ok.1 he
      subst he
      exact ⟨fun u hu => ⟨WF_sum.1 ve.1 u hu, Dom_sum.1 ve.2.1 u hu⟩, by rw [← ve.2.2, den_sum]⟩
    | _ => cases he
  cases b with
  | true =>
    obtain ⟨e, he, h⟩ := bind_ok.1 h
    obtain ⟨we, de, ve⟩ := expand_sound hO n ((adm_WF hO).kid wr) dr (Easy.expandOk n ⟨hok.2.1.1, hok.2.1.2, hok.2.2⟩) he
    exact fin ⟨we, de, by rw [ve, vr]⟩ h
  | false =>
    obtain ⟨e, he, h⟩ := bind_ok.1 h
    cases he
    exact fin ⟨w, d, rfl⟩ h

theorem sectanSplit_V {ρ : Str → ℝ} : ∀ {ts s u o : List Expr}, sectanSplit ts = .ok (s, u, o) →
    (∀ t ∈ s, t ∈ ts) ∧ (∀ t ∈ u, t ∈ ts) ∧ (∀ t ∈ o, t ∈ ts) ∧
      (ts.map (den ρ)).sum = (s.map (den ρ)).sum + (u.map (den ρ)).sum + (o.map (den ρ)).sum
  | [], _, _, _, h => by cases h; simp
  | t :: r, s, u, o, h => by
    rw [sectanSplit] at h
    obtain ⟨a, ha, h⟩ := bind_ok.1 h
    obtain ⟨b, hb, h⟩ := bind_ok.1 h
    obtain ⟨⟨s', u', o'⟩, hr, h⟩ := bind_ok.1 h
    obtain ⟨h1, h2, h3, h4⟩ := sectanSplit_V (ρ := ρ) hr
    have h := pure_ok.1 h
    have m1 : ∀ x ∈ s', x ∈ t :: r := fun x hx => List.mem_cons_of_mem _ (h1 x hx)
    have m2 : ∀ x ∈ u', x ∈ t :: r := fun x hx => List.mem_cons_of_mem _ (h2 x hx)
    have m3 : ∀ x ∈ o', x ∈ t :: r := fun x hx => List.mem_cons_of_mem _ (h3 x hx)
    have cons : ∀ {l : List Expr}, (∀ x ∈ l, x ∈ t :: r) → ∀ x ∈ t :: l, x ∈ t :: r := by
      intro l hl x hx
      rcases List.mem_cons.1 hx with rfl | hx
      · simp
      · exact hl x hx
    split at h
    · cases h
      exact ⟨cons m1, m2, m3, by simp only [List.map_cons, List.sum_cons, h4]; ring⟩
    · split at h
      · cases h
        exact ⟨m1, cons m2, m3, by simp only [List.map_cons, List.sum_cons, h4]; ring⟩
      · cases h
        exact ⟨m1, m2, cons m3, by simp only [List.map_cons, List.sum_cons, h4]; ring⟩

theorem secTermsL_V (hO : O.Exact) {n : Nat} {st : Bool} {ρ : Str → ℝ} : ∀ {ss : List Expr} {us : List (List Expr)},
    (∀ s ∈ ss, WF s ∧ DomS st ρ s ∧ secTermOk O n s = true) → mapR (secTerms O n) ss = .ok us →
    (∀ u ∈ us.flatten, WF u ∧ DomS st ρ u) ∧ (us.flatten.map (den ρ)).sum = (ss.map (den ρ)).sum
  | [], us, _, h => by cases h; simp
  | s :: r, us, hs, h => by
    obtain ⟨a, b, h1, h2, rfl⟩ := mapR_cons' h
    obtain ⟨w, d, ok⟩ := hs s (by simp)
    obtain ⟨p1, p2⟩ := secTerms_V hO w d ok h1
    obtain ⟨q1, q2⟩ := secTermsL_V hO (fun s hs' => hs s (by simp [hs'])) h2
    constructor
    · intro u hu
      rw [List.flatten_cons] at hu
      rcases List.mem_append.1 hu with hu | hu
      · exact p1 u hu
      · exact q1 u hu
    · simp only [List.flatten_cons, List.map_append, List.sum_append, List.map_cons, List.sum_cons, p2, q2]

theorem sectanPerf_on (hO : O.Exact) (st : Bool) (ρ : Str → ℝ) : PerfOn (sectanOk O) st ρ (sectanPerf O) := by
  intro n e u hP w d h
  cases e with
  | sum ts =>
    unfold sectanOk at hP
    simp only [h] at hP
    rw [sectanPerf] at h
    obtain ⟨⟨secs, tans, others⟩, hsp, h⟩ := bind_ok.1 h
    simp only [hsp, List.all_eq_true] at hP
    simp only at h
    obtain ⟨m1, m2, m3, m4⟩ := sectanSplit_V (ρ := ρ) hsp
    have wts := WF_sum.1 w
    have dts := Dom_sum.1 d
    split at h
    · cases pure_ok.1 h
    obtain ⟨news, hn, h⟩ := bind_ok.1 h
    obtain ⟨r, hr, h⟩ := bind_ok.1 h
    obtain ⟨q1, q2⟩ := secTermsL_V hO (fun s hs => ⟨wts s (m1 s hs), dts s (m1 s hs), hP s hs⟩) hn
    have hg : ∀ t ∈ tans ++ news.flatten ++ others, WF t ∧ DomS st ρ t := by
      intro t ht
      simp only [List.append_assoc, List.mem_append] at ht
      rcases ht with ht | ht | ht
      · exact ⟨wts t (m2 t ht), dts t (m2 t ht)⟩
      · exact q1 t ht
      · exact ⟨wts t (m3 t ht), dts t (m3 t ht)⟩
    have hS := ctors_sound hO n
    obtain ⟨v, dr⟩ := hS.sum ρ _ _ (fun t ht => (hg t ht).1) (fun t ht => (hg t ht).2) hr
    have vr : Val st ρ r (den ρ (sum ts)) := by
      refine ⟨hS.sumW _ _ (fun t ht => (hg t ht).1) hr, dr, ?_⟩
      rw [v, den_sum, m4]
      simp only [List.map_append, List.sum_append, q2]
      ring
    have : r = u := by
      cases r <;> first | (cases h; rfl) | cases h
    rw [← this]; exact vr
  | _ => cases h

theorem firstRep_on {ps : Nat → List (Expr → R Rep)} {P : Nat → Expr → Bool} {st : Bool} {ρ : Str → ℝ}
    (h : ∀ n, ∀ p ∈ ps n, ∀ e u, P n e = true → WF e → DomS st ρ e → p e = .ok (.hit u) → Val st ρ u (den ρ e)) :
    PerfOn P st ρ (withTrig ps) := by
  intro n e u hP w d hu
  unfold withTrig at hu
  split at hu
  swap
  · cases hu
  have hall := h n
  generalize ps n = l at hu hall
  induction l with
  | nil => cases hu
  | cons p r ih =>
    rw [firstRep] at hu
    rcases hp : p e with er | v
    · rw [hp] at hu; cases hu
    · rw [hp] at hu
      cases v with
      | hit x => cases hu; exact hall p (by simp) e u hP w d hp
      | stop => cases hu
      | pass => exact ih hu fun q hq => hall q (by simp [hq])

theorem trigPass1_on (hO : O.Exact) (st : Bool) (ρ : Str → ℝ) : PerfOn (pass1Ok O) st ρ (trigPass1 O) := by
  refine firstRep_on fun n p hp e u hP w d h => ?_
  simp only [pass1Ok, Bool.and_eq_true] at hP
  simp only [List.mem_cons, List.not_mem_nil, or_false] at hp
  rcases hp with rfl | rfl | rfl
  · exact pythPerf_on hO st ρ n e u hP.1.1 w d h
  · exact pythComplexPerf_on hO st ρ n e u hP.1.2 w d h
  · exact recipPerf_on hO st ρ n e u hP.2 w d h

theorem trigPass2_on (hO : O.Exact) (st : Bool) (ρ : Str → ℝ) : PerfOn (pass2Ok O) st ρ (trigPass2 O) := by
  refine firstRep_on fun n p hp e u hP w d h => ?_
  simp only [pass2Ok, Bool.and_eq_true] at hP
  simp only [List.mem_cons, List.not_mem_nil, or_false] at hp
  rcases hp with rfl | rfl | rfl
  · exact combinePerf_on hO st ρ n e u hP.1.1 w d h
  · exact ptsPerf_on hO st ρ n e u hP.1.2 w d h
  · exact sectanPerf_on hO st ρ n e u hP.2 w d h

theorem trigPart_V (hO : O.Exact) {n : Nat} {st : Bool} {ρ : Str → ℝ} {e r : Expr} {b : Bool} (w : WF e) (d : DomS st ρ e)
    (hr : trigRunOk O n e = true) (h : trigPart O n e = .ok (r, b)) : Val st ρ r (den ρ e) := by
  unfold trigPart at h
  unfold trigRunOk at hr
  split at h
  · rename_i hc
    rw [hc] at hr
    simp only [Bool.not_true, Bool.false_or, Bool.and_eq_true] at hr
    unfold trigSimplify at h
    obtain ⟨r1, h1, h⟩ := bind_ok.1 h
    obtain ⟨r2, h2, h⟩ := bind_ok.1 h
    have h := pure_ok.1 h
    cases h
    rw [h1] at hr
    obtain ⟨w1, d1, v1⟩ := replace_run hO (trigPass1_on hO st ρ) w d hr.1 h1
    obtain ⟨w2, d2, v2⟩ := replace_run hO (trigPass2_on hO st ρ) w1 d1 hr.2 h2
    exact ⟨w2, d2, by rw [v2, v1]⟩
  · cases h
    exact ⟨w, d, rfl⟩

theorem expandOr_V (hO : O.Exact) {n : Nat} {st : Bool} {ρ : Str → ℝ} {e r : Expr} (w : WF e) (d : DomS st ρ e)
    (hx : expandableE O n e = .ok true → ExpandOk O ρ n e) (h : expandOr (expandableE O n) (expandE O n) e = .ok r) :
    Val st ρ r (den ρ e) := by
  unfold expandOr at h
  obtain ⟨b, hb, h⟩ := bind_ok.1 h
  cases b with
  | true => exact expand_sound hO n ((adm_WF hO).kid w) d (hx hb) h
  | false => cases pure_ok.1 h; exact ⟨w, d, rfl⟩

theorem logPart_V (hO : O.Exact) {n : Nat} {st : Bool} {ρ : Str → ℝ} {e r : Expr} (w : WF e) (d : DomS st ρ e)
    (hl : LogRunOk O st ρ n e) (h : logPart O n e = .ok r) : Val st ρ r (den ρ e) := by
  unfold logPart at h
  split at h
  · rename_i hc
    obtain ⟨hv, ht, hx⟩ := hl hc
    unfold expandLogs at h
    obtain ⟨s, hs, h⟩ := bind_ok.1 h
    have v := replace_onP hO (logPerf_on hO) w d hv ht hs
    obtain ⟨w2, d2, v2⟩ := expandOr_V hO v.1 v.2.1 (hx s hs) h
    exact ⟨w2, d2, by rw [v2, v.2.2]⟩
  · cases h; exact ⟨w, d, rfl⟩

theorem simplify_V (hO : O.Exact) {n : Nat} {st : Bool} {ρ : Str → ℝ} {e r : Expr} (w : WF e) (d : DomS st ρ e)
    (hok : SimplifyOk O st ρ n e) (h : simplifyE O n e = .ok r) : Val st ρ r (den ρ e) := by
  unfold simplifyE at h
  obtain ⟨e1, h1, h⟩ := bind_ok.1 h
  obtain ⟨⟨e2, hit⟩, h2, h⟩ := bind_ok.1 h
  obtain ⟨e3, h3, h⟩ := bind_ok.1 h
  obtain ⟨w1, d1, v1⟩ := expandOr_V hO w d hok.expand h1
  obtain ⟨w2, d2, v2⟩ := trigPart_V hO w1 d1 (hok.trig e1 h1) h2
  obtain ⟨w3, d3, v3⟩ := logPart_V hO w2 d2 (hok.log e1 e2 hit h1 h2) h3
  have v : Val st ρ e3 (den ρ e) := ⟨w3, d3, by rw [v3, v2, v1]⟩
  have h := pure_ok.1 h
  split at h
  · cases h; exact v
  · split at h
    · cases h; exact v
    · cases h; exact ⟨w, d, rfl⟩

end Simpy
