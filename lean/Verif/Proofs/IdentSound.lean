import Verif.Proofs.MatchSound

/-! `1 ± f(u)²`: the second half of `_pythagorean_perform`. -/

namespace Simpy
open Expr

variable {O : Oracle}

structure IdentT (O : Oracle) (n : Nat) (t : Expr) : Prop where
  nodup : (scFactors t).Nodup
  noInv : ∀ d ∈ scFactors t, sqNoInv d = true
  only : ∀ f ∈ identFns, SquaresOnly O (ctors O n) f t

theorem identOk_spec {n : Nat} {ts : List Expr} (h : identOk O n ts = true) :
    reprsDiffer (ctors O n) ts = true ∧ ∀ t ∈ ts, IdentT O n t := by
  unfold identOk at h
  simp only [Bool.and_eq_true, List.all_eq_true, decide_eq_true_eq] at h
  refine ⟨h.1, fun t ht => ⟨(h.2 t ht).1, fun d hd => ((h.2 t ht).2 d hd).1, fun f hf d hd l hl => ?_⟩⟩
  have := ((h.2 t ht).2 d hd).2 f hf
  unfold squareMatch at this
  rw [hl] at this
  exact this

theorem den_scFactors (ρ : Str → ℝ) (t : Expr) : den ρ t = ((scFactors t).map (den ρ)).prod := by
  unfold scFactors
  split
  · rw [den_prod]
  · simp

theorem scFactors_WF {t f : Expr} (w : WF t) (h : f ∈ scFactors t) : WF f := by
  unfold scFactors at h
  split at h
  · exact (WF_prod.1 w).2 f h
  · simp at h; rw [h]; exact w

theorem den_sq (ρ : Str → ℝ) (f : TrigFn) (i : Expr) : den ρ (pow (trig f i) (rat 2)) = (f.real (den ρ i)) ^ 2 := by
  have : den ρ (rat 2) = ((2 : ℤ) : ℝ) := by simp
  rw [den, this, pw_int, den]; norm_cast

/-- A square among the factors: its argument. -/
theorem sq_mem {n : Nat} {st : Bool} {ρ : Str → ℝ} {t i : Expr} {f : TrigFn} (w : WF t) (d : DomS st ρ t) (hi : IdentT O n t)
    (hm : pow (trig f i) (rat 2) ∈ scFactors t) :
    WF i ∧ DomS st ρ i ∧ f.ok (den ρ i) ∧ containsCls isInvTrig i = false := by
  have w' := scFactors_WF w hm
  have d' := scFactors_dom d hm
  have n' := hi.noInv _ hm
  simp only [WF] at w'
  simp only [DomS] at d'
  simp only [sqNoInv, Bool.not_eq_true'] at n'
  exact ⟨w'.1, d'.1.1, d'.1.2.1, n'⟩

/-- What a match of a query term with sign `σ` tells about the term. -/
structure Matched (st : Bool) (ρ : Str → ℝ) (f : TrigFn) (σ : ℝ) (t c i : Expr) : Prop where
  mem : pow (trig f i) (rat 2) ∈ scFactors t
  val : Val st ρ c (den ρ c)
  eq : den ρ t = σ * den ρ c * (f.real (den ρ i)) ^ 2
  /-- The factor is a number, or one of several factors. -/
  part : (∃ q, c = rat q) ∨ c ∈ scFactors t ∧ 2 ≤ (scFactors t).length

theorem plus_matched (hO : O.Exact) {n : Nat} {st : Bool} {ρ : Str → ℝ} {f : TrigFn} (hf : f ∈ identFns) {t : Expr} (w : WF t)
    (d : DomS st ρ t) (hi : IdentT O n t) {m : Log} (h : eqCall O (ctors O n) t (queryPlus f) = .ok (some m)) :
    ∃ c i, m.Perm [(anyKey, i), (factorKey, c)] ∧ Matched st ρ f 1 t c i ∧
      ((scFactors t).Perm [pow (trig f i) (rat 2), c] ∨ scFactors t = [pow (trig f i) (rat 2)] ∧ c = rat 1) := by
  obtain ⟨c, i, hm, hs⟩ := match_plus hO d hi.nodup (hi.only f hf) h
  refine ⟨c, i, hm, ?_, hs⟩
  rcases hs with hs | ⟨hs, rfl⟩
  · have hc : c ∈ scFactors t := hs.symm.subset (by simp)
    refine ⟨hs.symm.subset (by simp), .self (scFactors_WF w hc) (scFactors_dom d hc), ?_, .inr ⟨hc, by rw [hs.length_eq]; simp⟩⟩
    rw [den_scFactors, (hs.map _).prod_eq]
    simp [den_sq]; ring
  · refine ⟨by rw [hs]; simp, .self (by simp) (by simp), ?_, .inl ⟨1, rfl⟩⟩
    rw [den_scFactors, hs]
    simp [den_sq]

theorem minus_matched (hO : O.Exact) {n : Nat} {st : Bool} {ρ : Str → ℝ} {f : TrigFn} (hf : f ∈ identFns) {t : Expr} (w : WF t)
    (d : DomS st ρ t) (hi : IdentT O n t) {m : Log} (h : eqCall O (ctors O n) t (queryMinus f) = .ok (some m)) :
    ∃ c i, m.Perm [(anyKey, i), (factorKey, c)] ∧ Matched st ρ f (-1) t c i := by
  obtain ⟨c, i, hm, hs⟩ := match_minus hO d hi.nodup (hi.only f hf) h
  refine ⟨c, i, hm, ?_⟩
  rcases hs with hs | ⟨hs, rfl⟩ | ⟨hs, rfl⟩
  · have hc : c ∈ scFactors t := hs.symm.subset (by simp)
    refine ⟨hs.symm.subset (by simp), .self (scFactors_WF w hc) (scFactors_dom d hc), ?_, .inr ⟨hc, by rw [hs.length_eq]; simp⟩⟩
    rw [den_scFactors, (hs.map _).prod_eq]
    simp [den_sq]; ring
  · refine ⟨hs.symm.subset (by simp), .self (by simp) (by simp), ?_, .inl ⟨1, rfl⟩⟩
    rw [den_scFactors, (hs.map _).prod_eq]
    simp [den_sq]
  · refine ⟨by rw [hs]; simp, .self (by simp) (by simp), ?_, .inl ⟨-1, rfl⟩⟩
    rw [den_scFactors, hs]
    simp [den_sq]

theorem not_own_factor {c : Expr} (h : c ∈ scFactors c) (h2 : 2 ≤ (scFactors c).length) : False := by
  unfold scFactors at h h2
  split at h
  · have := List.sizeOf_lt_of_mem h
    simp at this
  · simp at h2

/-- The factor is not the whole term. -/
theorem Matched.ne {st : Bool} {ρ : Str → ℝ} {f : TrigFn} {σ : ℝ} {t c i : Expr} (h : Matched st ρ f σ t c i) : t ≠ c := by
  rintro rfl
  rcases h.part with ⟨q, rfl⟩ | ⟨h1, h2⟩
  · have := h.mem
    simp [scFactors] at this
  · exact not_own_factor h1 h2

/-- The two terms of a match are put together. -/
theorem apply_value (hO : O.Exact) {n : Nat} {st : Bool} {ρ : Str → ℝ} {ts us : List Expr} {t1 t2 c i rest e : Expr} {f g : TrigFn} {σ τ : ℝ}
    (w : ∀ t ∈ ts, WF t) (d : ∀ t ∈ ts, DomS st ρ t) (hp : ts.Perm (t1 :: t2 :: us)) (hi : IdentT O n t1)
    (hM : Matched st ρ f σ t1 c i) (h2 : den ρ t2 = τ * den ρ c) (hg : g.isInverse = false)
    (hid : ∀ x, f.ok x → g.ok x ∧ σ * (f.real x) ^ 2 + τ = (g.real x) ^ 2)
    (hr : (ctors O n).sum us = .ok rest) (he : applyIdentity O n g c i rest = .ok e) : Val st ρ e (ts.map (den ρ)).sum := by
  have m1 : t1 ∈ ts := hp.symm.subset (by simp)
  obtain ⟨wi, di, oki, ni⟩ := sq_mem (w t1 m1) (d t1 m1) hi hM.mem
  have hS := ctors_sound hO n
  have hus : ∀ t ∈ us, t ∈ ts := fun t ht => hp.symm.subset (by simp [ht])
  obtain ⟨vr, dr⟩ := hS.sum ρ _ _ (fun t ht => w t (hus t ht)) (fun t ht => d t (hus t ht)) hr
  have hrest : Val st ρ rest (us.map (den ρ)).sum := ⟨hS.sumW _ _ (fun t ht => w t (hus t ht)) hr, dr, vr⟩
  unfold applyIdentity at he
  obtain ⟨t, ht, he⟩ := bind_ok.1 he
  obtain ⟨p, hp', he⟩ := bind_ok.1 he
  obtain ⟨m, hm, he⟩ := bind_ok.1 he
  obtain ⟨okg, hv⟩ := hid _ oki
  refine (Val.add hS (Val.mul hS hM.val (Val.sq hS (Val.trig hO hg wi di ni okg ht) hp') hm) hrest he).congr ?_
  rw [(hp.map _).sum_eq, List.map_cons, List.map_cons, List.sum_cons, List.sum_cons, hM.eq, h2, ← hv]
  ring

theorem ident_any (hO : O.Exact) {n : Nat} {st : Bool} {ρ : Str → ℝ} {ts : List Expr} {q fac inn rest e : Expr} {f g : TrigFn} {σ : ℝ}
    (w : ∀ t ∈ ts, WF t) (d : ∀ t ∈ ts, DomS st ρ t) (hok : identOk O n ts = true)
    (hq : ∀ t ∈ ts, ∀ m, eqCall O (ctors O n) t q = .ok (some m) → ∃ c i, m.Perm [(anyKey, i), (factorKey, c)] ∧ Matched st ρ f σ t c i)
    (hg : g.isInverse = false) (hid : ∀ x, f.ok x → g.ok x ∧ σ * (f.real x) ^ 2 + 1 = (g.real x) ^ 2)
    (h : eqSum O (ctors O n) ts [q, any factorKey] = .ok (some (fac, inn, rest))) (he : applyIdentity O n g fac inn rest = .ok e) :
    Val st ρ e (ts.map (den ρ)).sum := by
  obtain ⟨hr, hT⟩ := identOk_spec hok
  obtain ⟨t1, ht1, t2, ht2, s1, s2, m1, m2, final, us, e1, e2, c1, c2, hs, hres, hus, hrest⟩ := eqSum_two h
  obtain ⟨c, i, hm, hM⟩ := hq t1 ht1 m1 c1
  have hm2 := match_any (d t2 ht2) c2
  obtain ⟨rfl, rfl, rfl⟩ := result_of hO hM.val.2.1.noFlt (d t2 ht2).noFlt hm hm2 hs hres
  exact apply_value hO w d (unaccounted_perm hr ht1 ht2 hM.ne e1 e2 hus) (hT t1 ht1) hM (by ring) hg hid hrest he

theorem ident_neg (hO : O.Exact) {n : Nat} {st : Bool} {ρ : Str → ℝ} {ts : List Expr} {fac inn rest e : Expr} {f g : TrigFn}
    (hf : f ∈ identFns) (w : ∀ t ∈ ts, WF t) (d : ∀ t ∈ ts, DomS st ρ t) (hok : identOk O n ts = true)
    (hg : g.isInverse = false) (hid : ∀ x, f.ok x → g.ok x ∧ 1 * (f.real x) ^ 2 + (-1) = (g.real x) ^ 2)
    (h : eqSum O (ctors O n) ts [queryPlus f, prod [rat (-1), any factorKey]] = .ok (some (fac, inn, rest)))
    (he : applyIdentity O n g fac inn rest = .ok e) : Val st ρ e (ts.map (den ρ)).sum := by
  obtain ⟨hr, hT⟩ := identOk_spec hok
  obtain ⟨t1, ht1, t2, ht2, s1, s2, m1, m2, final, us, e1, e2, c1, c2, hs, hres, hus, hrest⟩ := eqSum_two h
  obtain ⟨c, i, hm, hM, hsh⟩ := plus_matched hO hf (w t1 ht1) (d t1 ht1) (hT t1 ht1) c1
  obtain ⟨c', hm2, hsh2⟩ := match_neg hO (d t2 ht2) (hT t2 ht2).nodup c2
  have dc' : NoFlt c' := by
    rcases hsh2 with h | ⟨-, rfl⟩ | ⟨-, rfl⟩
    · exact (scFactors_dom (d t2 ht2) (h.symm.subset (by simp))).noFlt
    · simp [NoFlt]
    · simp [NoFlt]
  obtain ⟨rfl, rfl, rfl⟩ := result_of hO hM.val.2.1.noFlt dc' hm hm2 hs hres
  have hne : t1 ≠ t2 := by
    rintro rfl
    clear h
    rcases hsh with h | ⟨h, rfl⟩
    · rcases hsh2 with h' | ⟨h', -⟩ | ⟨h', -⟩
      · have h3 : rat (-1) ∈ [pow (trig f inn) (rat 2), fac] := (h.symm.trans h').symm.subset (by simp)
        simp at h3
        subst h3
        have := h'.nodup_iff.1 (hT t1 ht1).nodup
        simp at this
      · rw [h'] at h; simpa using h.length_eq
      · rw [h'] at h; simpa using h.length_eq
    · rcases hsh2 with h' | ⟨h', -⟩ | ⟨h', hc⟩
      · rw [h] at h'; simpa using h'.length_eq
      · rw [h] at h'; simp at h'
      · rw [h] at h'; simp at h'
  have hv : den ρ t2 = (-1) * den ρ fac := by
    clear h
    rcases hsh2 with h | ⟨h, rfl⟩ | ⟨h, rfl⟩
    · rw [den_scFactors, (h.map _).prod_eq]; simp
    · rw [den_scFactors, h]; simp
    · rw [den_scFactors, h]; simp
  exact apply_value hO w d (unaccounted_perm hr ht1 ht2 hne e1 e2 hus) (hT t1 ht1) hM hv hg hid hrest he

/-- The six identities. -/
theorem tryIdentities_value (hO : O.Exact) {n : Nat} {st : Bool} {ρ : Str → ℝ} {ts : List Expr} {e : Expr}
    (w : ∀ t ∈ ts, WF t) (d : ∀ t ∈ ts, DomS st ρ t) (hok : identOk O n ts = true) (h : tryIdentities O n ts identities = .ok (.hit e)) :
    Val st ρ e (ts.map (den ρ)).sum := by
  have hT := (identOk_spec hok).2
  have hp : ∀ f ∈ identFns, ∀ t ∈ ts, ∀ m, eqCall O (ctors O n) t (queryPlus f) = .ok (some m) →
      ∃ c i, m.Perm [(anyKey, i), (factorKey, c)] ∧ Matched st ρ f 1 t c i := by
    intro f hf t ht m hm
    obtain ⟨c, i, h1, h2, -⟩ := plus_matched hO hf (w t ht) (d t ht) (hT t ht) hm
    exact ⟨c, i, h1, h2⟩
  have hm : ∀ f ∈ identFns, ∀ t ∈ ts, ∀ m, eqCall O (ctors O n) t (queryMinus f) = .ok (some m) →
      ∃ c i, m.Perm [(anyKey, i), (factorKey, c)] ∧ Matched st ρ f (-1) t c i :=
    fun f hf t ht m hm => minus_matched hO hf (w t ht) (d t ht) (hT t ht) hm
  have step : ∀ {qs : List Expr} {g : TrigFn} {r : List (List Expr × TrigFn)},
      (∀ {fac inn rest e'}, eqSum O (ctors O n) ts qs = .ok (some (fac, inn, rest)) → applyIdentity O n g fac inn rest = .ok e' →
        Val st ρ e' (ts.map (den ρ)).sum) → (tryIdentities O n ts r = .ok (.hit e) → Val st ρ e (ts.map (den ρ)).sum) →
      tryIdentities O n ts ((qs, g) :: r) = .ok (.hit e) → Val st ρ e (ts.map (den ρ)).sum := by
    intro qs g r h1 h2 h
    rw [tryIdentities] at h
    obtain ⟨k, hk, h⟩ := bind_ok.1 h
    match k, hk, h with
    | none, _, h => exact h2 h
    | some (fac, inn, rest), hk, h =>
      obtain ⟨e', he, h⟩ := bind_ok.1 h
      have := pure_ok.1 h
      injection this with this
      subst this
      exact h1 hk he
  refine step (fun h1 h2 => ident_any hO w d hok (hp .tan (by decide)) rfl ?_ h1 h2) (step (fun h1 h2 => ident_any hO w d hok (hm .sin (by decide)) rfl ?_ h1 h2)
    (step (fun h1 h2 => ident_any hO w d hok (hm .cos (by decide)) rfl ?_ h1 h2) (step (fun h1 h2 => ident_neg hO (f := .sec) (by decide) w d hok rfl ?_ h1 h2)
    (step (fun h1 h2 => ident_any hO w d hok (hp .cot (by decide)) rfl ?_ h1 h2) (step (fun h1 h2 => ident_neg hO (f := .csc) (by decide) w d hok rfl ?_ h1 h2)
    ?_))))) h
  · intro x hx
    simp only [TrigFn.ok] at hx
    refine ⟨hx, ?_⟩
    simp only [TrigFn.real]
    field_simp
    linarith [Real.sin_sq_add_cos_sq x]
  · intro x hx
    refine ⟨trivial, ?_⟩
    simp only [TrigFn.real]
    linarith [Real.sin_sq_add_cos_sq x]
  · intro x hx
    refine ⟨trivial, ?_⟩
    simp only [TrigFn.real]
    linarith [Real.sin_sq_add_cos_sq x]
  · intro x hx
    simp only [TrigFn.ok] at hx
    refine ⟨hx, ?_⟩
    simp only [TrigFn.real]
    field_simp
    linarith [Real.sin_sq_add_cos_sq x]
  · intro x hx
    simp only [TrigFn.ok] at hx
    refine ⟨hx, ?_⟩
    simp only [TrigFn.real]
    field_simp
    linarith [Real.sin_sq_add_cos_sq x]
  · intro x hx
    simp only [TrigFn.ok] at hx
    refine ⟨hx, ?_⟩
    simp only [TrigFn.real]
    field_simp
    linarith [Real.sin_sq_add_cos_sq x]
  · intro h
    simp [tryIdentities] at h

theorem pythPerf_on (hO : O.Exact) (st : Bool) (ρ : Str → ℝ) : PerfOn (pythOk O) st ρ (pythPerf O) := by
  intro n e u hP w d h
  cases e with
  | sum ts =>
    unfold pythOk at hP
    rw [h] at hP
    simp only at hP
    have wts := WF_sum.1 w
    have dts := Dom_sum.1 d
    rw [den_sum]
    rw [pythPerf] at h
    rcases hc1 : (!containsCls isPlainTrig (sum ts)) with _ | _
    swap
    · rw [if_pos hc1] at h; cases h
    rw [if_neg (by simp [hc1])] at h
    rcases hc2 : (!generalContains (isTrigSquare O) (sum ts)) with _ | _
    swap
    · rw [if_pos hc2] at h; cases h
    rw [if_neg (by simp [hc2])] at h
    obtain ⟨both, hb, h⟩ := bind_ok.1 h
    rw [hb] at hP
    cases both with
    | nil => exact tryIdentities_value hO wts dts hP h
    | cons p r =>
      simp only [Bool.and_eq_true, List.all_eq_true] at hP
      rw [if_pos (by simp)] at h
      obtain ⟨us, hus, h⟩ := bind_ok.1 h
      obtain ⟨r', hr, h⟩ := bind_ok.1 h
      have := pure_ok.1 h
      injection this with this
      subst this
      exact sinCos_value hO wts dts hP.1 hP.2 hb hus hr
  | _ => cases h

end Simpy
