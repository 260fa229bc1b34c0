import Verif.Proofs.Sort

/-! Soundness of `Sum(terms)` for every interpretation that respects sums, products and rationals. -/

namespace Simpy
open Expr

/-- An interpretation of expressions in a field that respects rationals, sums and products, together with a
definedness predicate that is compositional for them. -/
structure RingInterp {K : Type} [Field K] [CharZero K] (v : Expr → K) (D : Expr → Prop) : Prop where
  v_rat : ∀ q : ℚ, v (rat q) = (q : K)
  v_sum : ∀ ts, v (sum ts) = (ts.map v).sum
  v_prod : ∀ ts, v (prod ts) = (ts.map v).prod
  D_rat : ∀ q, D (rat q)
  D_sum : ∀ ts, D (sum ts) ↔ ∀ t ∈ ts, D t
  D_prod : ∀ ts, D (prod ts) ↔ ∀ t ∈ ts, D t
  D_noFlt : ∀ a, D a → NoFlt a
  D_acc : ∀ a, D a → a.isAcc = true → ∃ q, a = rat q

theorem sum_map_split {α K : Type} [AddCommMonoid K] (f : α → K) (p : α → Bool) : ∀ l : List α,
    (l.map f).sum = ((l.filter p).map f).sum + ((l.filter (fun a => !p a)).map f).sum
  | [] => by simp
  | a :: r => by
    have := sum_map_split f p r
    cases h : p a <;> simp [h, this, add_assoc, add_left_comm]

theorem prod_map_split {α K : Type} [CommMonoid K] (f : α → K) (p : α → Bool) : ∀ l : List α,
    (l.map f).prod = ((l.filter p).map f).prod * ((l.filter (fun a => !p a)).map f).prod
  | [] => by simp
  | a :: r => by
    have := prod_map_split f p r
    cases h : p a <;> simp [h, this, mul_assoc, mul_left_comm]

theorem beq_rat_iff {O : Oracle} {p q : ℚ} : beq O (rat p) (rat q) = true ↔ p = q := by simp [beq]

section
variable {K : Type} [Field K] [CharZero K] {v : Expr → K} {D : Expr → Prop}

mutual
theorem flatS_val (I : RingInterp v D) : ∀ t : Expr,
    ((flatS t).map v).sum = v t ∧ (D t → ∀ u ∈ flatS t, D u) := by
  intro t
  cases t with
  | sum ts => simp only [flatS, I.v_sum, I.D_sum]; exact flatSL_val I ts
  | _ => simp [flatS]
theorem flatSL_val (I : RingInterp v D) : ∀ ts : List Expr,
    ((flatSL ts).map v).sum = (ts.map v).sum ∧ ((∀ t ∈ ts, D t) → ∀ u ∈ flatSL ts, D u)
  | [] => by simp [flatSL]
  | t :: r => by
    have ih1 := flatS_val I t
    have ih2 := flatSL_val I r
    simp only [flatSL, List.map_append, List.sum_append, List.map_cons, List.sum_cons, List.mem_append,
      List.mem_cons]
    refine ⟨by rw [ih1.1, ih2.1], ?_⟩
    intro h u hu
    rcases hu with hu | hu
    · exact ih1.2 (h t (.inl rfl)) u hu
    · exact ih2.2 (fun t ht => h t (.inr ht)) u hu

end

/-- All members are rationals. -/
theorem all_rat (I : RingInterp v D) {cs : List Expr} (hD : ∀ c ∈ cs, D c) (hA : ∀ c ∈ cs, c.isAcc = true) :
    ∃ qs : List ℚ, cs = qs.map rat := by
  induction cs with
  | nil => exact ⟨[], rfl⟩
  | cons c r ih =>
    obtain ⟨q, rfl⟩ := I.D_acc c (hD c (by simp)) (hA c (by simp))
    obtain ⟨qs, rfl⟩ := ih (fun c hc => hD c (by simp [hc])) (fun c hc => hA c (by simp [hc]))
    exact ⟨q :: qs, rfl⟩

theorem foldNum_add_frac {O : Oracle} : ∀ (qs : List ℚ) (a : ℚ),
    foldNum (numAdd O) (.frac a) ((qs.map rat).map value) = .ok (.frac (a + qs.sum))
  | [], a => by simp [foldNum]
  | q :: r, a => by
    simp only [List.map_cons, value, foldNum, numAdd]
    rw [foldNum_add_frac r]
    simp [add_assoc]

theorem foldNum_mul_frac {O : Oracle} : ∀ (qs : List ℚ) (a : ℚ),
    foldNum (numMul O) (.frac a) ((qs.map rat).map value) = .ok (.frac (a * qs.prod))
  | [], a => by simp [foldNum]
  | q :: r, a => by
    simp only [List.map_cons, value, foldNum, numMul]
    rw [foldNum_mul_frac r]
    simp [mul_assoc]

/-- `accumulate` on rationals is the exact sum. -/
theorem accumulateSum_rat {O : Oracle} (qs : List ℚ) :
    accumulateSum O (qs.map rat) = .ok (rat qs.sum) := by
  match qs with
  | [] => simp [accumulateSum, foldNum, const]
  | [q] => simp [accumulateSum]
  | a :: b :: r =>
    have := foldNum_add_frac (O := O) (a :: b :: r) 0
    simp only [List.map_cons] at this
    simp only [accumulateSum, List.map_cons, this, const]
    simp

/-- `accumulate` on rationals is the exact product. -/
theorem accumulateProd_rat {O : Oracle} (qs : List ℚ) :
    accumulateProd O (qs.map rat) = .ok (rat qs.prod) := by
  match qs with
  | [] => simp [accumulateProd, foldNum, const]
  | [q] => simp [accumulateProd]
  | a :: b :: r =>
    have := foldNum_mul_frac (O := O) (a :: b :: r) 1
    simp only [List.map_cons] at this
    simp only [accumulateProd, List.map_cons, this, const]
    simp

theorem map_rat_sum (I : RingInterp v D) (qs : List ℚ) : ((qs.map rat).map v).sum = ((qs.sum : ℚ) : K) := by
  induction qs with
  | nil => simp
  | cons q r ih => simp only [List.map_cons, List.sum_cons, ih, I.v_rat]; push_cast; rfl

theorem map_rat_prod (I : RingInterp v D) (qs : List ℚ) : ((qs.map rat).map v).prod = ((qs.prod : ℚ) : K) := by
  induction qs with
  | nil => simp
  | cons q r ih => simp only [List.map_cons, List.prod_cons, ih, I.v_rat]; push_cast; rfl

theorem mkProdSkip_val (I : RingInterp v D) {ts : List Expr} {r : Expr} (h : mkProdSkip ts = .ok r)
    (hD : ∀ t ∈ ts, D t) : D r ∧ v r = (ts.map v).prod := by
  match ts, h with
  | [], h => simp only [mkProdSkip, Except.ok.injEq] at h; subst h; simp [I.D_rat, I.v_rat]
  | [t], h =>
    simp only [mkProdSkip] at h
    split at h
    · simp at h
    · simp only [Except.ok.injEq] at h; subst h; exact ⟨hD t (by simp), by simp⟩
  | a :: b :: ts, h =>
    simp only [mkProdSkip, Except.ok.injEq] at h; subst h
    exact ⟨(I.D_prod _).2 hD, I.v_prod _⟩

theorem deconProd_val (I : RingInterp v D) {t : Expr} (hW : WF t) (hD : D t) :
    v t = ((deconProd t).1.map v).sum * ((deconProd t).2.map v).prod ∧
    (∀ c ∈ (deconProd t).1, D c ∧ c.isAcc = true) ∧ (∀ c ∈ (deconProd t).2, D c) := by
  cases t with
  | prod ts =>
    have hD' := (I.D_prod ts).1 hD
    have hW' := hW.1
    simp only [deconProd, I.v_prod, prod_map_split v isAcc ts]
    refine ⟨?_, ?_, ?_⟩
    · congr 1
      match hf : ts.filter isAcc with
      | [] => simp [I.v_rat]
      | [c] => simp
      | a :: b :: r => rw [hf] at hW'; simp at hW'
    · intro c hc
      split at hc
      · simp only [List.mem_singleton] at hc; subst hc; exact ⟨I.D_rat 1, rfl⟩
      · simp only [List.mem_filter] at hc; exact ⟨hD' c hc.1, hc.2⟩
    · intro c hc
      simp only [List.mem_filter] at hc; exact hD' c hc.1
  | _ => simpa [deconProd, I.v_rat, I.D_rat, isAcc] using hD

theorem likeTerm_val (I : RingInterp v D) {O : Oracle} {coeffs ncf : List Expr} {o : Option Expr}
    (hc : ∀ c ∈ coeffs, D c ∧ c.isAcc = true) (hn : ∀ c ∈ ncf, D c) (h : likeTerm O coeffs ncf = .ok o) :
    ((o.toList).map v).sum = (coeffs.map v).sum * (ncf.map v).prod ∧ ∀ t ∈ o.toList, D t := by
  obtain ⟨qs, rfl⟩ := all_rat I (fun c h => (hc c h).1) (fun c h => (hc c h).2)
  simp only [likeTerm, accumulateSum_rat, bind_ok, Except.ok.injEq, exists_eq_left', beq_rat_iff] at h
  rw [map_rat_sum I]
  split at h
  · next h0 => simp only [pure_ok] at h; subst h; simp [h0]
  · split at h
    · next h1 =>
      obtain ⟨t, ht, h⟩ := bind_ok.1 h
      simp only [pure_ok] at h; subst h
      obtain ⟨hd, hv⟩ := mkProdSkip_val I ht hn
      simp [h1, hv, hd]
    · obtain ⟨t, ht, h⟩ := bind_ok.1 h
      simp only [pure_ok] at h; subst h
      obtain ⟨hd, hv⟩ := mkProdSkip_val I ht (by
        intro c hc; rcases List.mem_cons.1 hc with rfl | hc
        · exact I.D_rat _
        · exact hn c hc)
      simp [hv, hd, I.v_rat]

theorem combineSumLoop_val (I : RingInterp v D) {O : Oracle} (h1 : ∀ q, O.isPi q = false)
    (h2 : ∀ q, O.isE q = false) : ∀ (n : Nat) (ts nc cs : List Expr), ts.length ≤ n →
    (∀ t ∈ ts, WF t) → (∀ t ∈ ts, D t) → combineSumLoop O n ts = .ok (nc, cs) →
    (nc.map v).sum + (cs.map v).sum = (ts.map v).sum ∧ (∀ t ∈ nc, D t) ∧
      (∀ c ∈ cs, D c ∧ c.isAcc = true)
  | 0, ts, nc, cs, hl, _, _, h => by
    have : ts = [] := List.length_eq_zero_iff.1 (Nat.le_zero.1 hl)
    simp only [combineSumLoop, Except.ok.injEq, Prod.mk.injEq] at h
    simp [this, ← h.1, ← h.2]
  | n + 1, [], nc, cs, _, _, _, h => by
    simp only [combineSumLoop, Except.ok.injEq, Prod.mk.injEq] at h
    simp [← h.1, ← h.2]
  | n + 1, t :: r, nc, cs, hl, hW, hD, h => by
    have hlr : r.length ≤ n := by simpa using hl
    have hWr : ∀ t ∈ r, WF t := fun t ht => hW t (by simp [ht])
    have hDr : ∀ t ∈ r, D t := fun t ht => hD t (by simp [ht])
    simp only [combineSumLoop] at h
    split at h
    · next hacc =>
      obtain ⟨⟨nc', cs'⟩, h', hp⟩ := bind_ok.1 h
      simp only [pure_ok, Prod.mk.injEq] at hp
      obtain ⟨e1, e2, e3⟩ := combineSumLoop_val I h1 h2 n r nc' cs' hlr hWr hDr h'
      rw [← hp.1, ← hp.2]
      refine ⟨?_, e2, ?_⟩
      · simp only [List.map_cons, List.sum_cons, ← e1]; ring
      · intro c hc
        rcases List.mem_cons.1 hc with rfl | hc
        · exact ⟨hD _ (by simp), hacc⟩
        · exact e3 c hc
    · generalize hp : (fun u => beqL O (deconProd t).2 (deconProd u).2) = p at h
      have hp' : (fun u => !beqL O (deconProd t).2 (deconProd u).2) = fun u => !p u := by rw [← hp]
      rw [hp'] at h
      have hlf : (r.filter (fun u => !p u)).length ≤ n := (List.length_filter_le _ _).trans hlr
      have hWf : ∀ u ∈ r.filter (fun u => !p u), WF u := fun u hu => hWr u (List.mem_filter.1 hu).1
      have hDf : ∀ u ∈ r.filter (fun u => !p u), D u := fun u hu => hDr u (List.mem_filter.1 hu).1
      obtain ⟨tv, tc, tn⟩ := deconProd_val I (hW t (by simp)) (hD t (by simp))
      have hsplit := sum_map_split v p r
      split at h
      · next hemp =>
        obtain ⟨⟨nc', cs'⟩, h', hq⟩ := bind_ok.1 h
        simp only [pure_ok, Prod.mk.injEq] at hq
        obtain ⟨e1, e2, e3⟩ := combineSumLoop_val I h1 h2 n _ nc' cs' hlf hWf hDf h'
        rw [← hq.1, ← hq.2]
        have hemp' : r.filter p = [] := by simpa using hemp
        rw [hemp'] at hsplit
        refine ⟨?_, ?_, e3⟩
        · simp only [List.map_cons, List.sum_cons, hsplit, ← e1]; simp [add_assoc]
        · intro u hu
          rcases List.mem_cons.1 hu with rfl | hu
          · exact hD _ (by simp)
          · exact e2 u hu
      · obtain ⟨o, ho, h⟩ := bind_ok.1 h
        obtain ⟨⟨nc', cs'⟩, h', hq⟩ := bind_ok.1 h
        simp only [pure_ok, Prod.mk.injEq] at hq
        obtain ⟨e1, e2, e3⟩ := combineSumLoop_val I h1 h2 n _ nc' cs' hlf hWf hDf h'
        rw [← hq.1, ← hq.2]
        have hhit : ∀ u ∈ r.filter p, (deconProd u).2 = (deconProd t).2 := by
          intro u hu
          obtain ⟨hu, hpu⟩ := List.mem_filter.1 hu
          have hb : beqL O (deconProd t).2 (deconProd u).2 = true := by rw [← hp] at hpu; exact hpu
          obtain ⟨_, _, un⟩ := deconProd_val I (hWr u hu) (hDr u hu)
          exact (beqL_eq h1 h2 _ _ ((NoFltL_iff _).2 fun c hc => I.D_noFlt c (tn c hc))
            ((NoFltL_iff _).2 fun c hc => I.D_noFlt c (un c hc)) hb).symm
        have hsum : ∀ l : List Expr, (∀ u ∈ l, (deconProd u).2 = (deconProd t).2) → (∀ u ∈ l, WF u) →
            (∀ u ∈ l, D u) → (l.map v).sum =
              (((l.map (fun u => (deconProd u).1)).flatten).map v).sum * ((deconProd t).2.map v).prod := by
          intro l
          induction l with
          | nil => simp
          | cons u l ih =>
            intro a1 a2 a3
            have uv := (deconProd_val I (a2 u (by simp)) (a3 u (by simp))).1
            rw [a1 u (by simp)] at uv
            simp only [List.map_cons, List.sum_cons, List.flatten_cons, List.map_append, List.sum_append]
            rw [ih (fun u hu => a1 u (by simp [hu])) (fun u hu => a2 u (by simp [hu]))
              (fun u hu => a3 u (by simp [hu])), uv]
            ring
        have hWh : ∀ u ∈ r.filter p, WF u := fun u hu => hWr u (List.mem_filter.1 hu).1
        have hDh : ∀ u ∈ r.filter p, D u := fun u hu => hDr u (List.mem_filter.1 hu).1
        obtain ⟨lv, ld⟩ := likeTerm_val I (by
          intro c hc
          rcases List.mem_append.1 hc with hc | hc
          · exact tc c hc
          · simp only [List.mem_flatten, List.mem_map] at hc
            obtain ⟨_, ⟨u, hu, rfl⟩, hc⟩ := hc
            exact (deconProd_val I (hWh u hu) (hDh u hu)).2.1 c hc) tn ho
        refine ⟨?_, ?_, e3⟩
        · simp only [List.map_append, List.sum_append, List.map_cons, List.sum_cons, lv, hsplit,
            hsum _ hhit hWh hDh, ← e1, tv]
          ring
        · intro u hu
          rcases List.mem_append.1 hu with hu | hu
          · exact ld u hu
          · exact e2 u hu

theorem combineSum_val (I : RingInterp v D) {O : Oracle} (h1 : ∀ q, O.isPi q = false)
    (h2 : ∀ q, O.isE q = false) {ts out : List Expr} (hW : ∀ t ∈ ts, WF t) (hD : ∀ t ∈ ts, D t)
    (h : combineSum O ts = .ok out) : (out.map v).sum = (ts.map v).sum ∧ ∀ t ∈ out, D t := by
  simp only [combineSum, bind_ok] at h
  obtain ⟨⟨nc, cs⟩, h', h⟩ := h
  obtain ⟨e1, e2, e3⟩ := combineSumLoop_val I h1 h2 _ ts nc cs le_rfl hW hD h'
  dsimp only at h
  split at h
  · next hemp =>
    simp only [pure_ok] at h; subst h
    have : cs = [] := by simpa using hemp
    subst this
    exact ⟨by simpa using e1, e2⟩
  · obtain ⟨qs, rfl⟩ := all_rat I (fun c h => (e3 c h).1) (fun c h => (e3 c h).2)
    rw [accumulateSum_rat] at h
    rw [map_rat_sum I] at e1
    simp only [bind_ok, Except.ok.injEq, exists_eq_left', beq_rat_iff] at h
    split at h
    · next h0 => simp only [pure_ok] at h; subst h; rw [h0] at e1; exact ⟨by simpa using e1, e2⟩
    · simp only [pure_ok] at h; subst h
      refine ⟨by simpa [I.v_rat] using e1, ?_⟩
      intro t ht
      rcases List.mem_append.1 ht with ht | ht
      · exact e2 t ht
      · simp only [List.mem_singleton] at ht; subst ht; exact I.D_rat _

mutual
theorem flatS_WF : ∀ t : Expr, WF t → ∀ u ∈ flatS t, WF u := by
  intro t hW u hu
  cases t with
  | sum ts => simp only [flatS] at hu; exact flatSL_WF ts hW u hu
  | _ => simp only [flatS, List.mem_singleton] at hu; subst hu; exact hW
theorem flatSL_WF : ∀ ts : List Expr, WFL ts → ∀ u ∈ flatSL ts, WF u := by
  intro ts hW u hu
  cases ts with
  | nil => simp [flatSL] at hu
  | cons t r =>
    simp only [flatSL, List.mem_append] at hu
    rcases hu with hu | hu
    · exact flatS_WF t hW.1 u hu
    · exact flatSL_WF r hW.2 u hu
end

/-- `Sum(terms)` preserves value and definedness, in every interpretation. -/
theorem sumCtor_val (I : RingInterp v D) {O : Oracle} (h1 : ∀ q, O.isPi q = false)
    (h2 : ∀ q, O.isE q = false) {C : Ctors} {ts : List Expr} {r : Expr} (hW : ∀ t ∈ ts, WF t)
    (hD : ∀ t ∈ ts, D t) (h : sumCtor O C ts = .ok r) : v r = (ts.map v).sum ∧ D r := by
  simp only [sumCtor, bind_ok] at h
  obtain ⟨fs, hf, h⟩ := h
  obtain ⟨fv, fd⟩ := flatSL_val I ts
  obtain ⟨cv, cd⟩ := combineSum_val I h1 h2 (flatSL_WF ts ((WFL_iff ts).2 hW)) (fd hD) hf
  rw [← fv, ← cv]
  match fs, h with
  | [], h => simp only [pure_ok] at h; subst h; simp [I.v_rat, I.D_rat]
  | [t], h => simp only [pure_ok] at h; subst h; exact ⟨by simp, cd t (by simp)⟩
  | a :: b :: fs, h =>
    obtain ⟨s, hs, h⟩ := bind_ok.1 h
    simp only [pure_ok] at h; subst h
    have hp := (s.reverse_perm).trans (sortTerms_perm hs)
    rw [I.v_sum, I.D_sum]
    exact ⟨(hp.map v).sum_eq, fun t ht => cd t (hp.mem_iff.1 ht)⟩

end

/-! ## Well-formedness of sums -/

theorem accumulateSum_isAcc {O : Oracle} {cs : List Expr} {c : Expr} (hc : ∀ c ∈ cs, c.isAcc = true)
    (h : accumulateSum O cs = .ok c) : c.isAcc = true := by
  have hk : ∀ v, (const v).isAcc = true := by intro v; cases v <;> rfl
  unfold accumulateSum at h
  split at h
  · simp only [Except.ok.injEq] at h; subst h; exact hc _ (by simp)
  · split at h
    · simp at h
    · simp only [Except.ok.injEq] at h; subst h; exact hk _

theorem accumulateProd_isAcc {O : Oracle} {cs : List Expr} {c : Expr} (hc : ∀ c ∈ cs, c.isAcc = true)
    (h : accumulateProd O cs = .ok c) : c.isAcc = true := by
  have hk : ∀ v, (const v).isAcc = true := by intro v; cases v <;> rfl
  unfold accumulateProd at h
  split at h
  · simp only [Except.ok.injEq] at h; subst h; exact hc _ (by simp)
  · split at h
    · simp at h
    · simp only [Except.ok.injEq] at h; subst h; exact hk _

theorem isAcc_WF {c : Expr} (h : c.isAcc = true) : WF c := by
  cases c <;> simp_all [isAcc, WF]

theorem mkProdSkip_WF {ts : List Expr} {r : Expr} (h : mkProdSkip ts = .ok r)
    (hW : ∀ t ∈ ts, WF t) (hl : (ts.filter isAcc).length ≤ 1) : WF r := by
  match ts, h with
  | [], h => simp only [mkProdSkip, Except.ok.injEq] at h; subst h; simp [WF]
  | [t], h =>
    simp only [mkProdSkip] at h
    split at h
    · simp at h
    · simp only [Except.ok.injEq] at h; subst h; exact hW t (by simp)
  | a :: b :: ts, h =>
    simp only [mkProdSkip, Except.ok.injEq] at h; subst h
    exact ⟨hl, (WFL_iff _).2 hW⟩

theorem deconProd_WF {t : Expr} (hW : WF t) : (∀ c ∈ (deconProd t).1, c.isAcc = true) ∧
    (∀ c ∈ (deconProd t).2, WF c) ∧ (t.isAcc = false → ∀ c ∈ (deconProd t).2, c.isAcc = false) := by
  cases t with
  | prod ts =>
    have hW' := (WFL_iff ts).1 hW.2
    simp only [deconProd]
    refine ⟨?_, ?_, ?_⟩
    · intro c hc
      split at hc
      · simp only [List.mem_singleton] at hc; subst hc; rfl
      · simp only [List.mem_filter] at hc; exact hc.2
    · intro c hc
      exact hW' c (List.mem_filter.1 hc).1
    · intro _ c hc
      simpa using (List.mem_filter.1 hc).2
  | _ => simp_all [deconProd, isAcc]

theorem filter_isAcc_nil {l : List Expr} (h : ∀ c ∈ l, c.isAcc = false) : l.filter isAcc = [] := by
  rw [List.filter_eq_nil_iff]; intro a ha; simp [h a ha]

theorem likeTerm_WF {O : Oracle} {coeffs ncf : List Expr} {o : Option Expr}
    (hc : ∀ c ∈ coeffs, c.isAcc = true) (hn : ∀ c ∈ ncf, WF c) (hn' : ∀ c ∈ ncf, c.isAcc = false)
    (h : likeTerm O coeffs ncf = .ok o) : ∀ t ∈ o.toList, WF t := by
  simp only [likeTerm, bind_ok] at h
  obtain ⟨c, hca, h⟩ := h
  have hcacc := accumulateSum_isAcc hc hca
  split at h
  · simp only [pure_ok] at h; subst h; simp
  · split at h
    · obtain ⟨t, ht, h⟩ := bind_ok.1 h
      simp only [pure_ok] at h; subst h
      simpa using mkProdSkip_WF ht hn (by simp [filter_isAcc_nil hn'])
    · obtain ⟨t, ht, h⟩ := bind_ok.1 h
      simp only [pure_ok] at h; subst h
      simpa using mkProdSkip_WF ht (by
        intro t ht; rcases List.mem_cons.1 ht with rfl | ht
        · exact isAcc_WF hcacc
        · exact hn t ht) (by simp [hcacc, filter_isAcc_nil hn'])

theorem combineSumLoop_WF {O : Oracle} : ∀ (n : Nat) (ts nc cs : List Expr),
    (∀ t ∈ ts, WF t) → combineSumLoop O n ts = .ok (nc, cs) →
    (∀ t ∈ nc, WF t) ∧ (∀ c ∈ cs, c.isAcc = true)
  | 0, ts, nc, cs, _, h => by
    simp only [combineSumLoop, Except.ok.injEq, Prod.mk.injEq] at h
    simp [← h.1, ← h.2]
  | n + 1, [], nc, cs, _, h => by
    simp only [combineSumLoop, Except.ok.injEq, Prod.mk.injEq] at h
    simp [← h.1, ← h.2]
  | n + 1, t :: r, nc, cs, hW, h => by
    have hWr : ∀ t ∈ r, WF t := fun t ht => hW t (by simp [ht])
    have hWt := hW t (by simp)
    simp only [combineSumLoop] at h
    split at h
    · next hacc =>
      obtain ⟨⟨nc', cs'⟩, h', hp⟩ := bind_ok.1 h
      simp only [pure_ok, Prod.mk.injEq] at hp
      obtain ⟨e2, e3⟩ := combineSumLoop_WF n r nc' cs' hWr h'
      rw [← hp.1, ← hp.2]
      refine ⟨e2, ?_⟩
      intro c hc
      rcases List.mem_cons.1 hc with rfl | hc
      · exact hacc
      · exact e3 c hc
    · next hacc =>
      have hacc : t.isAcc = false := by simpa using hacc
      have hWf : ∀ u ∈ r.filter (fun u => !beqL O (deconProd t).2 (deconProd u).2), WF u :=
        fun u hu => hWr u (List.mem_filter.1 hu).1
      split at h
      · obtain ⟨⟨nc', cs'⟩, h', hp⟩ := bind_ok.1 h
        simp only [pure_ok, Prod.mk.injEq] at hp
        obtain ⟨e2, e3⟩ := combineSumLoop_WF n _ nc' cs' hWf h'
        rw [← hp.1, ← hp.2]
        refine ⟨?_, e3⟩
        intro u hu
        rcases List.mem_cons.1 hu with rfl | hu
        · exact hWt
        · exact e2 u hu
      · obtain ⟨o, ho, h⟩ := bind_ok.1 h
        obtain ⟨⟨nc', cs'⟩, h', hp⟩ := bind_ok.1 h
        simp only [pure_ok, Prod.mk.injEq] at hp
        obtain ⟨e2, e3⟩ := combineSumLoop_WF n _ nc' cs' hWf h'
        rw [← hp.1, ← hp.2]
        refine ⟨?_, e3⟩
        obtain ⟨d1, d2, d3⟩ := deconProd_WF hWt
        intro u hu
        rcases List.mem_append.1 hu with hu | hu
        · refine likeTerm_WF ?_ d2 (d3 hacc) ho u hu
          intro c hc
          rcases List.mem_append.1 hc with hc | hc
          · exact d1 c hc
          · simp only [List.mem_flatten, List.mem_map] at hc
            obtain ⟨_, ⟨w, hw, rfl⟩, hc⟩ := hc
            exact (deconProd_WF (hWr w (List.mem_filter.1 hw).1)).1 c hc
        · exact e2 u hu

theorem sumCtor_WF {O : Oracle} {C : Ctors} {ts : List Expr} {r : Expr} (hW : ∀ t ∈ ts, WF t)
    (h : sumCtor O C ts = .ok r) : WF r := by
  simp only [sumCtor, bind_ok] at h
  obtain ⟨fs, hf, h⟩ := h
  have hfs : ∀ t ∈ fs, WF t := by
    simp only [combineSum, bind_ok] at hf
    obtain ⟨⟨nc, cs⟩, h', hf⟩ := hf
    obtain ⟨e2, e3⟩ := combineSumLoop_WF _ _ nc cs (flatSL_WF ts ((WFL_iff ts).2 hW)) h'
    dsimp only at hf
    split at hf
    · simp only [pure_ok] at hf; subst hf; exact e2
    · obtain ⟨c, hc, hf⟩ := bind_ok.1 hf
      have := accumulateSum_isAcc e3 hc
      split at hf
      · simp only [pure_ok] at hf; subst hf; exact e2
      · simp only [pure_ok] at hf; subst hf
        intro t ht
        rcases List.mem_append.1 ht with ht | ht
        · exact e2 t ht
        · simp only [List.mem_singleton] at ht; subst ht; exact isAcc_WF this
  match fs, h with
  | [], h => simp only [pure_ok] at h; subst h; simp [WF]
  | [t], h => simp only [pure_ok] at h; subst h; exact hfs t (by simp)
  | a :: b :: fs, h =>
    obtain ⟨s, hs, h⟩ := bind_ok.1 h
    simp only [pure_ok] at h; subst h
    have hp := (s.reverse_perm).trans (sortTerms_perm hs)
    exact (WFL_iff _).2 fun t ht => hfs t (hp.mem_iff.1 ht)

end Simpy
