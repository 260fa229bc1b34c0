import Verif.Proofs.Sorted
import Verif.Proofs.Built
import Verif.Proofs.Sub
import Verif.Spec.Canon

/-! The like-term passes do not depend on the order of their input. -/

namespace Simpy
open Expr

variable {O : Oracle}

theorem perm_flatSL {ts ts' : List Expr} (h : ts.Perm ts') : (flatSL ts).Perm (flatSL ts') := by
  rw [flatSL_eq, flatSL_eq]; exact h.flatMap_right _

theorem perm_flatPL {ts ts' : List Expr} (h : ts.Perm ts') : (flatPL ts).Perm (flatPL ts') := by
  rw [flatPL_eq, flatPL_eq]; exact h.flatMap_right _

theorem rats_of {cs : List Expr} (h : ∀ c ∈ cs, ∃ q, c = rat q) : ∃ qs : List ℚ, cs = qs.map rat := by
  induction cs with
  | nil => exact ⟨[], rfl⟩
  | cons c r ih =>
    obtain ⟨q, rfl⟩ := h _ (List.mem_cons_self ..)
    obtain ⟨qs, rfl⟩ := ih fun c hc => h c (List.mem_cons_of_mem _ hc)
    exact ⟨q :: qs, rfl⟩

theorem perm_map_rat {qs qs' : List ℚ} (h : (qs.map rat).Perm (qs'.map rat)) : qs.Perm qs' := by
  have hr : Function.Injective rat := fun a b h => by simpa using h
  exact (List.map_perm_map_iff hr).1 h

theorem accumulateSum_perm {cs cs' : List Expr} (hp : cs.Perm cs') (h : ∀ c ∈ cs, ∃ q, c = rat q) :
    accumulateSum O cs = accumulateSum O cs' := by
  obtain ⟨qs, rfl⟩ := rats_of h
  obtain ⟨qs', rfl⟩ := rats_of fun c hc => h c (hp.mem_iff.2 hc)
  rw [accumulateSum_rat, accumulateSum_rat, (perm_map_rat hp).sum_eq]

theorem accumulateProd_perm {cs cs' : List Expr} (hp : cs.Perm cs') (h : ∀ c ∈ cs, ∃ q, c = rat q) :
    accumulateProd O cs = accumulateProd O cs' := by
  obtain ⟨qs, rfl⟩ := rats_of h
  obtain ⟨qs', rfl⟩ := rats_of fun c hc => h c (hp.mem_iff.2 hc)
  rw [accumulateProd_rat, accumulateProd_rat, (perm_map_rat hp).prod_eq]

/-! ## sums -/

theorem deconProd_snd (t : Expr) : (deconProd t).2 = nonNumFactors t := by cases t <;> rfl

/-- what the group of like terms with factors `k` becomes -/
def grpS (O : Oracle) (fs : List Expr) (k : List Expr) : R (Option Expr) :=
  match fs.filter (fun t => !t.isAcc && decide (nonNumFactors t = k)) with
  | [t] => .ok (some t)
  | g => likeTerm O (g.flatMap fun u => (deconProd u).1) k

theorem grpS_perm {fs fs' : List Expr} (hp : fs.Perm fs')
    (hr : ∀ t ∈ fs, ∀ c ∈ (deconProd t).1, ∃ q, c = rat q) (k : List Expr) : grpS O fs k = grpS O fs' k := by
  have hg := hp.filter (fun t => !t.isAcc && decide (nonNumFactors t = k))
  unfold grpS
  generalize h1 : fs.filter (fun t => !t.isAcc && decide (nonNumFactors t = k)) = g at *
  generalize h2 : fs'.filter (fun t => !t.isAcc && decide (nonNumFactors t = k)) = g' at *
  have key : likeTerm O (g.flatMap fun u => (deconProd u).1) k = likeTerm O (g'.flatMap fun u => (deconProd u).1) k := by
    unfold likeTerm
    rw [accumulateSum_perm (hg.flatMap_right _)]
    intro c hc
    obtain ⟨u, hu, hc'⟩ := List.mem_flatMap.1 hc
    rw [← h1] at hu
    exact hr u (List.mem_of_mem_filter hu) c hc'
  match g, g', hg, key with
  | [], g', hg, key => rw [hg.nil_eq]
  | [t], g', hg, key => rw [List.singleton_perm.1 hg]
  | a :: b :: r, [], hg, key => exact absurd hg.length_eq (by simp)
  | a :: b :: r, [t], hg, key => exact absurd hg.length_eq (by simp)
  | a :: b :: r, c :: d :: r', hg, key => exact key

theorem nonNum_noAcc {t : Expr} (h : t.isAcc = false) : ∀ c ∈ nonNumFactors t, c.isAcc = false := by
  cases t <;> simp_all [nonNumFactors, isAcc]

theorem nonNum_acc {t : Expr} (h : t.isAcc = true) : nonNumFactors t = [t] := by
  cases t <;> simp_all [nonNumFactors, isAcc]

theorem nonNum_ne_acc {t u : Expr} (ht : t.isAcc = false) (hu : u.isAcc = true) : nonNumFactors u ≠ nonNumFactors t := by
  intro h
  rw [nonNum_acc hu] at h
  have := nonNum_noAcc ht u (by rw [← h]; simp)
  rw [this] at hu; cases hu

theorem nonNum_noFlt {t : Expr} (h : NoFlt t) : NoFltL (nonNumFactors t) := by
  cases t <;> simp_all [nonNumFactors, NoFlt, NoFltL_iff]

theorem combineSumLoop_grp (hO : O.NoConfusion) : ∀ (n : Nat) (fs : List Expr), fs.length ≤ n → (∀ t ∈ fs, NoFlt t) →
    ∀ {nc cs : List Expr}, combineSumLoop O n fs = .ok (nc, cs) → cs = fs.filter isAcc ∧
      ∃ K : List (List Expr), K.Nodup ∧ (∀ k, k ∈ K ↔ ∃ t ∈ fs, t.isAcc = false ∧ nonNumFactors t = k) ∧
        (∀ k ∈ K, ∃ o, grpS O fs k = .ok o) ∧
        nc = K.flatMap fun k => (R.get none (grpS O fs k)).toList
  | 0, fs, hn, _, nc, cs, h => by
    have : fs = [] := List.length_eq_zero_iff.1 (by omega)
    subst this
    simp only [combineSumLoop, Except.ok.injEq, Prod.mk.injEq] at h
    rw [← h.1, ← h.2]
    exact ⟨rfl, [], by simp⟩
  | n + 1, [], hn, _, nc, cs, h => by
    simp only [combineSumLoop, Except.ok.injEq, Prod.mk.injEq] at h
    rw [← h.1, ← h.2]
    exact ⟨rfl, [], by simp⟩
  | n + 1, t :: r, hn, hf, nc, cs, h => by
    unfold combineSumLoop at h
    by_cases ha : t.isAcc = true
    · rw [if_pos ha] at h
      obtain ⟨⟨nc', cs'⟩, h1, h2⟩ := bind_ok.1 h
      have h2 := pure_ok.1 h2
      simp only [Prod.mk.injEq] at h2
      obtain ⟨hcs, K, hK, hm, hok, hnc⟩ := combineSumLoop_grp hO n r (by simp at hn; omega)
        (fun u hu => hf u (List.mem_cons_of_mem _ hu)) h1
      have hg : ∀ k, grpS O (t :: r) k = grpS O r k := by
        intro k; unfold grpS; simp [ha]
      rw [← h2.1, ← h2.2]
      refine ⟨by simp [ha, hcs], K, hK, ?_, ?_, ?_⟩
      · intro k; rw [hm]; simp [ha]
      · intro k hk; rw [hg]; exact hok k hk
      · simp only [hg]; exact hnc
    · rw [if_neg ha] at h
      have ha : t.isAcc = false := by simpa using ha
      have hft := hf t (List.mem_cons_self ..)
      have hfr : ∀ u ∈ r, NoFlt u := fun u hu => hf u (List.mem_cons_of_mem _ hu)
      have hb : ∀ u ∈ r, beqL O (deconProd t).2 (deconProd u).2 = decide (nonNumFactors u = nonNumFactors t) := by
        intro u hu
        rw [deconProd_snd, deconProd_snd]
        by_cases he : nonNumFactors u = nonNumFactors t
        · rw [he, beqL_refl _ (nonNum_noFlt hft)]; simp
        · rw [decide_eq_false he]
          by_contra hc
          exact he (beqL_eq hO.isPi hO.isE _ _ (nonNum_noFlt hft) (nonNum_noFlt (hfr u hu)) (by simpa using hc)).symm
      have hhits : r.filter (fun u => beqL O (deconProd t).2 (deconProd u).2) =
          r.filter (fun u => !u.isAcc && decide (nonNumFactors u = nonNumFactors t)) := by
        refine List.filter_congr fun u hu => ?_
        rw [hb u hu]
        by_cases hu' : u.isAcc = true
        · simp [hu', nonNum_ne_acc ha hu']
        · simp [hu']
      have hrest : r.filter (fun u => !beqL O (deconProd t).2 (deconProd u).2) =
          r.filter (fun u => !decide (nonNumFactors u = nonNumFactors t)) := by
        refine List.filter_congr fun u hu => ?_
        rw [hb u hu]
      dsimp only at h
      rw [hhits, hrest] at h
      set rest := r.filter (fun u => !decide (nonNumFactors u = nonNumFactors t)) with hrdef
      have hlen : rest.length ≤ n := le_trans (List.length_filter_le _ _) (by simp at hn; omega)
      have hrec : ∀ {nc' cs' : List Expr}, combineSumLoop O n rest = .ok (nc', cs') →
          (∃ o, grpS O (t :: r) (nonNumFactors t) = .ok o) →
          cs' = (t :: r).filter isAcc ∧
          ∃ K : List (List Expr), K.Nodup ∧ (∀ k, k ∈ K ↔ ∃ u ∈ t :: r, u.isAcc = false ∧ nonNumFactors u = k) ∧
            (∀ k ∈ K, ∃ o, grpS O (t :: r) k = .ok o) ∧
            (R.get none (grpS O (t :: r) (nonNumFactors t))).toList ++ nc' =
              K.flatMap fun k => (R.get none (grpS O (t :: r) k)).toList := by
        intro nc' cs' h1 h0
        obtain ⟨hcs, K, hK, hm, hok, hnc⟩ := combineSumLoop_grp hO n rest hlen
          (fun u hu => hfr u (List.mem_of_mem_filter hu)) h1
        have hg : ∀ k, k ≠ nonNumFactors t → grpS O (t :: r) k = grpS O rest k := by
          intro k hk
          unfold grpS
          rw [List.filter_cons_of_neg (by simp [Ne.symm hk]), hrdef, List.filter_filter]
          rw [List.filter_congr (l := r) (q := fun a => (!a.isAcc && decide (nonNumFactors a = k)) &&
            !decide (nonNumFactors a = nonNumFactors t))]
          intro u hu
          by_cases hu' : nonNumFactors u = k
          · simp [hu', hk]
          · simp [hu']
        have hnk : ∀ k ∈ K, k ≠ nonNumFactors t := by
          intro k hk
          obtain ⟨u, hu, -, rfl⟩ := (hm k).1 hk
          simpa using List.of_mem_filter hu
        refine ⟨?_, nonNumFactors t :: K, List.nodup_cons.2 ⟨fun h => hnk _ h rfl, hK⟩, ?_, ?_, ?_⟩
        · rw [hcs, hrdef, List.filter_filter, List.filter_cons_of_neg (by simp [ha])]
          refine List.filter_congr fun u hu => ?_
          by_cases hu' : u.isAcc = true
          · simp [hu', nonNum_ne_acc ha hu']
          · simp [hu']
        · intro k
          rw [List.mem_cons, hm]
          constructor
          · rintro (rfl | ⟨u, hu, h1, h2⟩)
            · exact ⟨t, List.mem_cons_self .., ha, rfl⟩
            · exact ⟨u, List.mem_cons_of_mem _ (List.mem_of_mem_filter hu), h1, h2⟩
          · rintro ⟨u, hu, h1, h2⟩
            by_cases he : k = nonNumFactors t
            · exact .inl he
            · refine .inr ⟨u, ?_, h1, h2⟩
              rcases List.mem_cons.1 hu with rfl | hu
              · exact absurd h2.symm he
              · exact List.mem_filter.2 ⟨hu, by simpa [h2] using he⟩
        · intro k hk
          rcases List.mem_cons.1 hk with rfl | hk
          · exact h0
          · rw [hg k (hnk k hk)]; exact hok k hk
        · rw [List.flatMap_cons, hnc]
          congr 1
          refine List.flatMap_congr fun k hk => ?_
          rw [hg k (hnk k hk)]
      have hgt : (t :: r).filter (fun u => !u.isAcc && decide (nonNumFactors u = nonNumFactors t)) =
          t :: r.filter (fun u => !u.isAcc && decide (nonNumFactors u = nonNumFactors t)) := by
        rw [List.filter_cons_of_pos (by simp [ha])]
      generalize hhd : r.filter (fun u => !u.isAcc && decide (nonNumFactors u = nonNumFactors t)) = hits at h hgt
      cases hits with
      | nil =>
        rw [if_pos (by rfl)] at h
        obtain ⟨⟨nc', cs'⟩, h1, h2⟩ := bind_ok.1 h
        have h2 := pure_ok.1 h2
        simp only [Prod.mk.injEq] at h2
        have e : grpS O (t :: r) (nonNumFactors t) = .ok (some t) := by unfold grpS; rw [hgt]
        obtain ⟨a1, K, a2, a3, a4, a5⟩ := hrec h1 ⟨_, e⟩
        rw [← h2.1, ← h2.2]
        refine ⟨a1, K, a2, a3, a4, ?_⟩
        rw [← a5, e]; rfl
      | cons u us =>
        rw [if_neg (by simp)] at h
        obtain ⟨o, h0, h⟩ := bind_ok.1 h
        obtain ⟨⟨nc', cs'⟩, h1, h2⟩ := bind_ok.1 h
        have h2 := pure_ok.1 h2
        simp only [Prod.mk.injEq] at h2
        have e : grpS O (t :: r) (nonNumFactors t) = .ok o := by
          unfold grpS; rw [hgt]
          rw [← deconProd_snd, ← h0]
          show likeTerm O ((t :: u :: us).flatMap fun u => (deconProd u).1) (deconProd t).2 = _
          rw [List.flatMap_cons, List.flatMap_def]
        obtain ⟨a1, K, a2, a3, a4, a5⟩ := hrec h1 ⟨_, e⟩
        rw [← h2.1, ← h2.2]
        refine ⟨a1, K, a2, a3, a4, ?_⟩
        rw [← a5, e]; rfl

/-- the like-term pass of sums on permuted inputs -/
theorem combineSum_perm (hO : O.NoConfusion) {fs fs' : List Expr} (hp : fs.Perm fs') (hf : ∀ t ∈ fs, NoFlt t)
    (hr : ∀ t ∈ fs, ∀ c ∈ (deconProd t).1, ∃ q, c = rat q) (ha : ∀ t ∈ fs, t.isAcc = true → ∃ q, t = rat q)
    {r r' : List Expr} (h : combineSum O fs = .ok r) (h' : combineSum O fs' = .ok r') : r.Perm r' := by
  unfold combineSum at h h'
  obtain ⟨⟨nc, cs⟩, h1, h⟩ := bind_ok.1 h
  obtain ⟨⟨nc', cs'⟩, h1', h'⟩ := bind_ok.1 h'
  obtain ⟨c1, K, k1, k2, -, k3⟩ := combineSumLoop_grp hO _ fs le_rfl hf h1
  obtain ⟨c1', K', k1', k2', -, k3'⟩ := combineSumLoop_grp hO _ fs' le_rfl (fun t ht => hf t (hp.mem_iff.2 ht)) h1'
  have hK : K.Perm K' := (List.perm_ext_iff_of_nodup k1 k1').2 fun k => by
    rw [k2, k2']
    exact ⟨fun ⟨t, a, b⟩ => ⟨t, hp.mem_iff.1 a, b⟩, fun ⟨t, a, b⟩ => ⟨t, hp.mem_iff.2 a, b⟩⟩
  have hnc : nc.Perm nc' := by
    rw [k3, k3']
    simp only [grpS_perm hp hr]
    exact hK.flatMap_right _
  have hcs : cs.Perm cs' := by rw [c1, c1']; exact hp.filter _
  have hacc : accumulateSum O cs = accumulateSum O cs' := accumulateSum_perm hcs (by
    intro c hc; rw [c1] at hc
    exact ha c (List.mem_of_mem_filter hc) (List.of_mem_filter hc))
  dsimp only at h h'
  have he : cs.isEmpty = cs'.isEmpty := by
    have := hcs.length_eq
    cases cs <;> cases cs' <;> first | rfl | simp at this
  rw [← hacc, ← he] at h'
  split at h
  · next hc =>
    rw [if_pos hc] at h'
    rw [← pure_ok.1 h, ← pure_ok.1 h']; exact hnc
  · next hc =>
    rw [if_neg hc] at h'
    obtain ⟨c, e1, h⟩ := bind_ok.1 h
    obtain ⟨c', e2, h'⟩ := bind_ok.1 h'
    rw [e1] at e2
    cases e2
    split at h
    · next hz => rw [if_pos hz] at h'; rw [← pure_ok.1 h, ← pure_ok.1 h']; exact hnc
    · next hz => rw [if_neg hz] at h'; rw [← pure_ok.1 h, ← pure_ok.1 h']; exact hnc.append_right _

/-- two sorted permutations of a list with distinct keys agree -/
theorem sortTerms_unique {C : Ctors} {l l' s s' : List Expr} (hp : l.Perm l') (h : sortTerms C l = .ok s)
    (h' : sortTerms C l' = .ok s') (hd : ∀ a ∈ s, ∀ b ∈ s, sortKey C a = sortKey C b → a = b) : s = s' := by
  have p1 := sortTerms_perm h
  have p2 := sortTerms_perm h'
  have hps : s.Perm s' := p1.trans (hp.trans p2.symm)
  have s1 := pySorted_sorted (cmpLt_agrees C) h
  have s2 := pySorted_sorted (cmpLt_agrees C) h'
  exact List.Perm.eq_of_pairwise (fun a b ha hb h1 h2 => hd a ha b (hps.mem_iff.2 hb) (keyLe_antisymm h1 h2)) s1 s2 hps

/-! ## products -/

theorem foldAdd_rat {C : Ctors} : ∀ (qs : List ℚ) (a : ℚ), foldAdd C (rat a) (qs.map rat) = .ok (rat (a + qs.sum))
  | [], a => by simp [foldAdd]
  | q :: qs, a => by simp [foldAdd, opAdd, foldAdd_rat qs, add_assoc]

/-- what the group of factors with base `k` becomes -/
def grpP (O : Oracle) (C : Ctors) (fs : List Expr) (k : Expr) : R (Option Expr) :=
  match fs.filter (fun t => decide ((deconPow t).1 = k)) with
  | [] => .ok none
  | [t] => .ok (some t)
  | t :: g => do
    let expo ← foldAdd C (deconPow t).2 (g.map fun u => (deconPow u).2)
    likeFactor O C k expo

theorem grpP_perm {C : Ctors} {fs fs' : List Expr} (hp : fs.Perm fs')
    (hr : ∀ t ∈ fs, ∃ q, (deconPow t).2 = rat q) (k : Expr) : grpP O C fs k = grpP O C fs' k := by
  have hg := hp.filter (fun t => decide ((deconPow t).1 = k))
  unfold grpP
  generalize h1 : fs.filter (fun t => decide ((deconPow t).1 = k)) = g at *
  generalize h2 : fs'.filter (fun t => decide ((deconPow t).1 = k)) = g' at *
  match g, g', hg with
  | [], g', hg => rw [hg.nil_eq]
  | [t], g', hg => rw [List.singleton_perm.1 hg]
  | a :: b :: r, [], hg => exact absurd hg.length_eq (by simp)
  | a :: b :: r, [t], hg => exact absurd hg.length_eq (by simp)
  | a :: b :: r, c :: d :: r', hg =>
    have hx := hg.map fun u => (deconPow u).2
    obtain ⟨qs, hqs⟩ := rats_of (cs := (a :: b :: r).map fun u => (deconPow u).2) (by
      intro x hx
      obtain ⟨u, hu, rfl⟩ := List.mem_map.1 hx
      rw [← h1] at hu
      exact hr u (List.mem_of_mem_filter hu))
    obtain ⟨qs', hqs'⟩ := rats_of (cs := (c :: d :: r').map fun u => (deconPow u).2) (by
      intro x hx
      obtain ⟨u, hu, rfl⟩ := List.mem_map.1 hx
      rw [← h2] at hu
      exact hr u (hp.mem_iff.2 (List.mem_of_mem_filter hu)))
    rw [hqs, hqs'] at hx
    have hs := (perm_map_rat hx).sum_eq
    cases qs with
    | nil => simp at hqs
    | cons q qs =>
      cases qs' with
      | nil => simp at hqs'
      | cons q' qs' =>
        simp only [List.map_cons, List.cons.injEq] at hqs hqs'
        have e1 : ((b :: r).map fun u => (deconPow u).2) = qs.map rat := by simp [hqs.2]
        have e2 : ((d :: r').map fun u => (deconPow u).2) = qs'.map rat := by simp [hqs'.2]
        show (foldAdd C (deconPow a).2 ((b :: r).map fun u => (deconPow u).2) >>= _) =
          (foldAdd C (deconPow c).2 ((d :: r').map fun u => (deconPow u).2) >>= _)
        rw [e1, e2, hqs.1, hqs'.1, foldAdd_rat, foldAdd_rat]
        rw [List.sum_cons, List.sum_cons] at hs
        rw [hs]

theorem deconPow_noFlt {t : Expr} (h : NoFlt t) : NoFlt (deconPow t).1 := by
  cases t <;> simp_all [deconPow, NoFlt]

theorem combineProdLoop_grp (hO : O.NoConfusion) {C : Ctors} : ∀ (n : Nat) (fs : List Expr), fs.length ≤ n →
    (∀ t ∈ fs, NoFlt t) → ∀ {nc cs : List Expr}, combineProdLoop O C n fs = .ok (nc, cs) →
      ∃ K : List Expr, K.Nodup ∧ (∀ k, k ∈ K ↔ ∃ t ∈ fs, (deconPow t).1 = k) ∧
        nc = (K.flatMap fun k => (R.get none (grpP O C fs k)).toList).filter (fun t => !t.isAcc) ∧
        cs = (K.flatMap fun k => (R.get none (grpP O C fs k)).toList).filter isAcc
  | 0, fs, hn, _, nc, cs, h => by
    have : fs = [] := List.length_eq_zero_iff.1 (by omega)
    subst this
    simp only [combineProdLoop, Except.ok.injEq, Prod.mk.injEq] at h
    rw [← h.1, ← h.2]
    exact ⟨[], by simp⟩
  | n + 1, [], hn, _, nc, cs, h => by
    simp only [combineProdLoop, Except.ok.injEq, Prod.mk.injEq] at h
    rw [← h.1, ← h.2]
    exact ⟨[], by simp⟩
  | n + 1, t :: r, hn, hf, nc, cs, h => by
    unfold combineProdLoop at h
    have hft := hf t (List.mem_cons_self ..)
    have hfr : ∀ u ∈ r, NoFlt u := fun u hu => hf u (List.mem_cons_of_mem _ hu)
    have hb : ∀ u ∈ r, beq O (deconPow u).1 (deconPow t).1 = decide ((deconPow u).1 = (deconPow t).1) := by
      intro u hu
      by_cases he : (deconPow u).1 = (deconPow t).1
      · rw [he, beq_refl _ (deconPow_noFlt hft)]; simp
      · rw [decide_eq_false he]
        by_contra hc
        exact he (beq_eq hO.isPi hO.isE _ _ (deconPow_noFlt (hfr u hu)) (deconPow_noFlt hft) (by simpa using hc))
    have hhits : r.filter (fun u => beq O (deconPow u).1 (deconPow t).1) =
        r.filter (fun u => decide ((deconPow u).1 = (deconPow t).1)) :=
      List.filter_congr fun u hu => hb u hu
    have hrest : r.filter (fun u => !beq O (deconPow u).1 (deconPow t).1) =
        r.filter (fun u => !decide ((deconPow u).1 = (deconPow t).1)) :=
      List.filter_congr fun u hu => by rw [hb u hu]
    dsimp only at h
    rw [hhits, hrest] at h
    set rest := r.filter (fun u => !decide ((deconPow u).1 = (deconPow t).1)) with hrdef
    have hlen : rest.length ≤ n := le_trans (List.length_filter_le _ _) (by simp at hn; omega)
    have hrec : ∀ {nc' cs' : List Expr} (o : Option Expr), combineProdLoop O C n rest = .ok (nc', cs') →
        grpP O C (t :: r) (deconPow t).1 = .ok o →
        ∃ K : List Expr, K.Nodup ∧ (∀ k, k ∈ K ↔ ∃ u ∈ t :: r, (deconPow u).1 = k) ∧
          o.toList.filter (fun t => !t.isAcc) ++ nc' =
            (K.flatMap fun k => (R.get none (grpP O C (t :: r) k)).toList).filter (fun t => !t.isAcc) ∧
          o.toList.filter isAcc ++ cs' = (K.flatMap fun k => (R.get none (grpP O C (t :: r) k)).toList).filter isAcc := by
      intro nc' cs' o h1 h0
      obtain ⟨K, hK, hm, hnc, hcs⟩ := combineProdLoop_grp hO n rest hlen
        (fun u hu => hfr u (List.mem_of_mem_filter hu)) h1
      have hg : ∀ k, k ≠ (deconPow t).1 → grpP O C (t :: r) k = grpP O C rest k := by
        intro k hk
        unfold grpP
        rw [List.filter_cons_of_neg (by simp [Ne.symm hk]), hrdef, List.filter_filter]
        rw [List.filter_congr (l := r) (q := fun a => decide ((deconPow a).1 = k) &&
          !decide ((deconPow a).1 = (deconPow t).1))]
        intro u hu
        by_cases hu' : (deconPow u).1 = k
        · simp [hu', hk]
        · simp [hu']
      have hnk : ∀ k ∈ K, k ≠ (deconPow t).1 := by
        intro k hk
        obtain ⟨u, hu, rfl⟩ := (hm k).1 hk
        simpa using List.of_mem_filter hu
      have hfl : (K.flatMap fun k => (R.get none (grpP O C (t :: r) k)).toList) =
          K.flatMap fun k => (R.get none (grpP O C rest k)).toList :=
        List.flatMap_congr fun k hk => by rw [hg k (hnk k hk)]
      refine ⟨(deconPow t).1 :: K, List.nodup_cons.2 ⟨fun h => hnk _ h rfl, hK⟩, ?_, ?_, ?_⟩
      · intro k
        rw [List.mem_cons, hm]
        constructor
        · rintro (rfl | ⟨u, hu, h2⟩)
          · exact ⟨t, List.mem_cons_self .., rfl⟩
          · exact ⟨u, List.mem_cons_of_mem _ (List.mem_of_mem_filter hu), h2⟩
        · rintro ⟨u, hu, h2⟩
          by_cases he : k = (deconPow t).1
          · exact .inl he
          · refine .inr ⟨u, ?_, h2⟩
            rcases List.mem_cons.1 hu with rfl | hu
            · exact absurd h2.symm he
            · exact List.mem_filter.2 ⟨hu, by simpa [h2] using he⟩
      · rw [List.flatMap_cons, h0, List.filter_append, hfl, ← hnc]; rfl
      · rw [List.flatMap_cons, h0, List.filter_append, hfl, ← hcs]; rfl
    have hgt : (t :: r).filter (fun u => decide ((deconPow u).1 = (deconPow t).1)) =
        t :: r.filter (fun u => decide ((deconPow u).1 = (deconPow t).1)) := by
      rw [List.filter_cons_of_pos (by simp)]
    generalize hhd : r.filter (fun u => decide ((deconPow u).1 = (deconPow t).1)) = hits at h hgt
    have add : ∀ {u : Expr} {nc' cs' : List Expr}, combineProdLoop O C n rest = .ok (nc', cs') →
        grpP O C (t :: r) (deconPow t).1 = .ok (some u) →
        (if u.isAcc = true then (pure (nc', u :: cs') : R _) else pure (u :: nc', cs')) = .ok (nc, cs) →
        ∃ K : List Expr, K.Nodup ∧ (∀ k, k ∈ K ↔ ∃ u ∈ t :: r, (deconPow u).1 = k) ∧
          nc = (K.flatMap fun k => (R.get none (grpP O C (t :: r) k)).toList).filter (fun t => !t.isAcc) ∧
          cs = (K.flatMap fun k => (R.get none (grpP O C (t :: r) k)).toList).filter isAcc := by
      intro u nc' cs' h1 e h2
      obtain ⟨K, a2, a3, a4, a5⟩ := hrec _ h1 e
      refine ⟨K, a2, a3, ?_, ?_⟩
      · rw [← a4]
        split at h2 <;> (have h2 := pure_ok.1 h2; simp only [Prod.mk.injEq] at h2; simp_all)
      · rw [← a5]
        split at h2 <;> (have h2 := pure_ok.1 h2; simp only [Prod.mk.injEq] at h2; simp_all)
    cases hits with
    | nil =>
      rw [if_pos (by rfl)] at h
      obtain ⟨⟨nc', cs'⟩, h1, h2⟩ := bind_ok.1 h
      exact add h1 (by unfold grpP; rw [hgt]) h2
    | cons u us =>
      rw [if_neg (by simp)] at h
      obtain ⟨expo, h0, h⟩ := bind_ok.1 h
      obtain ⟨o, h0', h⟩ := bind_ok.1 h
      obtain ⟨⟨nc', cs'⟩, h1, h2⟩ := bind_ok.1 h
      have e : grpP O C (t :: r) (deconPow t).1 = .ok o := by
        unfold grpP; rw [hgt]
        show (foldAdd C (deconPow t).2 ((u :: us).map fun u => (deconPow u).2) >>= _) = _
        rw [h0]; exact h0'
      cases o with
      | none =>
        obtain ⟨K, a2, a3, a4, a5⟩ := hrec _ h1 e
        have h2 := pure_ok.1 h2
        simp only [Prod.mk.injEq] at h2
        rw [← h2.1, ← h2.2]
        exact ⟨K, a2, a3, a4, a5⟩
      | some v => exact add h1 e h2

/-- the like-factor pass of products on permuted inputs -/
theorem combineProd_perm (hO : O.NoConfusion) {C : Ctors} {fs fs' : List Expr} (hp : fs.Perm fs')
    (hf : ∀ t ∈ fs, NoFlt t) (hr : ∀ t ∈ fs, ∃ q, (deconPow t).2 = rat q)
    (ha : ∀ nc cs, combineProdLoop O C fs.length fs = .ok (nc, cs) → ∀ c ∈ cs, ∃ q, c = rat q)
    {r r' : List Expr} (h : combineProd O C fs = .ok r) (h' : combineProd O C fs' = .ok r') : r.Perm r' := by
  unfold combineProd at h h'
  obtain ⟨⟨nc, cs⟩, h1, h⟩ := bind_ok.1 h
  obtain ⟨⟨nc', cs'⟩, h1', h'⟩ := bind_ok.1 h'
  obtain ⟨K, k1, k2, k3, c1⟩ := combineProdLoop_grp hO _ fs le_rfl hf h1
  obtain ⟨K', k1', k2', k3', c1'⟩ := combineProdLoop_grp hO _ fs' le_rfl (fun t ht => hf t (hp.mem_iff.2 ht)) h1'
  have hK : K.Perm K' := (List.perm_ext_iff_of_nodup k1 k1').2 fun k => by
    rw [k2, k2']
    exact ⟨fun ⟨t, a, b⟩ => ⟨t, hp.mem_iff.1 a, b⟩, fun ⟨t, a, b⟩ => ⟨t, hp.mem_iff.2 a, b⟩⟩
  have hnc : nc.Perm nc' := by
    rw [k3, k3']
    simp only [grpP_perm hp hr]
    exact (hK.flatMap_right _).filter _
  have hcs : cs.Perm cs' := by
    rw [c1, c1']
    simp only [grpP_perm hp hr]
    exact (hK.flatMap_right _).filter _
  have hacc : accumulateProd O cs = accumulateProd O cs' := accumulateProd_perm hcs (ha _ _ h1)
  dsimp only at h h'
  have he : cs.isEmpty = cs'.isEmpty := by
    have := hcs.length_eq
    cases cs <;> cases cs' <;> first | rfl | simp at this
  rw [← hacc, ← he] at h'
  by_cases hc : cs.isEmpty = true
  · rw [if_pos hc] at h h'
    rw [← pure_ok.1 h, ← pure_ok.1 h']; exact hnc
  · rw [if_neg hc] at h h'
    obtain ⟨c, e1, h⟩ := bind_ok.1 h
    obtain ⟨c', e2, h'⟩ := bind_ok.1 h'
    rw [e1] at e2
    cases e2
    by_cases hz : beq O c (rat 0) = true
    · rw [if_pos hz] at h h'; rw [← pure_ok.1 h, ← pure_ok.1 h']
    · rw [if_neg hz] at h h'
      by_cases ho : beq O c (rat 1) = true
      · rw [if_pos ho] at h h'; rw [← pure_ok.1 h, ← pure_ok.1 h']; exact hnc
      · rw [if_neg ho] at h h'; rw [← pure_ok.1 h, ← pure_ok.1 h']; exact hnc.append_right _

mutual
theorem flatS_summand : ∀ {t u : Expr}, u ∈ flatS t → Summand u t ∧ u.isSum = false := by
  intro t u hu
  cases t with
  | sum ts =>
    obtain ⟨t, ht, h⟩ := flatSL_summand (ts := ts) hu
    exact ⟨.term ht h.1, h.2⟩
  | _ => simp only [flatS, List.mem_singleton] at hu; subst hu; exact ⟨.self rfl, rfl⟩
theorem flatSL_summand : ∀ {ts : List Expr} {u : Expr}, u ∈ flatSL ts → ∃ t ∈ ts, Summand u t ∧ u.isSum = false := by
  intro ts u hu
  cases ts with
  | nil => simp [flatSL] at hu
  | cons t r =>
    simp only [flatSL, List.mem_append] at hu
    rcases hu with hu | hu
    · exact ⟨t, List.mem_cons_self .., flatS_summand hu⟩
    · obtain ⟨t', ht, h⟩ := flatSL_summand (ts := r) hu
      exact ⟨t', List.mem_cons_of_mem _ ht, h⟩
end

mutual
theorem flatP_factor : ∀ {t u : Expr}, u ∈ flatP t → Factor u t ∧ u.isProd = false := by
  intro t u hu
  cases t with
  | prod ts =>
    obtain ⟨t, ht, h⟩ := flatPL_factor (ts := ts) hu
    exact ⟨.term ht h.1, h.2⟩
  | _ => simp only [flatP, List.mem_singleton] at hu; subst hu; exact ⟨.self rfl, rfl⟩
theorem flatPL_factor : ∀ {ts : List Expr} {u : Expr}, u ∈ flatPL ts → ∃ t ∈ ts, Factor u t ∧ u.isProd = false := by
  intro ts u hu
  cases ts with
  | nil => simp [flatPL] at hu
  | cons t r =>
    simp only [flatPL, List.mem_append] at hu
    rcases hu with hu | hu
    · exact ⟨t, List.mem_cons_self .., flatP_factor hu⟩
    · obtain ⟨t', ht, h⟩ := flatPL_factor (ts := r) hu
      exact ⟨t', List.mem_cons_of_mem _ ht, h⟩
end

/-! ## nothing nested -/

theorem acc_notSum {c : Expr} (h : c.isAcc = true) : c.isSum = false ∧ c.isProd = false := by
  cases c <;> simp_all [isAcc, isSum, isProd]

theorem likeTerm_flat {coeffs ncf : List Expr} {o : Option Expr} (hn : ∀ us, ncf ≠ [sum us])
    (hc : ∀ c ∈ coeffs, c.isAcc = true) (h : likeTerm O coeffs ncf = .ok o) : ∀ t ∈ o, t.isSum = false := by
  intro t ht
  unfold likeTerm at h
  obtain ⟨c, hcc, h⟩ := bind_ok.1 h
  have ha := acc_notSum (accumulateSum_isAcc hc hcc)
  have mk : ∀ {l : List Expr} {r : Expr}, (∀ us, l ≠ [sum us]) → mkProdSkip l = .ok r → r.isSum = false := by
    intro l r hl h
    match l, hl, h with
    | [], _, h => cases h; rfl
    | [u], hl, h =>
      simp only [mkProdSkip] at h
      split at h
      · cases h
      · cases h
        cases r <;> first | rfl | exact absurd rfl (hl _)
    | a :: b :: r, _, h => cases h; rfl
  split at h
  · cases pure_ok.1 h; cases ht
  · split at h
    · obtain ⟨r, hr, h⟩ := bind_ok.1 h
      have := pure_ok.1 h; subst this
      cases ht
      exact mk hn hr
    · obtain ⟨r, hr, h⟩ := bind_ok.1 h
      have := pure_ok.1 h; subst this
      cases ht
      refine mk ?_ hr
      intro us e
      cases ncf with
      | nil => simp only [List.cons.injEq, and_true] at e; rw [e] at ha; simp [isSum] at ha
      | cons a b => simp at e

theorem combineSumLoop_flat : ∀ (n : Nat) (fs : List Expr), (∀ t ∈ fs, t.isSum = false) →
    (∀ t ∈ fs, ∀ us, nonNumFactors t ≠ [sum us]) →
    ∀ {nc cs : List Expr}, combineSumLoop O n fs = .ok (nc, cs) →
      (∀ t ∈ nc, t.isSum = false) ∧ ∀ c ∈ cs, c.isAcc = true
  | 0, fs, _, _, nc, cs, h => by
    simp only [combineSumLoop, Except.ok.injEq, Prod.mk.injEq] at h
    simp [← h.1, ← h.2]
  | n + 1, [], _, _, nc, cs, h => by
    simp only [combineSumLoop, Except.ok.injEq, Prod.mk.injEq] at h
    simp [← h.1, ← h.2]
  | n + 1, t :: r, hs, hf, nc, cs, h => by
    have hs' : ∀ u ∈ r, u.isSum = false := fun u hu => hs u (List.mem_cons_of_mem _ hu)
    have hf' : ∀ u ∈ r, ∀ us, nonNumFactors u ≠ [sum us] := fun u hu => hf u (List.mem_cons_of_mem _ hu)
    unfold combineSumLoop at h
    split at h
    · next ha =>
      obtain ⟨⟨nc', cs'⟩, h1, h2⟩ := bind_ok.1 h
      have h2 := pure_ok.1 h2
      simp only [Prod.mk.injEq] at h2
      obtain ⟨a, b⟩ := combineSumLoop_flat n r hs' hf' h1
      rw [← h2.1, ← h2.2]
      exact ⟨a, by simpa [ha] using b⟩
    · dsimp only at h
      have ih := @combineSumLoop_flat n (r.filter fun u => !beqL O (deconProd t).2 (deconProd u).2)
        (fun u hu => hs' u (List.mem_of_mem_filter hu)) (fun u hu => hf' u (List.mem_of_mem_filter hu))
      split at h
      · obtain ⟨⟨nc', cs'⟩, h1, h2⟩ := bind_ok.1 h
        have h2 := pure_ok.1 h2
        simp only [Prod.mk.injEq] at h2
        obtain ⟨a, b⟩ := ih h1
        rw [← h2.1, ← h2.2]
        refine ⟨?_, b⟩
        intro u hu
        rcases List.mem_cons.1 hu with rfl | hu
        · exact hs _ (List.mem_cons_self ..)
        · exact a u hu
      · obtain ⟨o, h0, h⟩ := bind_ok.1 h
        obtain ⟨⟨nc', cs'⟩, h1, h2⟩ := bind_ok.1 h
        have h2 := pure_ok.1 h2
        simp only [Prod.mk.injEq] at h2
        obtain ⟨a, b⟩ := ih h1
        rw [← h2.1, ← h2.2]
        refine ⟨?_, b⟩
        have hd1 : ∀ u : Expr, ∀ c ∈ (deconProd u).1, c.isAcc = true := by
          intro u c hc
          cases u with
          | prod ts =>
            simp only [deconProd] at hc
            split at hc
            · simp only [List.mem_singleton] at hc; subst hc; rfl
            · exact (List.mem_filter.1 hc).2
          | _ => simp only [deconProd, List.mem_singleton] at hc; subst hc; rfl
        have := likeTerm_flat (by rw [deconProd_snd]; exact hf t (List.mem_cons_self ..)) (by
          intro c hc
          simp only [List.mem_append, List.mem_flatten, List.mem_map] at hc
          rcases hc with hc | ⟨l, ⟨u, -, rfl⟩, hc⟩
          · exact hd1 _ c hc
          · exact hd1 _ c hc) h0
        intro u hu
        rcases List.mem_append.1 hu with hu | hu
        · exact this u (by simpa using hu)
        · exact a u hu

theorem combineSum_flat {fs r : List Expr} (hs : ∀ t ∈ fs, t.isSum = false)
    (hf : ∀ t ∈ fs, ∀ us, nonNumFactors t ≠ [sum us]) (h : combineSum O fs = .ok r) : ∀ t ∈ r, t.isSum = false := by
  unfold combineSum at h
  obtain ⟨⟨nc, cs⟩, h1, h⟩ := bind_ok.1 h
  obtain ⟨a, b⟩ := combineSumLoop_flat _ fs hs hf h1
  dsimp only at h
  split at h
  · rw [← pure_ok.1 h]; exact a
  · obtain ⟨c, hc, h⟩ := bind_ok.1 h
    split at h
    · rw [← pure_ok.1 h]; exact a
    · rw [← pure_ok.1 h]
      intro u hu
      rcases List.mem_append.1 hu with hu | hu
      · exact a u hu
      · simp only [List.mem_singleton] at hu; subst hu
        exact (acc_notSum (accumulateSum_isAcc b hc)).1

/-- `Power(symbol, number)` is not a product -/
theorem pow_sym_rat (hO : O.NoConfusion) {n : Nat} {s : Str} {q : ℚ} {r : Expr} (h : (ctors O n).pow (sym s) (rat q) = .ok r) :
    r.isProd = false := by
  cases n with
  | zero => simp [ctors] at h
  | succ n =>
    change powCtor O (ctors O n) (sym s) (rat q) = _ at h
    unfold powCtor at h
    split at h
    · cases h; rfl
    · split at h
      · cases h; rfl
      · rw [if_neg (by simp [beq])] at h
        simp only [isAcc, Bool.false_and, Bool.false_eq_true, if_false, powLog, powTail, isSubtraction, powInf, numericBase,
          isNum] at h
        cases h; rfl

theorem combineProdLoop_flat (hO : O.NoConfusion) {m : Nat} : ∀ (n : Nat) (fs : List Expr), (∀ t ∈ fs, t.isProd = false) →
    (fs.Pairwise fun u v => beq O (deconPow v).1 (deconPow u).1 = true →
      (∃ s, (deconPow u).1 = sym s) ∧ (∃ p, (deconPow u).2 = rat p) ∧ ∃ q, (deconPow v).2 = rat q) →
    ∀ {nc cs : List Expr}, combineProdLoop O (ctors O m) n fs = .ok (nc, cs) →
      (∀ t ∈ nc, t.isProd = false) ∧ ∀ c ∈ cs, c.isAcc = true
  | 0, fs, _, _, nc, cs, h => by
    simp only [combineProdLoop, Except.ok.injEq, Prod.mk.injEq] at h
    simp [← h.1, ← h.2]
  | n + 1, [], _, _, nc, cs, h => by
    simp only [combineProdLoop, Except.ok.injEq, Prod.mk.injEq] at h
    simp [← h.1, ← h.2]
  | n + 1, t :: r, hs, hf, nc, cs, h => by
    have hs' : ∀ u ∈ r, u.isProd = false := fun u hu => hs u (List.mem_cons_of_mem _ hu)
    obtain ⟨hft, hfr⟩ := List.pairwise_cons.1 hf
    unfold combineProdLoop at h
    dsimp only at h
    have ih := @combineProdLoop_flat hO m n (r.filter fun u => !beq O (deconPow u).1 (deconPow t).1)
      (fun u hu => hs' u (List.mem_of_mem_filter hu)) (hfr.sublist List.filter_sublist)
    have add : ∀ {u : Expr} {nc' cs' : List Expr}, u.isProd = false →
        ((∀ t ∈ nc', t.isProd = false) ∧ ∀ c ∈ cs', c.isAcc = true) →
        (if u.isAcc = true then (pure (nc', u :: cs') : R _) else pure (u :: nc', cs')) = .ok (nc, cs) →
        (∀ t ∈ nc, t.isProd = false) ∧ ∀ c ∈ cs, c.isAcc = true := by
      intro u nc' cs' hu ⟨a, b⟩ h
      split at h
      · next hacc =>
        have h := pure_ok.1 h
        simp only [Prod.mk.injEq] at h
        rw [← h.1, ← h.2]
        exact ⟨a, by simpa [hacc] using b⟩
      · have h := pure_ok.1 h
        simp only [Prod.mk.injEq] at h
        rw [← h.1, ← h.2]
        exact ⟨by simpa [hu] using a, b⟩
    generalize hh : r.filter (fun u => beq O (deconPow u).1 (deconPow t).1) = hits at h
    have hhm : ∀ u ∈ hits, u ∈ r ∧ beq O (deconPow u).1 (deconPow t).1 = true := by
      intro u hu; rw [← hh] at hu; exact List.mem_filter.1 hu
    cases hits with
    | nil =>
      rw [if_pos (by rfl)] at h
      obtain ⟨⟨nc', cs'⟩, h1, h2⟩ := bind_ok.1 h
      exact add (hs t (List.mem_cons_self ..)) (ih h1) h2
    | cons v vs =>
      rw [if_neg (by simp)] at h
      obtain ⟨expo, h0, h⟩ := bind_ok.1 h
      obtain ⟨o, h0', h⟩ := bind_ok.1 h
      obtain ⟨⟨nc', cs'⟩, h1, h2⟩ := bind_ok.1 h
      have hv := hhm v (List.mem_cons_self ..)
      obtain ⟨⟨s, hsy⟩, ⟨p, hp⟩, -⟩ := hft v hv.1 hv.2
      obtain ⟨qs, hqs⟩ := rats_of (cs := (v :: vs).map fun u => (deconPow u).2) (by
        intro x hx
        obtain ⟨u, hu, rfl⟩ := List.mem_map.1 hx
        exact (hft u (hhm u hu).1 (hhm u hu).2).2.2)
      rw [hqs, hp, foldAdd_rat] at h0
      cases h0
      cases o with
      | none =>
        have h2 := pure_ok.1 h2
        simp only [Prod.mk.injEq] at h2
        rw [← h2.1, ← h2.2]
        exact ih h1
      | some w =>
        refine add ?_ (ih h1) h2
        rw [hsy] at h0'
        unfold likeFactor at h0'
        split at h0'
        · cases h0'
        · split at h0'
          · cases h0'; rfl
          · split at h0'
            · cases h0'
            · next hw => cases h0'; exact pow_sym_rat hO hw

theorem combineProd_flat (hO : O.NoConfusion) {m : Nat} {fs r : List Expr} (hs : ∀ t ∈ fs, t.isProd = false)
    (hf : fs.Pairwise fun u v => beq O (deconPow v).1 (deconPow u).1 = true →
      (∃ s, (deconPow u).1 = sym s) ∧ (∃ p, (deconPow u).2 = rat p) ∧ ∃ q, (deconPow v).2 = rat q)
    (h : combineProd O (ctors O m) fs = .ok r) : ∀ t ∈ r, t.isProd = false := by
  unfold combineProd at h
  obtain ⟨⟨nc, cs⟩, h1, h⟩ := bind_ok.1 h
  obtain ⟨a, b⟩ := combineProdLoop_flat hO _ fs hs hf h1
  dsimp only at h
  split at h
  · rw [← pure_ok.1 h]; exact a
  · obtain ⟨c, hc, h⟩ := bind_ok.1 h
    have hca := (acc_notSum (accumulateProd_isAcc b hc)).2
    split at h
    · rw [← pure_ok.1 h]; simpa using hca
    · split at h
      · rw [← pure_ok.1 h]; exact a
      · rw [← pure_ok.1 h]
        intro u hu
        rcases List.mem_append.1 hu with hu | hu
        · exact a u hu
        · simp only [List.mem_singleton] at hu; subst hu
          exact hca

/-! ## rebuilding -/

theorem perm_filter_append (p : Expr → Bool) (l : List Expr) : (l.filter (fun t => !p t) ++ l.filter p).Perm l := by
  have := List.filter_append_perm (fun t => !p t) l
  simpa using this

theorem combineSumLoop_id : ∀ (n : Nat) (fs : List Expr), fs.length ≤ n →
    (fs.filter fun t => !t.isAcc).Pairwise (fun a b => beqL O (nonNumFactors a) (nonNumFactors b) = false) →
    (∀ t ∈ fs, t.isAcc = false → ∀ c ∈ fs, c.isAcc = true → beqL O (nonNumFactors t) (nonNumFactors c) = false) →
    combineSumLoop O n fs = .ok (fs.filter (fun t => !t.isAcc), fs.filter isAcc)
  | 0, fs, hn, _, _ => by
    have : fs = [] := List.length_eq_zero_iff.1 (by omega)
    subst this; rfl
  | n + 1, [], _, _, _ => rfl
  | n + 1, t :: r, hn, hp, hc => by
    have hn' : r.length ≤ n := by simp at hn; omega
    have hc' : ∀ t ∈ r, t.isAcc = false → ∀ c ∈ r, c.isAcc = true → beqL O (nonNumFactors t) (nonNumFactors c) = false :=
      fun u hu h c hc1 => hc u (List.mem_cons_of_mem _ hu) h c (List.mem_cons_of_mem _ hc1)
    unfold combineSumLoop
    by_cases ha : t.isAcc = true
    · rw [if_pos ha, combineSumLoop_id n r hn' (by simpa [ha] using hp) hc']
      simp [ha, bind, Except.bind, pure, Except.pure]
    · rw [if_neg ha]
      have ha : t.isAcc = false := by simpa using ha
      rw [List.filter_cons_of_pos (by simp [ha])] at hp
      obtain ⟨h1, h2⟩ := List.pairwise_cons.1 hp
      have hb : ∀ u ∈ r, beqL O (nonNumFactors t) (nonNumFactors u) = false := by
        intro u hu
        by_cases hu' : u.isAcc = true
        · exact hc t (List.mem_cons_self ..) ha u (List.mem_cons_of_mem _ hu) hu'
        · exact h1 u (List.mem_filter.2 ⟨hu, by simpa using hu'⟩)
      simp only [deconProd_snd]
      have e1 : r.filter (fun u => beqL O (nonNumFactors t) (nonNumFactors u)) = [] := by
        rw [List.filter_eq_nil_iff]; intro u hu; simp [hb u hu]
      have e2 : r.filter (fun u => !beqL O (nonNumFactors t) (nonNumFactors u)) = r := by
        rw [List.filter_eq_self]; intro u hu; simp [hb u hu]
      rw [e1, e2, if_pos (by rfl), combineSumLoop_id n r hn' h2 hc']
      simp [ha, bind, Except.bind, pure, Except.pure]

theorem flatSL_id {ts : List Expr} (h : ∀ t ∈ ts, t.isSum = false) : flatSL ts = ts := by
  induction ts with
  | nil => rfl
  | cons t r ih =>
    rw [flatSL, ih fun u hu => h u (List.mem_cons_of_mem _ hu)]
    have := h t (List.mem_cons_self ..)
    cases t <;> first | rfl | simp [isSum] at this

theorem flatPL_id {ts : List Expr} (h : ∀ t ∈ ts, t.isProd = false) : flatPL ts = ts := by
  induction ts with
  | nil => rfl
  | cons t r ih =>
    rw [flatPL, ih fun u hu => h u (List.mem_cons_of_mem _ hu)]
    have := h t (List.mem_cons_self ..)
    cases t <;> first | rfl | simp [isProd] at this

theorem combineProdLoop_id {C : Ctors} : ∀ (n : Nat) (fs : List Expr), fs.length ≤ n →
    (fs.Pairwise fun a b => beq O (deconPow b).1 (deconPow a).1 = false) →
    combineProdLoop O C n fs = .ok (fs.filter (fun t => !t.isAcc), fs.filter isAcc)
  | 0, fs, hn, _ => by
    have : fs = [] := List.length_eq_zero_iff.1 (by omega)
    subst this; rfl
  | n + 1, [], _, _ => rfl
  | n + 1, t :: r, hn, hp => by
    have hn' : r.length ≤ n := by simp at hn; omega
    unfold combineProdLoop
    obtain ⟨h1, h2⟩ := List.pairwise_cons.1 hp
    have e1 : r.filter (fun u => beq O (deconPow u).1 (deconPow t).1) = [] := by
      rw [List.filter_eq_nil_iff]; intro u hu; simp [h1 u hu]
    have e2 : r.filter (fun u => !beq O (deconPow u).1 (deconPow t).1) = r := by
      rw [List.filter_eq_self]; intro u hu; simp [h1 u hu]
    dsimp only
    rw [e1, e2, if_pos (by rfl), combineProdLoop_id n r hn' h2]
    by_cases ha : t.isAcc = true
    · simp [ha, bind, Except.bind, pure, Except.pure]
    · simp [ha, bind, Except.bind, pure, Except.pure]

end Simpy
