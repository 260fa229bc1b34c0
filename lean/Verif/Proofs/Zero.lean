import Verif.Proofs.PowSound2

/-! A product with a literal 0 factor is literally 0 (where the other factors are strictly defined); a sum of 0s is 0. -/

namespace Simpy
open Expr

theorem pow_zero_base {O : Oracle} : ∀ (n : Nat) (m : ℤ) {r : Expr}, 1 ≤ m →
    (ctors O n).pow (rat 0) (rat m) = .ok r → r = rat 0
  | 0, m, r, _, h => by simp [ctors] at h
  | n + 1, m, r, hm, h => by
    have h' : powCtor O (ctors O n) (rat 0) (rat m) = .ok r := h
    have h1 : ¬ ((m : ℚ) = 0) := by norm_cast; omega
    have hp : (0 : ℚ) < m := by exact_mod_cast (by omega : 0 < m)
    simp only [powCtor, beq_rat_iff, h1, if_false, isAcc, Bool.and_self, if_true, accumulatePower, accumulatePowerRat,
      gt_iff_lt, hp] at h'
    split at h'
    · simpa using h'.symm
    · split at h'
      · next h2 => norm_num at h2
      · simpa using h'.symm

theorem foldAdd_zero {C : Ctors} {ρ : Str → ℝ} : ∀ (xs : List Expr) (x z : Expr),
    StoredPow true ρ (rat 0) x → (∀ y ∈ xs, StoredPow true ρ (rat 0) y) → foldAdd C x xs = .ok z →
    ∃ m : ℤ, 1 ≤ m ∧ z = rat m
  | [], x, z, hx, _, h => by
    simp only [foldAdd, Except.ok.injEq] at h
    subst h
    obtain ⟨h1, h2⟩ := (hx.2.2.2.2 rfl).resolve_left (by simp)
    obtain ⟨m, rfl⟩ := intExp_iff.1 h1
    exact ⟨m, by exact_mod_cast (by simpa using h2 : (1 : ℝ) ≤ m), rfl⟩
  | y :: r, x, z, hx, hy, h => by
    obtain ⟨h1, h2⟩ := (hx.2.2.2.2 rfl).resolve_left (by simp)
    obtain ⟨m, rfl⟩ := intExp_iff.1 h1
    have hy' := hy y (by simp)
    obtain ⟨h3, h4⟩ := (hy'.2.2.2.2 rfl).resolve_left (by simp)
    obtain ⟨k, rfl⟩ := intExp_iff.1 h3
    simp only [foldAdd, opAdd] at h
    have h2' : (1 : ℤ) ≤ m := by exact_mod_cast (by simpa using h2 : (1 : ℝ) ≤ m)
    have h4' : (1 : ℤ) ≤ k := by exact_mod_cast (by simpa using h4 : (1 : ℝ) ≤ k)
    refine foldAdd_zero r _ z ?_ (fun u hu => hy u (by simp [hu])) h
    have e : ((m : ℚ) + k) = ((m + k : ℤ) : ℚ) := by push_cast; ring
    rw [e]
    have h5 : (1 : ℝ) ≤ ((m + k : ℤ) : ℝ) := by exact_mod_cast (by omega : 1 ≤ m + k)
    refine ⟨by simp, by simp, .inr ?_, ?_, fun _ => .inr ⟨intExp_iff.2 ⟨_, rfl⟩, ?_⟩⟩
    · simp only [den_rat, Rat.cast_intCast]; linarith
    · intro h'; rw [intExp_iff.2 ⟨_, rfl⟩] at h'; simp at h'
    · simpa only [den_rat, Rat.cast_intCast] using h5

theorem combineProdLoop_zero {O : Oracle} (hO : O.Exact) {k : Nat} {ρ : Str → ℝ} :
    ∀ (n : Nat) (ts nc cs : List Expr), ts.length ≤ n → (∀ t ∈ ts, DomS true ρ t) → rat 0 ∈ ts →
    combineProdLoop O (ctors O k) n ts = .ok (nc, cs) → rat 0 ∈ cs
  | 0, ts, nc, cs, hl, _, hz, h => by
    have : ts = [] := List.length_eq_zero_iff.1 (Nat.le_zero.1 hl)
    simp [this] at hz
  | n + 1, [], nc, cs, _, _, hz, h => by simp at hz
  | n + 1, t :: r, nc, cs, hl, hD, hz, h => by
    have hlr : r.length ≤ n := by simpa using hl
    have hDr : ∀ t ∈ r, DomS true ρ t := fun t ht => hD t (by simp [ht])
    have hDt := hD t (by simp)
    simp only [combineProdLoop] at h
    have hlf : (r.filter (fun u => !beq O (deconPow u).1 (deconPow t).1)).length ≤ n :=
      (List.length_filter_le _ _).trans hlr
    have hDf : ∀ u ∈ r.filter (fun u => !beq O (deconPow u).1 (deconPow t).1), DomS true ρ u :=
      fun u hu => hDr u (List.mem_filter.1 hu).1
    by_cases hb : (deconPow t).1 = rat 0
    · split at h
      · next hemp =>
        have hemp' : r.filter (fun u => beq O (deconPow u).1 (deconPow t).1) = [] := by simpa using hemp
        have ht : t = rat 0 := by
          rcases List.mem_cons.1 hz with h0 | h0
          · exact h0.symm
          · have : rat 0 ∈ r.filter (fun u => beq O (deconPow u).1 (deconPow t).1) :=
              List.mem_filter.2 ⟨h0, by rw [hb]; simp [deconPow, beq]⟩
            rw [hemp'] at this; simp at this
        obtain ⟨⟨nc', cs'⟩, h1, h⟩ := bind_ok.1 h
        simp only [ht, isAcc, if_true, pure_ok, Prod.mk.injEq] at h
        rw [← h.2]; simp
      · obtain ⟨z, hf, h⟩ := bind_ok.1 h
        obtain ⟨o, ho, h⟩ := bind_ok.1 h
        obtain ⟨⟨nc', cs'⟩, h1, h⟩ := bind_ok.1 h
        have hs := (deconPow_V hDt).1
        rw [hb] at hs
        obtain ⟨m, hm, rfl⟩ := foldAdd_zero (ρ := ρ) _ _ z hs (by
          intro y hy
          obtain ⟨u, hu, rfl⟩ := List.mem_map.1 hy
          obtain ⟨hu1, hu2⟩ := List.mem_filter.1 hu
          have hsu := (deconPow_V (hDr u hu1)).1
          have e := Exact.beq_eq hO hsu.1 (deconPow_V hDt).1.1 hu2
          rw [e, hb] at hsu
          exact hsu) hf
        rw [hb] at ho
        have hm0 : ¬ (m : ℚ) = 0 := by norm_cast; omega
        unfold likeFactor at ho
        simp only [beq_rat_iff, hm0, if_false] at ho
        have ho' : o = some (rat 0) := by
          split at ho
          · simpa using ho.symm
          · split at ho
            · simp at ho
            · next t' ht' =>
              simp only [Except.ok.injEq] at ho
              rw [← ho, pow_zero_base k m hm ht']
        subst ho'
        simp only [isAcc, if_true, pure_ok, Prod.mk.injEq] at h
        rw [← h.2]; simp
    · have hbt : beq O (rat 0) (deconPow t).1 = false := by
        by_contra hc
        have := Exact.beq_eq hO (Dom_rat ρ 0) (deconPow_V hDt).1.1 (by simpa using hc)
        exact hb this.symm
      have ht0 : t ≠ rat 0 := by rintro rfl; simp [deconPow] at hb
      have hz' : rat 0 ∈ r.filter (fun u => !beq O (deconPow u).1 (deconPow t).1) :=
        List.mem_filter.2 ⟨(List.mem_cons.1 hz).resolve_left (Ne.symm ht0), by
          have e : (deconPow (rat 0)).1 = rat 0 := rfl
          rw [e, hbt]; rfl⟩
      split at h
      · obtain ⟨⟨nc', cs'⟩, h1, h⟩ := bind_ok.1 h
        have ih := combineProdLoop_zero hO n _ nc' cs' hlf hDf hz' h1
        dsimp only at h
        split at h <;> simp only [pure_ok, Prod.mk.injEq] at h <;> rw [← h.2]
        · exact List.mem_cons_of_mem _ ih
        · exact ih
      · obtain ⟨z, hf, h⟩ := bind_ok.1 h
        obtain ⟨o, ho, h⟩ := bind_ok.1 h
        obtain ⟨⟨nc', cs'⟩, h1, h⟩ := bind_ok.1 h
        have ih := combineProdLoop_zero hO n _ nc' cs' hlf hDf hz' h1
        cases o with
        | none => simp only [pure_ok, Prod.mk.injEq] at h; rw [← h.2]; exact ih
        | some t' =>
          dsimp only at h
          split at h <;> simp only [pure_ok, Prod.mk.injEq] at h <;> rw [← h.2]
          · exact List.mem_cons_of_mem _ ih
          · exact ih

theorem prod_zero {O : Oracle} (hO : O.Exact) : ∀ (n : Nat) {ρ : Str → ℝ} {ts : List Expr} {r : Expr},
    (∀ t ∈ ts, WF t) → (∀ t ∈ ts, DomS true ρ t) → rat 0 ∈ ts → (ctors O n).prod ts = .ok r → r = rat 0
  | 0, _, _, _, _, _, _, h => by simp [ctors] at h
  | n + 1, ρ, ts, r, hW, hD, hz, h => by
    have h' : prodCtor O (ctors O n) ts = .ok r := h
    obtain ⟨fs, hf, h'⟩ := bind_ok.1 h'
    have hDf := (flatPL_val (s := true) (ρ := ρ) ts).2 hD
    have hWf := flatPL_WF ts ((WFL_iff ts).2 hW)
    have hzf : rat 0 ∈ flatPL ts := by
      rw [flatPL_eq]; exact List.mem_flatMap.2 ⟨_, hz, by simp [flatP]⟩
    simp only [combineProd, bind_ok] at hf
    obtain ⟨⟨nc, cs⟩, hl, hf⟩ := hf
    have h0 := combineProdLoop_zero hO _ _ nc cs le_rfl hDf hzf hl
    obtain ⟨_, w3⟩ := combineProdLoop_W (ctors_sound hO n) _ _ nc cs hWf hl
    obtain ⟨_, _, e3⟩ := combineProdLoop_V hO (ctors_sound hO n) _ _ nc cs le_rfl hWf hDf hl
    obtain ⟨qs, rfl⟩ := all_rat (denInterp (s := true) ρ) e3 w3
    have hq : qs.prod = 0 := by
      apply List.prod_eq_zero
      simpa using h0
    dsimp only at hf
    split at hf
    · next he => simp at he; subst he; simp at h0
    · rw [accumulateProd_rat, hq] at hf
      simp only [bind_ok, Except.ok.injEq, exists_eq_left', beq_rat_iff, if_true, pure_ok] at hf
      subst hf
      exact (pure_ok.1 h').symm

theorem combineSumLoop_zero {O : Oracle} : ∀ (n : Nat) (ts nc cs : List Expr), (∀ t ∈ ts, t = rat 0) →
    combineSumLoop O n ts = .ok (nc, cs) → nc = [] ∧ ∀ c ∈ cs, c = rat 0
  | 0, ts, nc, cs, _, h => by
    simp only [combineSumLoop, Except.ok.injEq, Prod.mk.injEq] at h
    simp [← h.1, ← h.2]
  | n + 1, [], nc, cs, _, h => by
    simp only [combineSumLoop, Except.ok.injEq, Prod.mk.injEq] at h
    simp [← h.1, ← h.2]
  | n + 1, t :: r, nc, cs, ht, h => by
    obtain rfl := ht t (by simp)
    simp only [combineSumLoop, isAcc, if_true] at h
    obtain ⟨⟨nc', cs'⟩, h1, h⟩ := bind_ok.1 h
    obtain ⟨a, b⟩ := combineSumLoop_zero n r nc' cs' (fun t h => ht t (by simp [h])) h1
    simp only [pure_ok, Prod.mk.injEq] at h
    subst a
    rw [← h.1, ← h.2]
    refine ⟨rfl, ?_⟩
    intro c hc
    rcases List.mem_cons.1 hc with rfl | hc
    · rfl
    · exact b c hc

theorem sum_zero {O : Oracle} : ∀ (n : Nat) {ts : List Expr} {r : Expr}, (∀ t ∈ ts, t = rat 0) →
    (ctors O n).sum ts = .ok r → r = rat 0
  | 0, _, _, _, h => by simp [ctors] at h
  | n + 1, ts, r, ht, h => by
    have h' : sumCtor O (ctors O n) ts = .ok r := h
    have hf : flatSL ts = ts := by
      rw [flatSL_eq]
      clear h h'
      induction ts with
      | nil => rfl
      | cons a l ih =>
        obtain rfl := ht a (by simp)
        rw [List.flatMap_cons, ih (fun t h => ht t (by simp [h]))]
        rfl
    unfold sumCtor at h'
    rw [hf] at h'
    obtain ⟨fs, hfs, h'⟩ := bind_ok.1 h'
    simp only [combineSum, bind_ok] at hfs
    obtain ⟨⟨nc, cs⟩, hl, hfs⟩ := hfs
    obtain ⟨rfl, hc⟩ := combineSumLoop_zero _ _ nc cs ht hl
    have hcs : cs = (List.replicate cs.length (0 : ℚ)).map rat := by
      rw [List.map_replicate]; exact List.eq_replicate_iff.2 ⟨rfl, hc⟩
    have hfs' : fs = [] := by
      dsimp only at hfs
      split at hfs
      · exact (pure_ok.1 hfs).symm
      · rw [hcs, accumulateSum_rat] at hfs
        simp only [List.sum_replicate, smul_zero, bind_ok, Except.ok.injEq, exists_eq_left', beq_rat_iff, if_true,
          pure_ok] at hfs
        exact hfs.symm
    subst hfs'
    exact (pure_ok.1 h').symm

theorem opMul_zero {O : Oracle} (hO : O.Exact) {n : Nat} {ρ : Str → ℝ} {m r : Expr} (wm : WF m) (dm : DomS true ρ m)
    (h : opMul (ctors O n) m (rat 0) = .ok r) : r = rat 0 := by
  unfold opMul at h
  split at h
  · next p q he => injection he with he; simp [← he] at h; exact h.symm
  · exact prod_zero hO n (ρ := ρ) (by simp [wm]) (by simp [dm]) (by simp) h

theorem opDiv_zero {O : Oracle} (hO : O.Exact) {n : Nat} {ρ : Str → ℝ} {m r : Expr} (wm : WF m) (dm : DomS true ρ m)
    (hm : den ρ m ≠ 0) (h : opDiv (ctors O n) (rat 0) m = .ok r) : r = rat 0 := by
  have gen : (do
      let i ← (ctors O n).pow m (rat (-1))
      (ctors O n).prod [rat 0, i]) = .ok r → r = rat 0 := by
    intro h
    obtain ⟨i, hi, h⟩ := bind_ok.1 h
    have hC := ctors_sound hO n
    have := hC.pow (s := true) ρ m (rat (-1)) i wm (by simp) (PowDom_neg_one dm hm) hi
    exact prod_zero hO n (ρ := ρ) (by simp [hC.powW _ _ _ wm (by simp) hi]) (by simp [this.2]) (by simp) h
  unfold opDiv at h
  split at h
  · next p q he =>
    injection he with he
    split at h
    · simp [← he] at h; exact h.symm
    · subst he; exact gen h
  · exact gen h

end Simpy
