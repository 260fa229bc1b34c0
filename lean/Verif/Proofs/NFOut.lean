import Verif.Proofs.NFExpand
import Mathlib.Algebra.MvPolynomial.Funext

/-! # Lemmas: the normal form is multiplied out, and it determines the values -/

namespace Simpy
namespace NF
open Expr Lin Mono1

variable {O : Oracle}

theorem symPower_vp (s : Str) {k : ℕ} (h : 1 ≤ k) : SymPower s (vp s k) := by
  rcases vp_cases s k with ⟨_, e⟩ | ⟨h1, e⟩ <;> rw [e]
  · exact .one s
  · exact .power s k (by omega)

theorem powerProduct_fs (d : Str →₀ ℕ) : PowerProduct (fs O d) := by
  have hp : (fs O d).Perm (d.support.toList.map fun s => vp s (d s)) := sorted_perm _
  obtain ⟨k, hk, e⟩ := perm_map hp
  refine ⟨k, (hk.nodup_iff).2 (Finset.nodup_toList _), ?_⟩
  rw [e]
  have hs : ∀ s ∈ k, 1 ≤ d s := by
    intro s hs
    have := hk.mem_iff.1 hs
    simp at this; omega
  clear e hp hk
  induction k with
  | nil => exact .nil
  | cons a r ih => exact .cons (symPower_vp a (hs a (by simp))) (ih fun s h => hs s (by simp [h]))

theorem polyTerm_mono (c : ℚ) (d : Str →₀ ℕ) : PolyTerm (mono O c d) := by
  by_cases h0 : c = 0
  · subst h0; rw [mono_zero]; exact .num 0
  by_cases d0 : d = 0
  · subst d0; rw [mono_const]; exact .num c
  have hf := powerProduct_fs (O := O) d
  rw [mono, if_neg h0, if_neg d0]
  split
  · match h : fs O d, fs_ne (O := O) d0 with
    | [f], _ =>
      obtain ⟨s, hs, rfl⟩ := mem_fs.1 (show f ∈ fs O d by simp [h])
      exact .power (symPower_vp s hs)
    | a :: b :: r, _ =>
      rw [h] at hf
      exact .prod (by simp) hf
  · rename_i h1
    exact .scaled h0 h1 (fs_ne d0) hf

theorem nonNum_mono {c : ℚ} {d : Str →₀ ℕ} (h0 : c ≠ 0) (hd : d ≠ 0) : nonNumFactors (mono O c d) = fs O d := by
  obtain ⟨f1, f2⟩ := filter_acc (O := O) d
  rw [mono, if_neg h0, if_neg hd]
  split
  · match hf : fs O d, fs_ne (O := O) hd with
    | [f], _ =>
      obtain ⟨s, k, rfl⟩ := fs_vp f (show f ∈ fs O d by simp [hf])
      rw [one]
      rcases vp_cases s k with ⟨_, h⟩ | ⟨_, h⟩ <;> rw [h] <;> rfl
    | a :: b :: r, _ =>
      rw [hf] at f2
      exact f2
  · have : (rat c).isAcc = true := rfl
    simp [nonNumFactors, List.filter_cons, this, f2]

theorem unlike_mono (hO : O.Exact) {a b : ℚ} {d e : Str →₀ ℕ} (ha : a ≠ 0) (hb : b ≠ 0) (h : d ≠ e) : Unlike O (mono O a d) (mono O b e) := by
  rintro ⟨h1, h2⟩
  have key : ∀ {q : ℚ} {d : Str →₀ ℕ}, d ≠ 0 → beqL O (fs O d) [rat q] ≠ true := by
    intro q d hd
    match hf : fs O d, fs_ne (O := O) hd with
    | a :: r, _ =>
      obtain ⟨s, k, rfl⟩ := fs_vp a (show a ∈ fs O d by simp [hf])
      rcases vp_cases s k with ⟨_, h⟩ | ⟨_, h⟩ <;> rw [h] <;> simp [beqL, beq]
  by_cases hd : d = 0
  · subst hd
    rw [mono_const, nonNum_mono hb h.symm] at h2
    exact key h.symm h2
  by_cases he : e = 0
  · subst he
    rw [mono_const, nonNum_mono ha h] at h1
    exact key h h1
  rw [nonNum_mono ha hd, nonNum_mono hb he] at h1
  exact h (fs_dinj (beqL_eq hO.isPi hO.isE _ _ (fs_noFlt d) (fs_noFlt e) h1))

theorem mono_ne_zero {c : ℚ} (d : Str →₀ ℕ) (h0 : c ≠ 0) : mono O c d ≠ rat 0 := by
  intro h
  have := mono_lc (O := O) c d
  rw [h] at this
  simp [flatP] at this
  exact h0 this.symm

theorem out_polyE (hO : O.Exact) (p : MvPolynomial Str ℚ) : MultipliedOut O (polyE O p) := by
  rcases polyE_cases (O := O) p with ⟨c, d, rfl⟩ | ⟨h, hlen⟩
  · rw [polyE_mono]; exact .term (polyTerm_mono c d)
  · obtain ⟨l, h1, h2, h3, h4⟩ := terms_list (O := O) p
    have hl : (monos O l).length = (terms O p).length := by
      rw [← h1, List.length_reverse, (sorted_perm _).length_eq]
    rw [h, h1]
    have hpw : l.Pairwise fun a b => a.2 ≠ b.2 := by
      rw [List.Nodup, List.pairwise_map] at h4; exact h4
    refine .sum (by rw [hl]; exact hlen) ?_ ?_ ?_
    · intro t ht
      obtain ⟨q, hq, rfl⟩ := List.mem_map.1 ht
      exact ⟨polyTerm_mono _ _, mono_ne_zero _ (h3 q hq).2⟩
    · rw [monos, List.pairwise_map]
      exact hpw.imp_of_mem fun ha hb hab => unlike_mono hO (h3 _ ha).2 (h3 _ hb).2 hab
    · have : (monos O l).filter isAcc = monos O (l.filter fun q => decide (q.2 = 0)) := by
        refine filter_monos fun q hq => ?_
        by_cases h0 : q.2 = 0
        · rw [h0, mono_const]; simp [isAcc]
        · rw [acc_mono (h3 q hq).2 h0]; simp [h0]
      rw [this, monos, List.length_map]
      have hs := hpw.sublist (List.filter_sublist (p := fun q : ℚ × (Str →₀ ℕ) => decide (q.2 = 0)))
      match hf : l.filter (fun q : ℚ × (Str →₀ ℕ) => decide (q.2 = 0)), hs with
      | [], _ => simp
      | [_], _ => simp
      | a :: b :: r, hs =>
        exfalso
        have ha : a ∈ l.filter (fun q : ℚ × (Str →₀ ℕ) => decide (q.2 = 0)) := by rw [hf]; simp
        have hb : b ∈ l.filter (fun q : ℚ × (Str →₀ ℕ) => decide (q.2 = 0)) := by rw [hf]; simp
        simp only [List.mem_filter, decide_eq_true_eq] at ha hb
        exact (List.pairwise_cons.1 hs).1 b (by simp) (ha.2.trans hb.2.symm)

/-- The value of the polynomial. -/
noncomputable def ev (ρ : Str → ℝ) (p : MvPolynomial Str ℚ) : ℝ := MvPolynomial.eval₂ (algebraMap ℚ ℝ) ρ p

theorem den_toMv (ρ : Str → ℝ) {e : Expr} (h : PolyExpr O e) : den ρ e = ev ρ (toMv e) := by
  unfold ev
  induction h with
  | rat q => rw [toMv_rat, MvPolynomial.eval₂_C]; simp [den]
  | sym s hs => rw [toMv_sym, MvPolynomial.eval₂_X]; simp [den]
  | @sum n ts _ _ ih =>
    rw [toMv_sum, den_sum, ← MvPolynomial.coe_eval₂Hom, map_list_sum, List.map_map]
    exact congrArg List.sum (List.map_congr_left fun t ht => by simpa using ih t ht)
  | @prod n ts _ _ _ ih =>
    rw [toMv_prod, den_prod, ← MvPolynomial.coe_eval₂Hom, map_list_prod, List.map_map]
    exact congrArg List.prod (List.map_congr_left fun t ht => by simpa using ih t ht)
  | @pow n b k _ _ _ _ ih =>
    rw [toMv_pow, MvPolynomial.eval₂_pow, ← ih]
    have := pw_int (den ρ b) k
    simpa [den] using this

theorem ev_polyE (ρ : Str → ℝ) (p : MvPolynomial Str ℚ) : den ρ (polyE O p) = ev ρ p := by
  have hm : ∀ (c : ℚ) (d : Str →₀ ℕ), den ρ (mono O c d) = ev ρ (MvPolynomial.monomial d c) := by
    intro c d
    rw [den_mono, ev, MvPolynomial.eval₂_monomial, mval]; simp
  rcases polyE_cases (O := O) p with ⟨c, d, rfl⟩ | ⟨h, hlen⟩
  · rw [polyE_mono, hm]
  · obtain ⟨l, h1, h2, _⟩ := terms_list (O := O) p
    rw [h, h1, den_sum, ← h2, pol, ev, ← MvPolynomial.coe_eval₂Hom, map_list_sum, monos, List.map_map, List.map_map]
    exact congrArg List.sum (List.map_congr_left fun q hq => by simpa [ev] using hm q.1 q.2)

theorem ev_inj {p q : MvPolynomial Str ℚ} (h : ∀ ρ, ev ρ p = ev ρ q) : p = q := by
  have : MvPolynomial.map (algebraMap ℚ ℝ) p = MvPolynomial.map (algebraMap ℚ ℝ) q := by
    refine MvPolynomial.funext fun ρ => ?_
    rw [MvPolynomial.eval_map, MvPolynomial.eval_map]; exact h ρ
  exact MvPolynomial.map_injective _ (algebraMap ℚ ℝ).injective this

end NF
end Simpy
