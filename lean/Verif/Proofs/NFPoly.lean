import Verif.Proofs.NFSum

/-! # Lemmas: polynomials in normal form -/

namespace Simpy
namespace NF
open Expr Lin Mono1

variable {O : Oracle}

theorem sorted_one (a : Expr) : sorted O [a] = [a] := (sorted_perm [a]).eq_singleton

theorem polyE_mono (c : ℚ) (d : Str →₀ ℕ) : polyE O (MvPolynomial.monomial d c) = mono O c d := by
  classical
  unfold polyE terms
  by_cases h : c = 0
  · subst h
    have : sorted O [] = [] := (sorted_perm []).eq_nil
    simp [mono_zero, this, oneS]
  · rw [MvPolynomial.support_monomial, if_neg h]
    simp [sorted_one, oneS, MvPolynomial.coeff_monomial]

theorem polyE_C (c : ℚ) : polyE O (MvPolynomial.C c) = rat c := by
  rw [MvPolynomial.C_apply, polyE_mono, mono_const]

/-- A single term, or a sum. -/
theorem polyE_cases (p : MvPolynomial Str ℚ) : (∃ c d, p = MvPolynomial.monomial d c) ∨
    (polyE O p = sum (sorted O (terms O p)).reverse ∧ 2 ≤ (terms O p).length) := by
  match h : p.support.toList with
  | [] =>
    have : p = 0 := by
      rw [← MvPolynomial.support_eq_empty]; exact Finset.toList_eq_nil.1 h
    exact .inl ⟨0, 0, by simp [this]⟩
  | [d] =>
    left
    refine ⟨p.coeff d, d, ?_⟩
    have hs : p.support = {d} := by
      ext x; rw [← Finset.mem_toList, h]; simp
    have := MvPolynomial.support_sum_monomial_coeff p
    rw [hs, Finset.sum_singleton] at this
    exact this.symm
  | a :: b :: r =>
    right
    have hl : (terms O p).length = (a :: b :: r).length := by rw [terms, h]; simp
    refine ⟨?_, by rw [hl]; simp⟩
    have hlen := (sorted_perm (O := O) (terms O p)).length_eq.trans hl
    unfold polyE
    match hs : sorted O (terms O p), hlen with
    | [], hlen => simp at hlen
    | [_], hlen => simp at hlen
    | _ :: _ :: _, _ => rfl

theorem mem_terms {p : MvPolynomial Str ℚ} {t : Expr} (h : t ∈ terms O p) : ∃ d, p.coeff d ≠ 0 ∧ t = mono O (p.coeff d) d := by
  obtain ⟨d, hd, rfl⟩ := List.mem_map.1 h
  rw [Finset.mem_toList, MvPolynomial.mem_support_iff] at hd
  exact ⟨d, hd, rfl⟩

theorem perm_map {α β : Type} {f : α → β} : ∀ {l : List β} {m : List α}, l.Perm (m.map f) → ∃ k : List α, k.Perm m ∧ l = k.map f
  | [], m, h => by
    have : m.map f = [] := h.symm.eq_nil
    have : m = [] := by simpa using this
    exact ⟨[], by rw [this], rfl⟩
  | a :: l, m, h => by
    classical
    obtain ⟨x, hx, rfl⟩ := List.mem_map.1 (h.mem_iff.1 (List.mem_cons_self ..))
    have hm := List.perm_cons_erase hx
    have h2 := h.trans (hm.map f)
    rw [List.map_cons] at h2
    obtain ⟨k, h3, h4⟩ := perm_map (List.Perm.cons_inv h2)
    exact ⟨x :: k, (h3.cons x).trans hm.symm, by rw [h4]; rfl⟩

/-- The coefficients and exponents in the order in which they are written. -/
theorem terms_list (p : MvPolynomial Str ℚ) : ∃ l : List (ℚ × (Str →₀ ℕ)), (sorted O (terms O p)).reverse = monos O l ∧ pol l = p ∧
    (∀ q ∈ l, q.1 = p.coeff q.2 ∧ q.1 ≠ 0) ∧ (l.map Prod.snd).Nodup := by
  have hp : ((sorted O (terms O p)).reverse).Perm ((p.support.toList.map fun d => (p.coeff d, d)).map fun q => mono O q.1 q.2) := by
    refine (List.reverse_perm _).trans ((sorted_perm _).trans ?_)
    rw [List.map_map]; exact List.Perm.refl _
  obtain ⟨l, hl, he⟩ := perm_map hp
  refine ⟨l, he, ?_, fun q hq => ?_, ?_⟩
  · have h1 : pol l = pol (p.support.toList.map fun d => (p.coeff d, d)) := (hl.map _).sum_eq
    rw [h1, pol, List.map_map]
    have h2 := Finset.sum_map_toList p.support fun d => MvPolynomial.monomial d (p.coeff d)
    rw [MvPolynomial.support_sum_monomial_coeff] at h2
    exact h2
  · obtain ⟨d, hd, rfl⟩ := List.mem_map.1 (hl.mem_iff.1 hq)
    rw [Finset.mem_toList, MvPolynomial.mem_support_iff] at hd
    exact ⟨rfl, hd⟩
  · refine (hl.map Prod.snd).nodup_iff.2 ?_
    rw [List.map_map]
    have : (Prod.snd ∘ fun d => (p.coeff d, d)) = id := rfl
    rw [this, List.map_id]
    exact Finset.nodup_toList _

theorem flatSL_monos (l : List (ℚ × (Str →₀ ℕ))) : flatSL (monos O l) = monos O l := by
  induction l with
  | nil => rfl
  | cons p r ih =>
    show flatS (mono O p.1 p.2) ++ flatSL (monos O r) = mono O p.1 p.2 :: monos O r
    rw [flatS_mono, ih]; rfl

/-- The summands. -/
theorem flatS_polyE (p : MvPolynomial Str ℚ) : ∃ l : List (ℚ × (Str →₀ ℕ)), flatS (polyE O p) = monos O l ∧ pol l = p ∧ (Good p → ∀ q ∈ l, GoodD q.2) := by
  rcases polyE_cases (O := O) p with ⟨c, d, rfl⟩ | ⟨h, _⟩
  · by_cases h0 : c = 0
    · subst h0
      exact ⟨[(0, 0)], by rw [polyE_mono, mono_zero]; simp [monos, mono_zero, flatS], by simp [pol], fun _ q hq => by simp at hq; subst hq; intro s hs; simp at hs⟩
    · refine ⟨[(c, d)], by simp [polyE_mono, flatS_mono, monos], by simp [pol], fun hg q hq => ?_⟩
      simp at hq; subst hq
      exact hg d (by rw [MvPolynomial.mem_support_iff, MvPolynomial.coeff_monomial, if_pos rfl]; exact h0)
  · obtain ⟨l, h1, h2, h3, _⟩ := terms_list (O := O) p
    refine ⟨l, ?_, h2, fun hg q hq => ?_⟩
    · rw [h, flatS, h1, flatSL_monos]
    · obtain ⟨e1, e2⟩ := h3 q hq
      exact hg q.2 (by rw [MvPolynomial.mem_support_iff, ← e1]; exact e2)

/-- Sums of polynomials. -/
theorem sum_polys (hO : O.Exact) (n : Nat) (ps : List (MvPolynomial Str ℚ)) (hg : ∀ p ∈ ps, Good p) :
    (ctors O (n + 6)).sum (ps.map (polyE O)) = .ok (polyE O ps.sum) := by
  have : ∃ l : List (ℚ × (Str →₀ ℕ)), flatSL (ps.map (polyE O)) = monos O l ∧ pol l = ps.sum ∧ ∀ q ∈ l, GoodD q.2 := by
    induction ps with
    | nil => exact ⟨[], rfl, by simp [pol], by simp⟩
    | cons p r ih =>
      obtain ⟨l, h1, h2, h3⟩ := ih fun q hq => hg q (by simp [hq])
      obtain ⟨k, g1, g2, g3⟩ := flatS_polyE (O := O) p
      refine ⟨k ++ l, ?_, by rw [pol_append, g2, h2, List.sum_cons], fun q hq => ?_⟩
      · rw [List.map_cons, flatSL, g1, h1]; simp [monos]
      · rcases List.mem_append.1 hq with hq | hq
        · exact g3 (hg p (by simp)) q hq
        · exact h3 q hq
  obtain ⟨l, h1, h2, h3⟩ := this
  rw [← h2]
  exact sum_monos hO n l h3 h1

theorem monos_polys (l : List (ℚ × (Str →₀ ℕ))) : monos O l = (l.map fun q => MvPolynomial.monomial q.2 q.1).map (polyE O) := by
  rw [monos, List.map_map]
  exact List.map_congr_left fun q _ => (polyE_mono q.1 q.2).symm

theorem good_mono {c : ℚ} {d : Str →₀ ℕ} (h : GoodD d) : Good (MvPolynomial.monomial d c) := by
  classical
  intro e he
  rw [MvPolynomial.mem_support_iff, MvPolynomial.coeff_monomial] at he
  by_cases h' : d = e
  · rw [← h']; exact h
  · rw [if_neg h'] at he; exact absurd rfl he

theorem good_of_mono {c : ℚ} (hc : c ≠ 0) {d : Str →₀ ℕ} (h : Good (MvPolynomial.monomial d c)) : GoodD d :=
  h d (by rw [MvPolynomial.mem_support_iff, MvPolynomial.coeff_monomial, if_pos rfl]; exact hc)

theorem good_neg {p : MvPolynomial Str ℚ} (h : Good p) : Good (-p) := fun d hd => h d (by simpa using hd)

theorem opNegL_monos (n : Nat) (l : List (ℚ × (Str →₀ ℕ))) : opNegL (ctors O (n + 3)) (monos O l) = .ok (monos O (l.map fun q => (-q.1, q.2))) := by
  induction l with
  | nil => rfl
  | cons p r ih =>
    show opNegL (ctors O (n + 3)) (mono O p.1 p.2 :: monos O r) = _
    rw [opNegL, neg_monoE, ih]; rfl

theorem pol_neg (l : List (ℚ × (Str →₀ ℕ))) : pol (l.map fun q => (-q.1, q.2)) = - pol l := by
  induction l with
  | nil => simp [pol]
  | cons p r ih => rw [List.map_cons, pol_cons, pol_cons, ih, map_neg]; ring

/-- Negation. -/
theorem neg_polyE (hO : O.Exact) (n : Nat) {p : MvPolynomial Str ℚ} (hg : Good p) : opNeg (ctors O (n + 6)) (polyE O p) = .ok (polyE O (-p)) := by
  rcases polyE_cases (O := O) p with ⟨c, d, rfl⟩ | ⟨h, _⟩
  · rw [← map_neg, polyE_mono, polyE_mono, neg_monoE (n + 3)]
  · obtain ⟨l, h1, h2, h3, _⟩ := terms_list (O := O) p
    rw [h, h1, opNeg, opNegL_monos (n + 3)]
    dsimp only
    rw [sum_monos hO n (l.map fun q => (-q.1, q.2)) ?_ (flatSL_monos _), pol_neg, h2]
    intro q hq
    obtain ⟨r, hr, rfl⟩ := List.mem_map.1 hq
    obtain ⟨e1, e2⟩ := h3 r hr
    exact hg r.2 (by rw [MvPolynomial.mem_support_iff, ← e1]; exact e2)

theorem sub_mono {c : ℚ} {d : Str →₀ ℕ} : (mono O c d).isSubtraction = decide (c < 0) := by
  by_cases h0 : c = 0
  · subst h0; rw [mono_zero]; rfl
  by_cases d0 : d = 0
  · subst d0; rw [mono_const]; rfl
  rcases mono_form (O := O) h0 d0 with ⟨s, k, hk, h1, e⟩ | ⟨e, hs⟩
  · rw [e, sub_vp, h1]; rfl
  · exact hs

theorem subL_monos (l : List (ℚ × (Str →₀ ℕ))) : isSubtractionL (monos O l) = true ↔ ∀ q ∈ l, q.1 < 0 := by
  induction l with
  | nil => simp [monos, isSubtractionL]
  | cons p r ih =>
    show isSubtractionL (mono O p.1 p.2 :: monos O r) = true ↔ _
    rw [isSubtractionL, sub_mono]
    simp [ih]

/-- Only negative coefficients. -/
def AllNeg (p : MvPolynomial Str ℚ) : Prop := ∀ d ∈ p.support, p.coeff d < 0

theorem sub_polyE {p : MvPolynomial Str ℚ} (h0 : p ≠ 0) : (polyE O p).isSubtraction = true ↔ AllNeg p := by
  classical
  rcases polyE_cases (O := O) p with ⟨c, d, rfl⟩ | ⟨h, _⟩
  · have hc : c ≠ 0 := fun h => h0 (by rw [h, map_zero])
    rw [polyE_mono, sub_mono, AllNeg, MvPolynomial.support_monomial, if_neg hc]
    simp [MvPolynomial.coeff_monomial]
  · obtain ⟨l, h1, h2, h3, _⟩ := terms_list (O := O) p
    rw [h, h1, isSubtraction, subL_monos]
    constructor
    · intro h d hd
      rw [MvPolynomial.mem_support_iff, ← h2] at hd
      obtain ⟨c, hc⟩ := pol_support hd
      have := h _ hc
      rwa [(h3 _ hc).1] at this
    · intro h q hq
      obtain ⟨e1, e2⟩ := h3 q hq
      rw [e1]; exact h _ (by rw [MvPolynomial.mem_support_iff, ← e1]; exact e2)

/-! ## Nothing is left to expand -/

theorem anyR_false {f : Expr → R Bool} : ∀ {l : List Expr}, (∀ t ∈ l, f t = .ok false) → anyR f l = .ok false
  | [], _ => rfl
  | t :: r, h => by
    rw [anyR, h t (by simp), ok_bind]
    simpa using anyR_false fun u hu => h u (by simp [hu])

theorem anyR_inv {f : Expr → R Bool} : ∀ {l : List Expr}, anyR f l = .ok false → ∀ t ∈ l, f t = .ok false
  | [], _ => by simp
  | t :: r, h => by
    rw [anyR] at h
    match hf : f t, h with
    | .ok true, h => rw [ok_bind] at h; simp [pure, Except.pure] at h
    | .ok false, h =>
      rw [ok_bind] at h
      exact List.forall_mem_cons.2 ⟨hf, anyR_inv (by simpa using h)⟩
    | .error e, h => cases h

theorem able_rat (n : Nat) (q : ℚ) : expandableE O (n + 1) (rat q) = .ok false := rfl
theorem able_sym (n : Nat) (s : Str) : expandableE O (n + 1) (sym s) = .ok false := rfl
theorem able_vp (n : Nat) (s : Str) (k : ℕ) : expandableE O (n + 2) (vp s k) = .ok false := by
  rcases vp_cases s k with ⟨_, h⟩ | ⟨_, h⟩ <;> rw [h] <;> rfl

theorem able_mono (n : Nat) (c : ℚ) (d : Str →₀ ℕ) : expandableE O (n + 3) (mono O c d) = .ok false := by
  by_cases h0 : c = 0
  · subst h0; rw [mono_zero]; rfl
  by_cases d0 : d = 0
  · subst d0; rw [mono_const]; rfl
  have hl := mono_leaves (O := O) (c := c) (d := d)
  have hnd := numDen_mono (O := O) (C := ctors O (n + 2)) h0 d
  rcases mono_form (O := O) h0 d0 with ⟨s, k, hk, h1, e⟩ | ⟨e, hs⟩
  · rw [e]; exact able_vp (n + 1) s k
  · rw [e]
    generalize flatP (mono O c d) = l at *
    rw [expandableE]
    rw [anyR_false fun t ht => ?_, ok_bind]
    · simp only [Bool.false_eq_true, if_false]
      rw [hnd, ok_bind]; rfl
    · cases hl t ht with
      | num q => rfl
      | pow s k hk => rw [sum_vp]; simpa using able_vp n s k

theorem able_polyE (n : Nat) (p : MvPolynomial Str ℚ) : expandableE O (n + 4) (polyE O p) = .ok false := by
  rcases polyE_cases (O := O) p with ⟨c, d, rfl⟩ | ⟨h, _⟩
  · rw [polyE_mono]; exact able_mono (n + 1) c d
  · obtain ⟨l, h1, _⟩ := terms_list (O := O) p
    rw [h, h1, expandableE]
    refine anyR_false fun t ht => ?_
    obtain ⟨q, _, rfl⟩ := List.mem_map.1 ht
    exact able_mono n _ _

theorem sum_mono (c : ℚ) (d : Str →₀ ℕ) : (mono O c d).isSum = false := by
  by_cases h0 : c = 0
  · subst h0; rw [mono_zero]; rfl
  by_cases d0 : d = 0
  · subst d0; rw [mono_const]; rfl
  rcases mono_form (O := O) h0 d0 with ⟨s, k, hk, h1, e⟩ | ⟨e, hs⟩
  · rw [e]; exact sum_vp s k
  · rw [e]; rfl

end NF
end Simpy
