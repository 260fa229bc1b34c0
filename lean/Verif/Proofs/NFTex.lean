import Verif.Proofs.NFClear
import Verif.Proofs.TexPoly

/-! # Lemmas: the LaTeX of polynomials in normal form -/

namespace Simpy
namespace NF
open Expr Lin Mono1

variable {O : Oracle}

/-- Has a LaTeX form, and a clear one. -/
def TR (O : Oracle) (n : Nat) (e : Expr) : Prop := texClear O n e = true ∧ Ok (latexE O n e)

theorem texLevel_vp (s : Str) (k : ℕ) : texLevel (vp s k) ≤ 1 := by
  rcases vp_cases s k with ⟨h1, h⟩ | ⟨h1, h⟩ <;> rw [h]
  · simp [texLevel]
  · simp only [texLevel]; split <;> simp

theorem tr_vp (n : Nat) (s : Str) {k : ℕ} (hk : 1 ≤ k) : TR O (n + 2) (vp s k) := by
  rcases vp_cases s k with ⟨h1, h⟩ | ⟨h1, h⟩ <;> rw [h]
  · exact ⟨rfl, _, rfl⟩
  · exact Tex.clear_unit (VarPower.power k (by omega)) n

theorem tr_rat (n : Nat) (q : ℚ) : TR O (n + 1) (rat q) := ⟨rfl, _, rfl⟩

theorem texLevel_mono_pos {c : ℚ} (h : 0 < c) (d : Str →₀ ℕ) : texLevel (mono O c d) ≤ 2 := by
  by_cases hd : d = 0
  · subst hd
    rw [mono_const, Tex.level_nonneg (not_lt.2 h.le)]; omega
  rcases mono_form (O := O) h.ne' hd with ⟨s, k, _, _, e⟩ | ⟨e, hs⟩
  · rw [e]; have := texLevel_vp s k; omega
  · rw [decide_eq_false (not_lt.2 h.le)] at hs
    rw [e] at hs ⊢
    simp [texLevel, hs]

theorem tr_leaf (n : Nat) {c : ℚ} (h : 0 < c) {d : Str →₀ ℕ} {f : Expr} (hf : f ∈ flatP (mono O c d)) :
    TR O (n + 2) f ∧ texLevel f ≤ 1 := by
  rw [flat_mono h.ne'] at hf
  rcases List.mem_append.1 hf with hf | hf
  · split at hf
    · simp at hf
    · simp only [List.mem_singleton] at hf
      subst hf
      exact ⟨tr_rat _ _, by rw [Tex.level_nonneg (not_lt.2 h.le)]; omega⟩
  · obtain ⟨s, hs, rfl⟩ := mem_fs.1 hf
    exact ⟨tr_vp n s hs, texLevel_vp ..⟩

theorem tr_int (n : Nat) {c : ℚ} (h : 0 < c) (hd : c.den = 1) (d : Str →₀ ℕ) : TR O (n + 3) (mono O c d) := by
  by_cases d0 : d = 0
  · subst d0; rw [mono_const]; exact tr_rat _ _
  have hl := fun f hf => tr_leaf (O := O) n h (d := d) (f := f) hf
  have hnd := numDen_mono (O := O) (C := ctors O (n + 2)) h.ne' d
  rcases mono_form (O := O) h.ne' d0 with ⟨s, k, hk, _, e⟩ | ⟨e, hs⟩
  · rw [e]; exact tr_vp (n + 1) s hk
  · rw [decide_eq_false (not_lt.2 h.le)] at hs
    have hne : flatP (mono O c d) ≠ [] := by
      rw [flat_mono h.ne']; simp [fs_ne d0]
    rw [hd, Nat.cast_one] at hnd
    rw [e] at hs ⊢
    generalize flatP (mono O c d) = l at *
    constructor
    · rw [texClear, hs]
      simp only [Bool.false_eq_true, if_false, hnd]
      simp only [beq, beq_self_eq_true, if_true, Bool.and_eq_true, List.all_eq_true]
      exact ⟨by simpa using hne, fun f hf => ⟨(hl f hf).1.1, Tex.factorOk_level ((hl f hf).2.trans (by omega))⟩⟩
    · show Ok (prodLatex O (ctors O (n + 2)) (latexE O (n + 2)) l)
      unfold prodLatex
      rw [hs]
      simp only [Bool.false_eq_true, if_false]
      rw [hnd, ok_bind]
      simp only [beq, beq_self_eq_true, Bool.not_true, Bool.false_eq_true, if_false]
      exact Ok.bind (mapR_Ok fun f hf => Tex.term_ok (hl f hf).1.2) fun _ _ => ⟨_, rfl⟩

theorem tr_pos (n : Nat) {c : ℚ} (h : 0 < c) (d : Str →₀ ℕ) : TR O (n + 4) (mono O c d) := by
  by_cases hd : c.den = 1
  · exact tr_int (n + 1) h hd d
  by_cases d0 : d = 0
  · subst d0; rw [mono_const]; exact tr_rat _ _
  have hnd := numDen_mono (O := O) (C := ctors O (n + 3)) h.ne' d
  rcases mono_form (O := O) h.ne' d0 with ⟨s, k, hk, h1, e⟩ | ⟨e, hs⟩
  · rw [e]; exact tr_vp (n + 2) s hk
  · rw [decide_eq_false (not_lt.2 h.le)] at hs
    have hp : (0 : ℚ) < c.num := by exact_mod_cast Rat.num_pos.2 h
    have hn := tr_int (O := O) n hp (by simp) d
    have hlv := texLevel_mono_pos (O := O) hp d
    have hd1 : ((c.den : ℚ) == 1) = false := by simpa using hd
    have hr := tr_rat (O := O) (n + 2) (c.den : ℚ)
    rw [e] at hs ⊢
    generalize flatP (mono O c d) = l at *
    generalize mono O c.num d = N at *
    constructor
    · rw [texClear, hs]
      simp only [Bool.false_eq_true, if_false, hnd]
      simp [beq, hd1, hn.1, hr.1, Tex.factorOk_level hlv, isProd]
    · show Ok (prodLatex O (ctors O (n + 3)) (latexE O (n + 3)) l)
      unfold prodLatex
      rw [hs]
      simp only [Bool.false_eq_true, if_false]
      rw [hnd, ok_bind]
      simp only [beq, hd1, Bool.not_false, if_true]
      exact Ok.bind hn.2 fun _ _ => Ok.bind hr.2 fun _ _ => ⟨_, rfl⟩

/-- Every monomial has a clear LaTeX form. -/
theorem tr_mono (n : Nat) (c : ℚ) (d : Str →₀ ℕ) : TR O (n + 5) (mono O c d) := by
  by_cases h0 : c = 0
  · subst h0; rw [mono_zero]; exact tr_rat _ _
  by_cases hc : 0 < c
  · exact tr_pos (n + 1) hc d
  have hc : c < 0 := lt_of_le_of_ne (not_lt.1 hc) h0
  by_cases d0 : d = 0
  · subst d0; rw [mono_const]; exact tr_rat _ _
  have hpr : (ctors O (n + 4)).prod [mono O c d, rat (-1)] = .ok (mono O (-c) d) := by
    have := prod_mono2 (O := O) (n + 1) c (-1) d 0
    rwa [mono_const, mul_neg_one, add_zero] at this
  have hp := tr_pos (O := O) n (show 0 < -c by linarith) d
  have hlv := texLevel_mono_pos (O := O) (show 0 < -c by linarith) d
  rcases mono_form (O := O) h0 d0 with ⟨s, k, hk, h1, e⟩ | ⟨e, hs⟩
  · rw [h1] at hc; norm_num at hc
  rw [decide_eq_true hc] at hs
  rw [e] at hs hpr ⊢
  generalize flatP (mono O c d) = l at *
  generalize mono O (-c) d = N at *
  replace hpr : opMul (ctors O (n + 4)) (prod l) (rat (-1)) = .ok N := hpr
  constructor
  · rw [texClear, hs]
    simp only [if_true, hpr, hp.1, Tex.factorOk_level hlv, Bool.and_self]
  · show Ok (prodLatex O (ctors O (n + 4)) (latexE O (n + 4)) l)
    unfold prodLatex
    rw [hs]
    simp only [if_true]
    rw [hpr, ok_bind]
    exact Ok.ite (Ok.bind (Tex.term_ok hp.2) fun _ _ => ⟨_, rfl⟩) (Ok.bind hp.2 fun _ _ => ⟨_, rfl⟩)

theorem texClearTerms_monos (n : Nat) (l : List (ℚ × (Str →₀ ℕ))) (h0 : ∀ q ∈ l, q.1 ≠ 0) :
    texClearTerms O (n + 5) (texClear O (n + 5)) (monos O l) = true ∧
      Ok (sumLatexRest (ctors O (n + 5)) (latexE O (n + 5)) (monos O l)) := by
  induction l with
  | nil => exact ⟨rfl, _, rfl⟩
  | cons q r ih =>
    obtain ⟨h1, h2⟩ := ih fun x hx => h0 x (by simp [hx])
    show texClearTerms O (n + 5) (texClear O (n + 5)) (mono O q.1 q.2 :: monos O r) = true ∧
      Ok (sumLatexRest (ctors O (n + 5)) (latexE O (n + 5)) (mono O q.1 q.2 :: monos O r))
    rw [texClearTerms, sumLatexRest, sub_mono]
    by_cases hs : q.1 < 0
    · have e := neg_monoE (O := O) (n + 2) q.1 q.2
      have hl := texLevel_mono_pos (O := O) (show 0 < -q.1 by linarith) q.2
      have hc := tr_mono (O := O) n (-q.1) q.2
      rw [decide_eq_true hs, if_pos rfl, if_pos rfl, e]
      exact ⟨by simp [hc.1, hl, h1], Ok.bind ⟨_, rfl⟩ fun w' e' => by
        cases e'; exact Ok.bind hc.2 fun _ _ => Ok.bind h2 fun _ _ => ⟨_, rfl⟩⟩
    · have hc := tr_mono (O := O) n q.1 q.2
      rw [decide_eq_false hs, if_neg (by simp), if_neg (by simp)]
      exact ⟨by simp [hc.1, h1], Ok.bind hc.2 fun _ _ => Ok.bind h2 fun _ _ => ⟨_, rfl⟩⟩

/-- Every polynomial in normal form has a clear LaTeX form. -/
theorem tr_polyE (n : Nat) (p : MvPolynomial Str ℚ) : TR O (n + 6) (polyE O p) := by
  rcases polyE_cases (O := O) p with ⟨c, d, rfl⟩ | ⟨h, hlen⟩
  · rw [polyE_mono]; exact tr_mono (n + 1) c d
  · obtain ⟨l, h1, h2, h3, h4⟩ := terms_list (O := O) p
    have hl : (monos O l).length = (terms O p).length := by
      rw [← h1, List.length_reverse, (sorted_perm _).length_eq]
    rw [h, h1]
    cases l with
    | nil => simp [monos] at hl; omega
    | cons q r =>
      obtain ⟨c1, c2⟩ := texClearTerms_monos (O := O) n r fun x hx => (h3 x (by simp [hx])).2
      have hc := tr_mono (O := O) n q.1 q.2
      refine ⟨?_, ?_⟩
      · show texClear O (n + 6) (sum (mono O q.1 q.2 :: monos O r)) = true
        rw [texClear]; simp [hc.1, c1]
      · show Ok (sumLatex (ctors O (n + 5)) (latexE O (n + 5)) (mono O q.1 q.2 :: monos O r))
        exact Ok.bind hc.2 fun _ _ => Ok.bind c2 fun _ _ => ⟨_, rfl⟩

end NF
end Simpy
