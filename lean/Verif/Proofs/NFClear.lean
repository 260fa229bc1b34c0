import Verif.Proofs.NFOut
import Verif.Proofs.ClearPoly

/-! # Lemmas: polynomials in normal form are printed clearly -/

namespace Simpy
namespace NF
open Expr Lin Mono1

variable {O : Oracle}

theorem clearTerms_monos (n : Nat) (l : List (ℚ × (Str →₀ ℕ))) (h0 : ∀ q ∈ l, q.1 ≠ 0) :
    clearTerms O (n + 5) (clear O (n + 5)) (monos O l) = true ∧ Ok (sumReprRest (ctors O (n + 5)) (monos O l)) := by
  induction l with
  | nil => exact ⟨rfl, _, rfl⟩
  | cons q r ih =>
    obtain ⟨h1, h2⟩ := ih fun x hx => h0 x (by simp [hx])
    have hq := h0 q (by simp)
    show clearTerms O (n + 5) (clear O (n + 5)) (mono O q.1 q.2 :: monos O r) = true ∧ Ok (sumReprRest (ctors O (n + 5)) (mono O q.1 q.2 :: monos O r))
    rw [clearTerms, sumReprRest, sub_mono]
    by_cases hs : q.1 < 0
    · have e := neg_monoE (O := O) (n + 2) q.1 q.2
      have hl := level_mono_pos (O := O) (show 0 < -q.1 by linarith) q.2
      have hc := cr_mono (O := O) n (-q.1) q.2
      rw [decide_eq_true hs, if_pos rfl, if_pos rfl, e]
      exact ⟨by simp [hc.1, hl, h1], Ok.bind ⟨_, rfl⟩ fun w' e' => by
        cases e'; exact Ok.bind hc.2 fun _ _ => Ok.bind h2 fun _ _ => ⟨_, rfl⟩⟩
    · have hl := level_mono_pos (O := O) (show 0 < q.1 from lt_of_le_of_ne (not_lt.1 hs) (Ne.symm hq)) q.2
      have hc := cr_mono (O := O) n q.1 q.2
      rw [decide_eq_false hs, if_neg (by simp), if_neg (by simp)]
      exact ⟨by simp [hc.1, hl, h1], Ok.bind hc.2 fun _ _ => Ok.bind h2 fun _ _ => ⟨_, rfl⟩⟩

theorem cr_polyE (n : Nat) (p : MvPolynomial Str ℚ) : CR O (n + 6) (polyE O p) := by
  rcases polyE_cases (O := O) p with ⟨c, d, rfl⟩ | ⟨h, hlen⟩
  · rw [polyE_mono]; exact cr_mono (n + 1) c d
  · obtain ⟨l, h1, h2, h3, h4⟩ := terms_list (O := O) p
    have hl : (monos O l).length = (terms O p).length := by
      rw [← h1, List.length_reverse, (sorted_perm _).length_eq]
    rw [h, h1]
    cases l with
    | nil => simp [monos] at hl; omega
    | cons q r =>
      obtain ⟨c1, c2⟩ := clearTerms_monos (O := O) n r fun x hx => (h3 x (by simp [hx])).2
      have hc := cr_mono (O := O) n q.1 q.2
      refine ⟨?_, ?_⟩
      · show clear O (n + 6) (sum (mono O q.1 q.2 :: monos O r)) = true
        rw [clear]; simp [hc.1, c1]
      · show Ok (sumRepr (ctors O (n + 5)) (mono O q.1 q.2 :: monos O r))
        exact Ok.bind hc.2 fun _ _ => Ok.bind c2 fun _ _ => ⟨_, rfl⟩

theorem built_polyE (hO : O.Exact) {p : MvPolynomial Str ℚ} (hp : Good p) : Built O (polyE O p) := by
  obtain ⟨l, h1, h2, h3⟩ := flatS_polyE (O := O) p
  have := sum_polys hO 0 [p] (by simpa using hp)
  rcases polyE_cases (O := O) p with ⟨c, d, rfl⟩ | ⟨h, hlen⟩
  · rw [polyE_mono]; exact built_mono c d
  · obtain ⟨l, g1, g2, g3, _⟩ := terms_list (O := O) p
    have hs := sum_polys hO 0 (l.map fun q => MvPolynomial.monomial q.2 q.1) (by
      intro q hq
      obtain ⟨x, hx, rfl⟩ := List.mem_map.1 hq
      refine good_mono (hp x.2 ?_)
      rw [MvPolynomial.mem_support_iff, ← (g3 x hx).1]; exact (g3 x hx).2)
    rw [← monos_polys] at hs
    have hl : (l.map fun q => MvPolynomial.monomial q.2 q.1).sum = p := g2
    rw [hl] at hs
    exact .sum _ (fun t ht => by obtain ⟨q, _, rfl⟩ := List.mem_map.1 ht; exact built_mono _ _) hs

theorem syms_polyE {p : MvPolynomial Str ℚ} (hp : Good p) : ∀ x ∈ syms (polyE O p), goodName x = true := by
  rcases polyE_cases (O := O) p with ⟨c, d, rfl⟩ | ⟨h, hlen⟩
  · rw [polyE_mono]
    by_cases h0 : c = 0
    · subst h0; rw [mono_zero]; simp [syms]
    · exact fun x hx => good_of_mono h0 hp x (syms_mono x hx)
  · obtain ⟨l, g1, g2, g3, _⟩ := terms_list (O := O) p
    rw [h, g1]
    refine (closed_syms (fun x => goodName x = true)).sum.2 fun t ht => ?_
    obtain ⟨q, hq, rfl⟩ := List.mem_map.1 ht
    refine fun x hx => hp q.2 ?_ x (syms_mono x hx)
    rw [MvPolynomial.mem_support_iff, ← (g3 q hq).1]; exact (g3 q hq).2

theorem dom_polyE (ρ : Str → ℝ) (p : MvPolynomial Str ℚ) : Dom ρ (polyE O p) := by
  rcases polyE_cases (O := O) p with ⟨c, d, rfl⟩ | ⟨h, hlen⟩
  · rw [polyE_mono]; exact dom_mono ρ c d
  · obtain ⟨l, g1, g2, g3, _⟩ := terms_list (O := O) p
    rw [h, g1, Dom, DomS]
    refine (DomSL_iff ρ _).2 fun t ht => ?_
    obtain ⟨q, hq, rfl⟩ := List.mem_map.1 ht
    exact dom_mono ρ _ _

end NF
end Simpy
