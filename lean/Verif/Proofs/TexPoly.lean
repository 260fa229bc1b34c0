import Verif.Proofs.LatexReads
import Verif.Proofs.ClearPoly

/-! # Lemmas: the LaTeX of polynomials -/

namespace Simpy.Tex
open Simpy Expr

variable {O : Oracle} {v : Str} {u t : Expr}

theorem level_unit (h : VarPower v u) : texLevel u ≤ 1 := by
  cases h with
  | var => simp [texLevel]
  | power k hk => simp only [texLevel]; split <;> simp

theorem factorOk_level (h : texLevel t ≤ 2) : texFactorOk t = true := by simp [texFactorOk, h]
theorem level_nonneg {q : ℚ} (h : ¬ q < 0) : texLevel (rat q) = 0 := by simp [texLevel] ; intro h'; exact absurd h' h
theorem level_prod {ts : List Expr} (h : (prod ts).isSubtraction = false) : texLevel (prod ts) = 2 := by simp [texLevel, h]

theorem ok_rat (n : Nat) (q : ℚ) : Ok (latexE O (n + 1) (rat q)) := ⟨_, rfl⟩

theorem clear_unit (h : VarPower v u) (n : Nat) : texClear O (n + 2) u = true ∧ Ok (latexE O (n + 2) u) := by
  cases h with
  | var => exact ⟨rfl, _, rfl⟩
  | power k hk =>
    have h0 : (0 : ℚ) ≤ k := by positivity
    have h1 : ((k : ℚ) == 1 / 2) = false := by
      have : (2 : ℚ) ≤ k := by exact_mod_cast hk
      simp only [beq_eq_false_iff_ne]; intro h; linarith
    have h2 : ((k : ℚ) == -1 / 2) = false := by
      simp only [beq_eq_false_iff_ne]; intro h; linarith
    refine ⟨by simp [texClear], ?_⟩
    show Ok (powLatex O (latexE O (n + 1)) (sym v) (rat k))
    unfold powLatex
    simp only [beq, h1, h2]
    exact Ok.bind ⟨_, rfl⟩ fun _ _ => Ok.bind (ok_rat n _) fun _ _ => ⟨_, rfl⟩

theorem term_ok {L : Expr → R Str} (h : Ok (L t)) : Ok (prodTermLatex L t) := Ok.bind h fun _ _ => ⟨_, rfl⟩

theorem clear_pos_int (h : VarPower v u) {a : ℚ} (ha : ¬ a < 0) (hd : a.den = 1) (n : Nat) :
    texClear O (n + 3) (prod [rat a, u]) = true ∧ Ok (latexE O (n + 3) (prod [rat a, u])) := by
  have hsub : (prod [rat a, u]).isSubtraction = false := by simpa [isSubtraction] using ha
  obtain ⟨p, q, hpq, hp, hq⟩ := numDen_unit (O := O) (C := ctors O (n + 2)) h a
  have hq : q = rat 1 := by
    rcases hq with ⟨_, hq⟩ | hq
    · exact hq
    · rw [hq, hd]; rfl
  subst hq
  have hl := level_unit h
  have hc := clear_unit (O := O) h n
  refine ⟨?_, ?_⟩
  · rw [texClear, hsub]
    have : texClear O (n + 2) (rat a) = true := rfl
    simp [hpq, beq, this, hc.1, factorOk_level (hl.trans (by omega)), factorOk_level (t := rat a) (by rw [level_nonneg ha]; omega)]
  · show Ok (prodLatex O (ctors O (n + 2)) (latexE O (n + 2)) [rat a, u])
    unfold prodLatex
    rw [hsub, hpq]
    simp only [Bool.false_eq_true, if_false]
    refine Ok.bind ⟨_, rfl⟩ fun w hw => ?_
    cases hw
    simp only [beq]
    obtain ⟨s1, e1⟩ := term_ok (L := latexE O (n + 2)) (ok_rat (O := O) (n + 1) a)
    obtain ⟨s2, e2⟩ := term_ok (L := latexE O (n + 2)) hc.2
    refine Ok.bind ⟨[s1, s2], by simp [mapR, e1, e2]⟩ fun _ _ => ⟨_, rfl⟩

theorem clear_pos (h : VarPower v u) {a : ℚ} (ha : ¬ a < 0) (n : Nat) :
    texClear O (n + 4) (prod [rat a, u]) = true ∧ Ok (latexE O (n + 4) (prod [rat a, u])) := by
  by_cases hd : a.den = 1
  · exact clear_pos_int h ha hd (n + 1)
  · have hsub : (prod [rat a, u]).isSubtraction = false := by simpa [isSubtraction] using ha
    obtain ⟨p, q, hpq, hp, hq⟩ := numDen_unit (O := O) (C := ctors O (n + 3)) h a
    have hq : q = rat a.den := by
      rcases hq with ⟨hq, _⟩ | hq
      · exact absurd hq hd
      · exact hq
    subst hq
    have hl := level_unit h
    have h0 : 0 ≤ a.num := Rat.num_nonneg.2 (not_lt.1 ha)
    have h1 : ¬ ((a.num : ℚ) < 0) := by
      have : (0 : ℚ) ≤ a.num := by exact_mod_cast h0
      linarith
    have hpc : (texClear O (n + 3) p = true ∧ Ok (latexE O (n + 3) p)) ∧ texFactorOk p = true := by
      rcases hp with rfl | rfl
      · exact ⟨clear_unit h (n + 1), factorOk_level (by omega)⟩
      · refine ⟨clear_pos_int h h1 (by simp) n, ?_⟩
        have : (prod [rat (a.num : ℚ), u]).isSubtraction = false := by simpa [isSubtraction] using h1
        exact factorOk_level (by rw [level_prod this])
    have hd1 : ((a.den : ℚ) == 1) = false := by simpa using hd
    refine ⟨?_, ?_⟩
    · rw [texClear, hsub]
      have : texClear O (n + 3) (rat (a.den : ℚ)) = true := rfl
      simp [hpq, beq, hd1, hpc.1.1, hpc.2, this, isProd]
    · show Ok (prodLatex O (ctors O (n + 3)) (latexE O (n + 3)) [rat a, u])
      unfold prodLatex
      rw [hsub, hpq]
      simp only [Bool.false_eq_true, if_false]
      refine Ok.bind ⟨_, rfl⟩ fun w hw => ?_
      cases hw
      simp only [beq, hd1]
      exact Ok.bind hpc.1.2 fun _ _ => Ok.bind (ok_rat (n + 2) _) fun _ _ => ⟨_, rfl⟩

theorem clear_scaled (h : VarPower v u) (a : ℚ) (n : Nat) :
    texClear O (n + 5) (prod [rat a, u]) = true ∧ Ok (latexE O (n + 5) (prod [rat a, u])) := by
  by_cases ha : a < 0
  · have hsub : (prod [rat a, u]).isSubtraction = true := by simpa [isSubtraction] using ha
    have hnp : opMul (ctors O (n + 4)) (prod [rat a, u]) (rat (-1)) = .ok (scale (-a) u) := prod_prod_neg (squares_ctors (n + 2)) h a
    have h0 : ¬ (-a = 0) := by intro h0; have : a = 0 := by linarith
                               rw [this] at ha; exact lt_irrefl _ ha
    have hl := level_unit h
    have key : (texClear O (n + 4) (scale (-a) u) = true ∧ Ok (latexE O (n + 4) (scale (-a) u))) ∧ texFactorOk (scale (-a) u) = true := by
      by_cases h1 : -a = 1
      · rw [scale, if_neg h0, if_pos h1]
        exact ⟨clear_unit h (n + 2), factorOk_level (by omega)⟩
      · have hs : (prod [rat (-a), u]).isSubtraction = false := by simp [isSubtraction]; linarith
        rw [scale, if_neg h0, if_neg h1]
        exact ⟨clear_pos h (show ¬ -a < 0 by linarith) n, factorOk_level (le_of_eq (level_prod hs))⟩
    refine ⟨?_, ?_⟩
    · rw [texClear, hsub]
      simp only [if_true, hnp]
      simp [key.1.1, key.2]
    · show Ok (prodLatex O (ctors O (n + 4)) (latexE O (n + 4)) [rat a, u])
      unfold prodLatex
      rw [hsub, hnp]
      simp only [if_true]
      refine Ok.bind ⟨_, rfl⟩ fun w hw => ?_
      cases hw
      split
      · exact Ok.bind (term_ok key.1.2) fun _ _ => ⟨_, rfl⟩
      · exact Ok.bind key.1.2 fun _ _ => ⟨_, rfl⟩
  · exact clear_pos h ha (n + 1)

theorem clear_mono (h : Monomial v t) (n : Nat) : texClear O (n + 5) t = true ∧ Ok (latexE O (n + 5) t) := by
  cases h with
  | const c => exact ⟨rfl, _, rfl⟩
  | unit h => exact clear_unit h (n + 3)
  | scaled c h => exact clear_scaled h c n

theorem level_le (h : Monomial v t) (hl : level t ≤ 2) : texLevel t ≤ 2 := by
  cases h with
  | const c =>
    have : ¬ c < 0 := by intro hc; simp [level, hc] at hl
    rw [level_nonneg this]; omega
  | unit h => exact (level_unit h).trans (by omega)
  | @scaled c w h =>
    have : (prod [rat c, w]).isSubtraction = false := by
      by_contra hs
      rw [Bool.not_eq_false] at hs; simp [level, hs] at hl
    rw [level_prod this]

theorem clearTerms_mono (n : Nat) : ∀ {ts : List Expr}, (∀ t ∈ ts, Monomial v t) →
    texClearTerms O (n + 5) (texClear O (n + 5)) ts = true ∧ Ok (sumLatexRest (ctors O (n + 5)) (latexE O (n + 5)) ts)
  | [], _ => ⟨rfl, _, rfl⟩
  | t :: r, h => by
    obtain ⟨h1, h2⟩ := clearTerms_mono n (ts := r) fun x hx => h x (by simp [hx])
    have ht := h t (by simp)
    rw [texClearTerms, sumLatexRest]
    by_cases hs : t.isSubtraction = true
    · obtain ⟨w, e, hw, hl⟩ := neg_mono (O := O) ht hs (n + 3)
      have hl := level_le hw hl
      rw [if_pos hs, if_pos hs, e]
      refine ⟨by simp [(clear_mono hw n).1, hl, h1], ?_⟩
      exact Ok.bind ⟨w, rfl⟩ fun w' e' => by
        cases e'; exact Ok.bind (clear_mono hw n).2 fun _ _ => Ok.bind h2 fun _ _ => ⟨_, rfl⟩
    · rw [if_neg hs, if_neg hs]
      refine ⟨by simp [(clear_mono ht n).1, h1], ?_⟩
      exact Ok.bind (clear_mono ht n).2 fun _ _ => Ok.bind h2 fun _ _ => ⟨_, rfl⟩

theorem clear_poly {e : Expr} (h : IsPolynomial v e) (n : Nat) : texClear O (n + 6) e = true ∧ Ok (latexE O (n + 6) e) := by
  rcases h with h | ⟨ts, rfl, hne, h⟩
  · exact clear_mono h (n + 1)
  · cases ts with
    | nil => exact absurd rfl hne
    | cons t r =>
      obtain ⟨h1, h2⟩ := clearTerms_mono (O := O) n (ts := r) fun x hx => h x (by simp [hx])
      refine ⟨?_, ?_⟩
      · rw [texClear]; simp [(clear_mono (O := O) (h t (by simp)) n).1, h1]
      · show Ok (sumLatex (ctors O (n + 5)) (latexE O (n + 5)) (t :: r))
        exact Ok.bind (clear_mono (h t (by simp)) n).2 fun _ _ => Ok.bind h2 fun _ _ => ⟨_, rfl⟩

end Simpy.Tex
