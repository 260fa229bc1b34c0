import Verif.Spec.Read
import Verif.Proofs.Total
import Verif.Proofs.ReprReads

/-! # Lemmas: polynomials are printed clearly -/

namespace Simpy
open Expr

variable {O : Oracle} {v : Str} {u t : Expr}

theorem level_unit (h : VarPower v u) : level u ≤ 1 := by
  cases h with
  | var => simp [level]
  | power k hk =>
    have h2 : ¬ ((k : ℚ) < 0) := by
      have : (0 : ℚ) ≤ k := by positivity
      linarith
    simp only [level, if_neg h2]; split <;> simp

theorem clear_rat (n : Nat) (q : ℚ) : clear O (n + 1) (rat q) = true := rfl
theorem factorOk_level {k : Nat} (h : level t ≤ k) : factorOk k t = true := by simp [factorOk, h]
theorem level_nat {q : ℚ} (h : ¬ q < 0) (hd : q.den = 1) : level (rat q) = 0 := by simp [level, h, hd]
theorem level_prod {ts : List Expr} (h : (prod ts).isSubtraction = false) : level (prod ts) = 2 := by simp [level, h]

theorem clear_unit (h : VarPower v u) (n : Nat) : clear O (n + 2) u = true := by
  cases h with
  | var => rfl
  | power k hk =>
    have h1 : ¬ ((k : ℚ) = -1) := by
      have : (0 : ℚ) ≤ k := by positivity
      linarith
    have h2 : ¬ ((k : ℚ) < 0) := by
      have : (0 : ℚ) ≤ k := by positivity
      linarith
    have h3 : ¬ ((k : ℚ) = 1 / 2) := by
      have : (2 : ℚ) ≤ k := by exact_mod_cast hk
      linarith
    rw [clear]
    simp only [beq, beq_iff_eq, h1, h2, h3, if_false, negNum, decide_false, Bool.and_false, Bool.false_eq_true]
    simp [clear, powerOk, level, h2]

theorem clear_pos_int (h : VarPower v u) {a : ℚ} (ha : ¬ a < 0) (hd : a.den = 1) (n : Nat) : clear O (n + 3) (prod [rat a, u]) = true := by
  have hsub : (prod [rat a, u]).isSubtraction = false := by simpa [isSubtraction] using ha
  rw [clear, hsub]
  obtain ⟨p, q, hpq, hp, hq⟩ := numDen_unit (O := O) (C := ctors O (n + 2)) h a
  have hq : q = rat 1 := by
    rcases hq with ⟨_, hq⟩ | hq
    · exact hq
    · rw [hq, hd]; rfl
  subst hq
  have hl := level_unit h
  have hc := clear_unit (O := O) h n
  simp [hpq, beq, clear_rat, hc, factorOk_level hl, factorOk_level (k := 1) (by rw [level_nat ha hd]; omega)]

theorem clear_pos (h : VarPower v u) {a : ℚ} (ha : ¬ a < 0) (n : Nat) : clear O (n + 4) (prod [rat a, u]) = true := by
  by_cases hd : a.den = 1
  · exact clear_pos_int h ha hd (n + 1)
  · have hsub : (prod [rat a, u]).isSubtraction = false := by simpa [isSubtraction] using ha
    rw [clear, hsub]
    obtain ⟨p, q, hpq, hp, hq⟩ := numDen_unit (O := O) (C := ctors O (n + 3)) h a
    have hq : q = rat a.den := by
      rcases hq with ⟨hq, _⟩ | hq
      · exact absurd hq hd
      · exact hq
    subst hq
    have hl := level_unit h
    have hd' : ¬ ((a.den : ℚ) = 1) := by exact_mod_cast hd
    have hd0 : ¬ ((a.den : ℚ) < 0) := by simp
    have h0 : 0 ≤ a.num := Rat.num_nonneg.2 (not_lt.1 ha)
    have h1 : ¬ ((a.num : ℚ) < 0) := by
      have : (0 : ℚ) ≤ a.num := by exact_mod_cast h0
      linarith
    have hpc : clear O (n + 3) p = true ∧ factorOk 2 p = true := by
      rcases hp with rfl | rfl
      · exact ⟨clear_unit h (n + 1), factorOk_level (by omega)⟩
      · refine ⟨clear_pos_int h h1 (by simp) n, ?_⟩
        have : (prod [rat (a.num : ℚ), u]).isSubtraction = false := by simpa [isSubtraction] using h1
        exact factorOk_level (by rw [level_prod this])
    have hd1 : ((a.den : ℚ) == 1) = false := by simpa using hd
    simp [hpq, beq, hd1, hpc.1, hpc.2, clear_rat, factorOk_level (k := 1) (t := rat (a.den : ℚ)) (by rw [level_nat hd0 (by simp)]; omega)]

theorem clear_scaled (h : VarPower v u) (a : ℚ) (n : Nat) : clear O (n + 5) (prod [rat a, u]) = true := by
  by_cases ha : a < 0
  · have hsub : (prod [rat a, u]).isSubtraction = true := by simpa [isSubtraction] using ha
    rw [clear, hsub]
    have hnp : (ctors O (n + 4)).prod [prod [rat a, u], rat (-1)] = .ok (scale (-a) u) := prod_prod_neg (squares_ctors (n + 2)) h a
    simp only [if_true, hnp]
    have h0 : ¬ (-a = 0) := by intro h0; have : a = 0 := by linarith
                               rw [this] at ha; exact lt_irrefl _ ha
    have hl := level_unit h
    by_cases h1 : -a = 1
    · have h2 : (1 : ℚ) ≠ 0 := by norm_num
      rw [scale, if_neg h0, if_pos h1]
      simp [clear_unit h (n + 2), factorOk_level (k := 2) (t := u) (by omega)]
    · have hs : (prod [rat (-a), u]).isSubtraction = false := by simp [isSubtraction]; linarith
      rw [scale, if_neg h0, if_neg h1]
      simp [clear_pos h (show ¬ -a < 0 by linarith) n, factorOk_level (k := 2) (le_of_eq (level_prod hs))]
  · exact clear_pos h ha (n + 1)

theorem clear_mono (h : Monomial v t) (n : Nat) : clear O (n + 5) t = true := by
  cases h with
  | const c => rfl
  | unit h => exact clear_unit h (n + 3)
  | scaled c h => exact clear_scaled h c n

/-- Taking the sign off a term. -/
theorem neg_mono (h : Monomial v t) (hs : t.isSubtraction = true) (n : Nat) : ∃ w, opNeg (ctors O (n + 2)) t = .ok w ∧ Monomial v w ∧ level w ≤ 2 := by
  cases h with
  | const c =>
    have hc : c < 0 := by simpa [isSubtraction] using hs
    refine ⟨rat (-c), rfl, .const _, ?_⟩
    have : ¬ (-c < 0) := by linarith
    simp only [level, if_neg this]; split <;> simp
  | unit h => cases h <;> simp [isSubtraction] at hs
  | @scaled c u h =>
    have hc : c < 0 := by simpa [isSubtraction] using hs
    have hnp : (ctors O (n + 2)).prod [rat (-1), prod [rat c, u]] = .ok (scale (-c) u) := by
      have := prod_rat_prod (O := O) (squares_ctors (O := O) n) h (-1) c
      rwa [neg_one_mul] at this
    refine ⟨scale (-c) u, ?_, scale_mono h _, ?_⟩
    · simp [opNeg, opMul, hnp]
    · have hl := level_unit h
      have h0 : ¬ (-c = 0) := by intro h0; have : c = 0 := by linarith
                                 rw [this] at hc; exact lt_irrefl _ hc
      rw [scale, if_neg h0]
      split
      · omega
      · have hs : (prod [rat (-c), u]).isSubtraction = false := by simp [isSubtraction]; linarith
        simp [level, hs]

theorem level_mono (h : Monomial v t) (hs : ¬ t.isSubtraction = true) : level t ≤ 2 := by
  cases h with
  | const c =>
    have hc : ¬ c < 0 := by simpa [isSubtraction] using hs
    simp only [level, if_neg hc]; split <;> simp
  | unit h => have := level_unit h; omega
  | scaled c h => simp [level, hs]

theorem clearTerms_mono (n : Nat) : ∀ {ts : List Expr}, (∀ t ∈ ts, Monomial v t) →
    clearTerms O (n + 5) (clear O (n + 5)) ts = true ∧ Ok (sumReprRest (ctors O (n + 5)) ts)
  | [], _ => ⟨rfl, _, rfl⟩
  | t :: r, h => by
    obtain ⟨h1, h2⟩ := clearTerms_mono n (ts := r) fun x hx => h x (by simp [hx])
    have ht := h t (by simp)
    rw [clearTerms, sumReprRest]
    by_cases hs : t.isSubtraction = true
    · obtain ⟨w, e, hw, hl⟩ := neg_mono (O := O) ht hs (n + 3)
      rw [if_pos hs, if_pos hs, e]
      refine ⟨by simp [clear_mono hw n, hl, h1], ?_⟩
      exact Ok.bind ⟨w, rfl⟩ fun w' e' => by
        cases e'; exact Ok.bind (repr_mono hw n) fun _ _ => Ok.bind h2 fun _ _ => ⟨_, rfl⟩
    · rw [if_neg hs, if_neg hs]
      refine ⟨by simp [clear_mono ht n, level_mono ht hs, h1], ?_⟩
      exact Ok.bind (repr_mono ht n) fun _ _ => Ok.bind h2 fun _ _ => ⟨_, rfl⟩

theorem clear_poly {e : Expr} (h : IsPolynomial v e) (n : Nat) : clear O (n + 6) e = true ∧ Ok ((ctors O (n + 6)).repr e) := by
  rcases h with h | ⟨ts, rfl, hne, h⟩
  · exact ⟨clear_mono h (n + 1), repr_mono h (n + 1)⟩
  · cases ts with
    | nil => exact absurd rfl hne
    | cons t r =>
      obtain ⟨h1, h2⟩ := clearTerms_mono (O := O) n (ts := r) fun x hx => h x (by simp [hx])
      refine ⟨?_, ?_⟩
      · rw [clear]; simp [clear_mono (h t (by simp)) n, h1]
      · show Ok (sumRepr (ctors O (n + 5)) (t :: r))
        exact Ok.bind (repr_mono (h t (by simp)) n) fun _ _ => Ok.bind h2 fun _ _ => ⟨_, rfl⟩

theorem syms_of_poly {e : Expr} (h : IsPolynomial v e) : ∀ x ∈ syms e, x = v := by
  have unit : ∀ {u}, VarPower v u → ∀ x ∈ syms u, x = v := by
    intro u h x hx
    cases h <;> simpa [syms] using hx
  have mono : ∀ {t}, Monomial v t → ∀ x ∈ syms t, x = v := by
    intro t h x hx
    cases h with
    | const c => simp [syms] at hx
    | unit h => exact unit h x hx
    | scaled c h => exact unit h x (by simpa [syms, symsL] using hx)
  rcases h with h | ⟨ts, rfl, hne, h⟩
  · exact mono h
  · exact (closed_syms (fun x => x = v)).sum.2 fun t ht => mono (h t ht)

theorem dom_poly {e : Expr} {ρ : Str → ℝ} (h : IsPolynomial v e) : Dom ρ e := by
  have unit : ∀ {u}, VarPower v u → DomS false ρ u := by
    intro u h
    cases h <;> simp [DomS, den, intExp, HN]
  have mono : ∀ {t}, Monomial v t → DomS false ρ t := by
    intro t h
    cases h with
    | const c => simp [DomS]
    | unit h => exact unit h
    | scaled c h => simp [DomS, DomSL, unit h]
  rcases h with h | ⟨ts, rfl, hne, h⟩
  · exact mono h
  · rw [Dom, DomS]; exact (DomSL_iff ρ ts).2 fun t ht => mono (h t ht)

end Simpy
