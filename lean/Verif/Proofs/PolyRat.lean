import Verif.Proofs.FactorSound

/-! Polynomials with rational coefficients. -/

namespace Simpy
open Expr

variable {O : Oracle}

theorem addAnswer_rat {C : Ctors} {c q : ℚ} {i : Nat} {ans : List ℚ} {r : List Expr}
    (h : addAnswer C (rat c) i (ans.map rat) (rat q) = .ok r) : ∃ bs : List ℚ, r = bs.map rat := by
  unfold addAnswer at h
  obtain ⟨nc, h1, h⟩ := bind_ok.1 h
  have h1' : nc = rat (c * q) := by simpa [opMul, eq_comm] using h1
  subst h1'
  rw [List.getElem?_map] at h
  cases hi : ans[i]? with
  | some old =>
    rw [hi] at h
    obtain ⟨s, h2, h⟩ := bind_ok.1 h
    have h2' : s = rat (old + c * q) := by simpa [opAdd, eq_comm] using h2
    have := (pure_ok.1 h).symm; subst this; subst h2'
    exact ⟨ans.set i (old + c * q), by rw [List.map_set]⟩
  | none =>
    rw [hi] at h
    have := (pure_ok.1 h).symm; subst this
    exact ⟨ans ++ List.replicate (i - ans.length) 0 ++ [c * q], by simp⟩

theorem varPower_contains {v : Str} {w : Expr} (h : varPower v w = true) : w.contains v = true := by
  cases w with
  | sym s => simpa [varPower, contains] using h
  | pow b x =>
    cases b <;> cases x <;> simp [varPower] at h
    simp [contains, h]
  | _ => simp [varPower] at h

theorem toPoly_varPower {C : Ctors} {v : Str} {w : Expr} {q : ℚ} {ans : List ℚ} {r : List Expr} (hw : varPower v w = true)
    (h : toPoly O C v w (ans.map rat) (rat q) = .ok r) : ∃ bs : List ℚ, r = bs.map rat := by
  have hc := varPower_contains hw
  unfold toPoly at h
  simp only [hc, Bool.not_true, Bool.false_eq_true, if_false] at h
  cases w with
  | sym s =>
    simp only at h
    split at h
    · exact addAnswer_rat h
    · simp at h
  | pow b x =>
    simp only at h
    split at h
    · split at h
      · exact addAnswer_rat h
      · simp at h
    · simp at h
  | _ => simp [varPower] at hw

theorem toPoly_ratTerm {C : Ctors} {v : Str} {w : Expr} {q : ℚ} {ans : List ℚ} {r : List Expr} (hw : ratTerm v w = true)
    (h : toPoly O C v w (ans.map rat) (rat q) = .ok r) : ∃ bs : List ℚ, r = bs.map rat := by
  have gen : varPower v w = true → ∃ bs : List ℚ, r = bs.map rat := fun hw => toPoly_varPower hw h
  cases w with
  | rat c =>
    unfold toPoly at h
    simp only [contains, Bool.not_false, if_true] at h
    exact addAnswer_rat h
  | prod us =>
    match us, hw with
    | [rat c, u], hw =>
      have hu : varPower v u = true := hw
      have hc : (prod [rat c, u]).contains v = true := by simp [contains, containsL, varPower_contains hu]
      unfold toPoly at h
      simp only [hc, Bool.not_true, Bool.false_eq_true, if_false] at h
      exact toPoly_varPower hu h
  | _ => exact gen hw

theorem toPolyL_rat {C : Ctors} {v : Str} : ∀ (ts : List Expr) {ans : List ℚ} {r : List Expr}, (∀ t ∈ ts, ratTerm v t = true) →
    toPolyL O C v ts (ans.map rat) = .ok r → ∃ bs : List ℚ, r = bs.map rat
  | [], ans, r, _, h => by simp only [toPolyL, Except.ok.injEq] at h; exact ⟨ans, h.symm⟩
  | t :: ts, ans, r, ht, h => by
    simp only [toPolyL] at h
    obtain ⟨a', h1, h⟩ := bind_ok.1 h
    obtain ⟨bs, rfl⟩ := toPoly_ratTerm (ht t (by simp)) h1
    exact toPolyL_rat ts (fun u hu => ht u (by simp [hu])) h

theorem toPoly_ratPoly {C : Ctors} {v : Str} {w : Expr} {r : List Expr} (hw : ratPoly v w = true)
    (h : toPoly O C v w [] (rat 1) = .ok r) : ∃ bs : List ℚ, r = bs.map rat := by
  have gen : ratTerm v w = true → ∃ bs : List ℚ, r = bs.map rat := fun ht => toPoly_ratTerm (ans := []) ht h
  cases w with
  | sum ts =>
    simp only [ratPoly, Bool.and_eq_true, List.all_eq_true] at hw
    have hc : (sum ts).contains v = true := hw.2
    unfold toPoly at h
    simp only [hc, Bool.not_true, Bool.false_eq_true, if_false] at h
    exact toPolyL_rat ts (ans := []) hw.1 h
  | _ => exact gen hw

theorem ratTerm_plain {v : Str} {w : Expr} (h : ratTerm v w = true) : plainTerms w = true := by
  cases w with
  | prod us =>
    match us, h with
    | [rat c, u], h =>
      have hu : varPower v u = true := h
      simp only [plainTerms]
      cases u <;> simp [varPower] at hu <;> rfl
  | sum ts => simp [ratTerm, varPower] at h
  | _ => rfl

theorem ratPoly_plain {v : Str} {w : Expr} (h : ratPoly v w = true) : plainTerms w = true := by
  have gen : ratTerm v w = true → plainTerms w = true := ratTerm_plain
  cases w with
  | sum ts =>
    simp only [ratPoly, Bool.and_eq_true, List.all_eq_true] at h
    simp only [plainTerms, plainTermsL_iff]
    exact fun t ht => ratTerm_plain (h.1 t ht)
  | _ => exact gen h

/-! ### polynomial division of rational lists -/

theorem polyVal_rats {ρ : Str → ℝ} {t : ℝ} (a : List ℚ) : polyVal ρ (a.map rat) t = a.foldr (fun c r => (c : ℝ) + t * r) 0 := by
  induction a with
  | nil => rfl
  | cons c r ih => simp [polyVal, ih]

theorem quoInit_rat (num dn : List ℚ) : quoInit (num.map rat) (dn.map rat) =
    (List.replicate (num.length - dn.length + 1) (0 : ℚ)).map rat := by simp [quoInit]

theorem divLoop_rats (hO : O.Exact) {n k : Nat} {num dn : List ℚ} {b : ℚ} (hb : dn.getLast? = some b) (hb0 : b ≠ 0)
    (hle : dn.length ≤ num.length) (hk : num.length < k + dn.length) :
    ∃ quo rem : List ℚ, divLoop O (ctors O n) (dn.map rat) k (quoInit (num.map rat) (dn.map rat)) (num.map rat) =
        .ok (quo.map rat, rem.map rat) ∧ rem.length < dn.length ∧ quo.length = num.length - dn.length + 1 ∧
      ∀ (ρ : Str → ℝ) (t : ℝ), polyVal ρ (num.map rat) t =
        polyVal ρ (quo.map rat) t * polyVal ρ (dn.map rat) t + polyVal ρ (rem.map rat) t := by
  obtain ⟨quo, rem, h1, h2, h3⟩ := divLoop_rat (O := O) (C := ctors O n) hb hb0 k
    (List.replicate (num.length - dn.length + 1) (0 : ℚ)) num hk
  rw [← quoInit_rat] at h1
  refine ⟨quo, rem, h1, h2, by simpa using h3, fun ρ t => ?_⟩
  have := (divLoop_V hO (ρ := ρ) (st := false) (Good.rats dn) (by
      intro c hc
      rw [List.getLast?_map, hb] at hc
      simp only [Option.map_some, Option.some.injEq] at hc
      subst hc
      simpa using hb0) k (by rw [quoInit]; exact Good.zeros _) (Good.rats num) (by
      intro i hi
      simp only [List.length_map] at hi
      simp only [quoInit, List.length_map]
      rw [List.getElem?_replicate, if_pos (by omega)]) (divShrinks_rat hb hb0 k num) h1).2.2.2 t
  rw [← this, quoInit, polyVal_zeros]; ring

end Simpy
