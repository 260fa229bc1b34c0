import Verif.Proofs.EvalfSound
import Mathlib.Analysis.Complex.ExponentialBounds

/-!
# C51: numerical evaluation
-/

namespace Simpy
open Expr

/-- **C51** `e.evalf()` converges to the value of `e`: for every `ε` there is a `δ` such that, on every floating-point arithmetic of accuracy
`δ`, whatever `e.evalf()` returns is a finite number within `ε` of the value of `e`. Partial: logarithms are natural (`evalf_log_fails`). -/
theorem evalf_converges_partial (ρ : Str → ℝ) (e : Expr) (hd : DomE ρ e) (ε : ℝ) (hε : 0 < ε) :
    ∃ δ : ℝ, 0 < δ ∧ ∀ O : Oracle, Accurate δ O → ∀ (n : ℕ) (r : Expr), evalfE O n e = .ok r →
      ∃ q : ℚ, (r = flt (.fin q) ∨ r = rat q) ∧ |(q : ℝ) - den ρ e| ≤ ε := by
  obtain ⟨δ, h0, h⟩ := evalf_U ρ e hd ε hε
  refine ⟨δ, h0, fun O hO n r hr => ?_⟩
  obtain ⟨q, hq, hd⟩ := h hO hr
  exact ⟨q, hq.imp id (fun ⟨k, h1, h2⟩ => by rw [h1, h2]), hd⟩

/-- **C51** `evalf` returns only for expressions without symbols (`Symbol._evalf` raises TypeError). -/
theorem evalf_symbol_free (O : Oracle) (n : ℕ) (e r : Expr) (h : evalfE O n e = .ok r) : syms e = [] := evalf_syms O n e r h

/-! ## Accurate arithmetics exist, and `evalf` returns on them -/

/-- A rational number within `δ` of `x`. -/
noncomputable def roundTo (δ : ℝ) (x : ℝ) : ℚ := open Classical in if h : ∃ q : ℚ, |(q : ℝ) - x| ≤ δ then h.choose else 0

theorem roundTo_near {δ : ℝ} (h : 0 < δ) (x : ℝ) : |((roundTo δ x : ℚ) : ℝ) - x| ≤ δ := by
  have he : ∃ q : ℚ, |(q : ℝ) - x| ≤ δ := by
    obtain ⟨q, hq⟩ := exists_rat_near x h
    exact ⟨q, by rw [abs_sub_comm]; exact hq.le⟩
  unfold roundTo
  rw [dif_pos he]
  exact he.choose_spec

/-- Arithmetic that rounds every result to a rational within `δ`. -/
noncomputable def roundingOracle (δ : ℝ) : Oracle where
  add a b := match a.num, b.num with
    | some p, some q => .ok (.fin (roundTo δ (p + q)))
    | _, _ => .error .value
  mul a b := match a.num, b.num with
    | some p, some q => .ok (.fin (roundTo δ (p * q)))
    | _, _ => .error .value
  pow a b := match a.num, b.num with
    | some p, some q => if p < 0 ∧ q.den ≠ 1 then .error .type else if p = 0 ∧ q ≤ 0 then .error .zeroDivision
      else .ok (.fin (roundTo δ (pw p q)))
    | _, _ => .error .value
  intPow _ _ := .ok none
  ratPow _ _ := .ok ()
  isPi _ := false
  isE _ := false
  piVal := roundTo δ Real.pi
  eVal := roundTo δ (Real.exp 1)
  toFloat q := .ok (.fin (roundTo δ q))
  log a := match a.num with
    | some p => if 0 < p then .ok (.fin (roundTo δ (Real.log p))) else .error .value
    | none => .error .value
  div _ _ := .error .value
  trig f a := match a.num with
    | some p => open Classical in if f.ok p then .ok (.fin (roundTo δ (f.real p))) else .error .value
    | none => .error .value
  frepr _ := []

theorem roundingOracle_accurate {δ : ℝ} (h : 0 < δ) : Accurate δ (roundingOracle δ) where
  add {a b v p q} ha hb _ _ hv := by
    simp only [roundingOracle, ha, hb] at hv
    cases hv
    exact ⟨_, rfl, roundTo_near h _⟩
  mul {a b v p q} ha hb _ _ hv := by
    simp only [roundingOracle, ha, hb] at hv
    cases hv
    exact ⟨_, rfl, roundTo_near h _⟩
  pow {a b v p q} ha hb _ _ _ _ hv := by
    simp only [roundingOracle, ha, hb] at hv
    split at hv
    · cases hv
    · split at hv
      · cases hv
      · cases hv
        exact ⟨_, rfl, roundTo_near h _⟩
  powReal {a b v p q} ha hb hv hp := by
    simp only [roundingOracle, ha, hb] at hv
    split at hv
    · cases hv
    · rename_i hn
      by_contra hq
      exact hn ⟨hp, hq⟩
  toFloat {v q} _ hv := by
    cases hv
    exact ⟨⟨_, rfl, roundTo_near h _⟩, fun p hp => by cases hp⟩
  pi := roundTo_near h _
  e := roundTo_near h _
  log {a v p} ha _ _ hv := by
    simp only [roundingOracle, ha] at hv
    split at hv
    · cases hv
      exact ⟨by assumption, _, rfl, roundTo_near h _⟩
    · cases hv
  trig {f a v p} ha _ _ hv := by
    simp only [roundingOracle, ha] at hv
    split at hv
    · cases hv
      exact ⟨by assumption, _, rfl, roundTo_near h _⟩
    · cases hv
  floats := by
    refine ⟨?_, ?_, ?_, ?_, ?_⟩ <;> intros <;> rintro rfl <;> rename_i hv <;> simp only [roundingOracle] at hv <;>
      (repeat' split at hv) <;> cases hv

/-- `sin(1) + ln(2) + pi` meets the hypotheses, at every accuracy, and `evalf` returns on it. -/
example (δ : ℝ) (hδ : 0 < δ) (h1 : δ < 1) : DomE (fun _ => 0) (sum [trig .sin (rat 1), log (rat 2) euler, pi]) ∧
    Accurate δ (roundingOracle δ) ∧ ∃ r, evalfE (roundingOracle δ) 3 (sum [trig .sin (rat 1), log (rat 2) euler, pi]) = .ok r := by
  refine ⟨by simp [DomE, DomEL, den, TrigFn.ok], roundingOracle_accurate hδ, ?_⟩
  have h2 : 0 < roundTo δ (2 : ℚ) := by
    have := (abs_le.1 (roundTo_near hδ ((2 : ℚ) : ℝ))).1
    have h3 : (0 : ℝ) < (roundTo δ ((2 : ℚ) : ℝ) : ℚ) := by push_cast at this ⊢; linarith
    exact_mod_cast h3
  have h2' : 0 < roundTo δ 2 := by simpa using h2
  have hs : ∀ t, TrigFn.ok .sin t := fun _ => trivial
  simp [evalfE, mapR, roundingOracle, PyNum.num, value, numValue, const, isNum, hs, h2', Bind.bind, Except.bind, Pure.pure, Except.pure,
    ctors, step, sumCtor, flatSL, flatS, combineSum, combineSumLoop, isAcc, accumulateSum, foldNum, numAdd]
  split_ifs <;> simp

/-- `log(8, 2)` is 3, but on no accurate arithmetic is `log(8, 2).evalf()` near 3: it is near `ln 8`. -/
theorem evalf_log_fails : den (fun _ => 0) (log (rat 8) (rat 2)) = 3 ∧ ∀ δ : ℝ, 0 < δ → δ ≤ 1 / 10 →
    (∃ r, Accurate δ (roundingOracle δ) ∧ evalfE (roundingOracle δ) 2 (log (rat 8) (rat 2)) = .ok r) ∧
    ∀ O : Oracle, Accurate δ O → ∀ (n : ℕ) (r : Expr), evalfE O n (log (rat 8) (rat 2)) = .ok r →
      ∀ q : ℚ, r = flt (.fin q) ∨ r = rat q → (q : ℝ) ≤ 29 / 10 := by
  constructor
  · have : Real.log 8 = 3 * Real.log 2 := by
      rw [show (8 : ℝ) = 2 ^ 3 by norm_num, Real.log_pow]; norm_num
    have h2 : Real.log 2 ≠ 0 := (Real.log_pos (by norm_num)).ne'
    simp [den, this, h2]
  intro δ h0 h1
  constructor
  · suffices hr : ∃ r, evalfE (roundingOracle δ) 2 (log (rat 8) (rat 2)) = .ok r by
      obtain ⟨r, hr⟩ := hr
      exact ⟨r, roundingOracle_accurate h0, hr⟩
    have h2 : 0 < roundTo δ (8 : ℚ) := by
      have := (abs_le.1 (roundTo_near h0 ((8 : ℚ) : ℝ))).1
      have h3 : (0 : ℝ) < (roundTo δ ((8 : ℚ) : ℝ) : ℚ) := by push_cast at this ⊢; linarith
      exact_mod_cast h3
    have h2' : 0 < roundTo δ 8 := by simpa using h2
    simp [evalfE, roundingOracle, PyNum.num, value, numValue, const, isNum, h2', Bind.bind, Except.bind, Pure.pure, Except.pure]
  · intro O hO n r h q hq
    have e10 : (10 : ℝ) ≤ 1 / δ := by rw [le_div_iff₀ h0]; linarith
    have e8 : |((8 : ℚ) : ℝ)| ≤ 1 / δ := by rw [abs_of_nonneg (by norm_num)]; push_cast; linarith
    have e2 : |((2 : ℚ) : ℝ)| ≤ 1 / δ := by rw [abs_of_nonneg (by norm_num)]; push_cast; linarith
    cases n with
    | zero => cases h
    | succ n =>
      obtain ⟨i', hi, h⟩ := bind_ok.1 h
      obtain ⟨b', hb, h⟩ := bind_ok.1 h
      cases n with
      | zero => cases hi
      | succ n =>
        obtain ⟨v, hv, hi⟩ := bind_ok.1 hi
        obtain ⟨w, hw, hb⟩ := bind_ok.1 hb
        cases hi
        cases hb
        obtain ⟨p, hp, hpd⟩ := (hO.toFloat e8 hv).1.approx (hO.toFloat e8 hv).2
        obtain ⟨s, hs, -⟩ := (hO.toFloat e2 hw).1.approx (hO.toFloat e2 hw).2
        rw [hp.const.isNum, hs.const.isNum, hp.const.numValue] at h
        simp only [Bool.and_self, if_true] at h
        obtain ⟨u, hu, h⟩ := bind_ok.1 h
        cases h
        obtain ⟨a1, a2⟩ := abs_le.1 hpd
        push_cast at a1 a2
        have p1 : (1 : ℝ) ≤ p := by linarith
        have p2 : (p : ℝ) ≤ 16 := by linarith
        have l2 : Real.log p ≤ 2.8 := by
          have h16 : Real.log 16 = 4 * Real.log 2 := by
            rw [show (16 : ℝ) = 2 ^ 4 by norm_num, Real.log_pow]; norm_num
          have := Real.log_two_lt_d9
          have := Real.log_le_log (by linarith) p2
          linarith
        have l1 : 0 ≤ Real.log p := Real.log_nonneg p1
        obtain ⟨-, z, hz, hzd⟩ := hO.log hp.const.value.num (by rw [abs_of_nonneg (by linarith)]; linarith)
          (by rw [abs_of_nonneg l1]; linarith) hu
        have : z = q := by
          cases u <;> simp [PyNum.num] at hz <;> simp [const] at hq
          · exact absurd rfl (hO.floats.2.2.2.1 _ _ _ hu)
          · exact hz.symm.trans hq
        subst this
        have := (abs_le.1 hzd).2
        linarith

end Simpy
