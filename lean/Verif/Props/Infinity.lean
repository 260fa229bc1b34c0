import Verif.Spec.Infinity
import Verif.Proofs.ExactOracle
import Verif.Proofs.Check
import Verif.Proofs.MonoArith
import Mathlib.Analysis.SpecialFunctions.Pow.Asymptotics
import Mathlib.Topology.Instances.EReal.Lemmas

/-!
# C91: infinities

`ext e` is the extended real number for which the number `e` stands; a Float 0.0 counts as 0. `O.Ieee`: floating-point operations with
infinite operands are those of IEEE 754; `InRange`: the rational operands can be turned into floats.
-/

namespace Simpy
open Expr

variable {O : Oracle} {n : Nat} {a b : Expr} {x y : EReal}

namespace Inf

theorem coe_not_infinite (q : ℝ) : ¬ Infinite (q : EReal) := by simp [Infinite]

theorem range0 : FloatRange 0 := .inl rfl
theorem range_neg {q : ℚ} (h : FloatRange q) : FloatRange (-q) := by simpa [FloatRange] using h
theorem range_inv {q : ℚ} (h : FloatRange q) : FloatRange (1 / q) := by
  rcases h with rfl | ⟨h1, h2⟩
  · exact .inl (by simp)
  · have h0 : 0 < |q| := lt_of_lt_of_le (by positivity) h1
    refine .inr ⟨?_, ?_⟩
    · rw [abs_div, abs_one]; exact one_div_le_one_div_of_le h0 h2
    · rw [abs_div, abs_one, div_le_iff₀ h0]
      rw [div_le_iff₀ (by positivity)] at h1; linarith
theorem range_mid {q : ℚ} (h1 : 1 / 2 ^ 100 ≤ |q|) (h2 : |q| ≤ 2 ^ 100) : FloatRange q :=
  .inr ⟨le_trans (one_div_le_one_div_of_le (by positivity) (pow_le_pow_right₀ (by norm_num) (by norm_num))) h1,
    h2.trans (pow_le_pow_right₀ (by norm_num) (by norm_num))⟩
theorem range1 : FloatRange 1 := range_mid (by norm_num) (by norm_num)
theorem range2 : FloatRange 2 := range_mid (by norm_num) (by norm_num)

theorem aTT (h : O.Ieee) : O.add .pinf .pinf = .ok .pinf := by simpa using h.add (a := .pinf) (b := .pinf) rfl rfl trivial trivial (.inl (.inl rfl))
theorem aBB (h : O.Ieee) : O.add .ninf .ninf = .ok .ninf := by simpa using h.add (a := .ninf) (b := .ninf) rfl rfl trivial trivial (.inl (.inr rfl))
theorem aTB (h : O.Ieee) : O.add .pinf .ninf = .ok .nan := by simpa using h.add (a := .pinf) (b := .ninf) rfl rfl trivial trivial (.inl (.inl rfl))
theorem aBT (h : O.Ieee) : O.add .ninf .pinf = .ok .nan := by simpa using h.add (a := .ninf) (b := .pinf) rfl rfl trivial trivial (.inl (.inr rfl))
theorem aTR (h : O.Ieee) {q : ℚ} (hq : FloatRange q) : O.add .pinf (.frac q) = .ok .pinf := by
  simpa using h.add (a := .pinf) (b := .frac q) rfl rfl trivial hq (.inl (.inl rfl))
theorem aRT (h : O.Ieee) {q : ℚ} (hq : FloatRange q) : O.add (.frac q) .pinf = .ok .pinf := by
  simpa using h.add (a := .frac q) (b := .pinf) rfl rfl hq trivial (.inr (.inl rfl))
theorem aBR (h : O.Ieee) {q : ℚ} (hq : FloatRange q) : O.add .ninf (.frac q) = .ok .ninf := by
  simpa using h.add (a := .ninf) (b := .frac q) rfl rfl trivial hq (.inl (.inr rfl))
theorem aRB (h : O.Ieee) {q : ℚ} (hq : FloatRange q) : O.add (.frac q) .ninf = .ok .ninf := by
  simpa using h.add (a := .frac q) (b := .ninf) rfl rfl hq trivial (.inr (.inr rfl))

/-- The infinity with the sign of `q`, not a number if there is none. -/
def infOf (q : ℚ) : PyNum := if q = 0 then .nan else if 0 < q then .pinf else .ninf

theorem mTB (h : O.Ieee) : O.mul .pinf .ninf = .ok .ninf := by simpa using h.mul (a := .pinf) (b := .ninf) rfl rfl trivial trivial (.inl (.inl rfl))
theorem mBT (h : O.Ieee) : O.mul .ninf .pinf = .ok .ninf := by simpa using h.mul (a := .ninf) (b := .pinf) rfl rfl trivial trivial (.inl (.inr rfl))
theorem mTR (h : O.Ieee) {q : ℚ} (hq : FloatRange q) : O.mul .pinf (.frac q) = .ok (infOf q) := by
  simpa [infOf] using h.mul (a := .pinf) (b := .frac q) rfl rfl trivial hq (.inl (.inl rfl))
theorem mRT (h : O.Ieee) {q : ℚ} (hq : FloatRange q) : O.mul (.frac q) .pinf = .ok (infOf q) := by
  simpa [infOf] using h.mul (a := .frac q) (b := .pinf) rfl rfl hq trivial (.inr (.inl rfl))
theorem mBR (h : O.Ieee) {q : ℚ} (hq : FloatRange q) : O.mul .ninf (.frac q) = .ok (infOf (-q)) := by
  have := h.mul (a := .ninf) (b := .frac q) rfl rfl trivial hq (.inl (.inr rfl))
  rw [this]
  unfold infOf
  rcases lt_trichotomy q 0 with h | h | h
  · simp [h, h.ne, h.le]
  · simp [h]
  · simp [h, h.ne', h.le, not_lt.2]
theorem mRB (h : O.Ieee) {q : ℚ} (hq : FloatRange q) : O.mul (.frac q) .ninf = .ok (infOf (-q)) := by
  have := h.mul (a := .frac q) (b := .ninf) rfl rfl hq trivial (.inr (.inr rfl))
  rw [this]
  unfold infOf
  rcases lt_trichotomy q 0 with h | h | h
  · simp [h, h.ne, h.le]
  · simp [h]
  · simp [h, h.ne', h.le, not_lt.2]

variable {C : Ctors}

theorem inf1 : infOf 1 = .pinf := rfl
theorem infm1 : infOf (-1) = .ninf := rfl

local macro "run" : tactic => `(tactic| simp [sumCtor, flatSL, flatS, combineSum, combineSumLoop, isAcc, accumulateSum, foldNum, numAdd, value,
  const, beq, bind, Except.bind, pure, Except.pure, aTT, aBB, aTB, aBT, aTR, aRT, aBR, aRB, range0, *])

theorem sTR (h : O.Ieee) {q : ℚ} (hq : FloatRange q) : sumCtor O C [inf, rat q] = .ok inf := by run
theorem sRT (h : O.Ieee) {q : ℚ} (hq : FloatRange q) : sumCtor O C [rat q, inf] = .ok inf := by run
theorem sBR (h : O.Ieee) {q : ℚ} (hq : FloatRange q) : sumCtor O C [neginf, rat q] = .ok neginf := by run
theorem sRB (h : O.Ieee) {q : ℚ} (hq : FloatRange q) : sumCtor O C [rat q, neginf] = .ok neginf := by run
theorem sTT (h : O.Ieee) : sumCtor O C [inf, inf] = .ok inf := by run
theorem sBB (h : O.Ieee) : sumCtor O C [neginf, neginf] = .ok neginf := by run
theorem sTB (h : O.Ieee) : sumCtor O C [inf, neginf] = .ok (flt .nan) := by run
theorem sBT (h : O.Ieee) : sumCtor O C [neginf, inf] = .ok (flt .nan) := by run

theorem const_infOf {q : ℚ} : beq O (const (infOf q)) (rat 0) = false ∧ beq O (const (infOf q)) (rat 1) = false := by
  unfold infOf; split_ifs <;> exact ⟨rfl, rfl⟩

local macro "prun" : tactic => `(tactic| simp [prodCtor, flatPL, flatP, combineProd, combineProdLoop, deconPow, isAcc, accumulateProd, foldNum,
  numMul, value, const_infOf, inf1, infm1, beq, bind, Except.bind, pure, Except.pure, mTB, mBT, mTR, mRT, mBR, mRB, range1, *])

theorem pTR (h : O.Ieee) {q : ℚ} (hq : FloatRange q) : prodCtor O C [inf, rat q] = .ok (const (infOf q)) := by prun
theorem pRT (h : O.Ieee) {q : ℚ} (hq : FloatRange q) : prodCtor O C [rat q, inf] = .ok (const (infOf q)) := by prun
theorem pBR (h : O.Ieee) {q : ℚ} (hq : FloatRange q) : prodCtor O C [neginf, rat q] = .ok (const (infOf (-q))) := by prun
theorem pRB (h : O.Ieee) {q : ℚ} (hq : FloatRange q) : prodCtor O C [rat q, neginf] = .ok (const (infOf (-q))) := by prun
theorem pTB (h : O.Ieee) : prodCtor O C [inf, neginf] = .ok neginf := by prun; rfl
theorem pBT (h : O.Ieee) : prodCtor O C [neginf, inf] = .ok neginf := by prun; rfl

theorem powT (h : O.Ieee) {q : ℚ} (hq : FloatRange q) (h0 : q ≠ 0) : powCtor O C inf (rat q) = .ok (if 0 < q then inf else flt (.fin 0)) ∨ q = 1 := by
  by_cases h1 : q = 1
  · exact .inr h1
  · refine .inl ?_
    simp only [powCtor, beq, beq_iff_eq, h0, h1, if_false, isAcc, Bool.and_self, if_true, accumulatePower, value, h.powTop hq h0, Bool.false_eq_true]
    split_ifs <;> rfl

theorem powB (h : O.Ieee) {k : ℤ} (hk : |k| ≤ 2 ^ 53) (h0 : k ≠ 0) (h1 : k ≠ 1) : powCtor O C neginf (rat k) =
    .ok (if k < 0 then flt (.fin 0) else if k % 2 = 1 then neginf else inf) := by
  have h0' : (k : ℚ) ≠ 0 := by exact_mod_cast h0
  have h1' : (k : ℚ) ≠ 1 := by exact_mod_cast h1
  simp only [powCtor, beq, beq_iff_eq, h0', h1', if_false, isAcc, Bool.and_self, if_true, accumulatePower, value, h.powBot hk h0, Bool.false_eq_true]
  split_ifs <;> rfl

theorem pTT (h : O.Ieee) : prodCtor O (ctors O (n + 1)) [inf, inf] = .ok inf := by
  have : (ctors O (n + 1)).pow inf (rat 2) = .ok inf := by
    rcases powT (C := ctors O n) h range2 (by norm_num) with h | h
    · rw [if_pos (by norm_num)] at h; exact h
    · norm_num at h
  have e : (1 : ℚ) + 1 = 2 := by norm_num
  have d : deconPow inf = (inf, rat 1) := rfl
  simp [prodCtor, flatPL, flatP, combineProd, combineProdLoop, d, isAcc, accumulateProd, beq, bind, Except.bind, pure, Except.pure,
    foldAdd, opAdd, likeFactor, this, e]

theorem pBB (h : O.Ieee) : prodCtor O (ctors O (n + 1)) [neginf, neginf] = .ok inf := by
  have : (ctors O (n + 1)).pow neginf (rat 2) = .ok inf := by
    have := powB (C := ctors O n) h (k := 2) (by norm_num) (by norm_num) (by norm_num)
    rw [if_neg (by norm_num), if_neg (by norm_num)] at this
    exact this
  have e : (1 : ℚ) + 1 = 2 := by norm_num
  have d : deconPow neginf = (neginf, rat 1) := rfl
  simp [prodCtor, flatPL, flatP, combineProd, combineProdLoop, d, isAcc, accumulateProd, beq, bind, Except.bind, pure, Except.pure,
    foldAdd, opAdd, likeFactor, this, e]

theorem coe_pos {q : ℚ} : (0 : EReal) < ((q : ℝ) : EReal) ↔ 0 < q := by
  rw [← EReal.coe_zero, EReal.coe_lt_coe_iff]; exact_mod_cast Iff.rfl

theorem ext_infOf {q : ℚ} (h : q ≠ 0) : ext (const (infOf q)) = some (((q : ℝ) : EReal) * ⊤) := by
  unfold infOf
  rw [if_neg h]
  rcases lt_or_gt_of_ne h with h | h
  · rw [if_neg (by linarith), EReal.coe_mul_top_of_neg (by exact_mod_cast h)]; rfl
  · rw [if_pos h, EReal.coe_mul_top_of_pos (by exact_mod_cast h)]; rfl

theorem ext_infOf_neg {q : ℚ} (h : q ≠ 0) : ext (const (infOf (-q))) = some (((q : ℝ) : EReal) * ⊥) := by
  unfold infOf
  rw [if_neg (by simpa using h)]
  rcases lt_or_gt_of_ne h with h | h
  · rw [if_pos (by linarith), EReal.coe_mul_bot_of_neg (by exact_mod_cast h)]; rfl
  · rw [if_neg (by linarith), EReal.coe_mul_bot_of_pos (by exact_mod_cast h)]; rfl

/-- `q` times a Float 0.0. -/
theorem pR0 (h : O.Ieee) {p : ℚ} (hp0 : FloatRange p) : ∃ r, prodCtor O (ctors O (n + 1)) [rat p, flt (.fin 0)] = .ok r ∧ ext r = some 0 := by
  by_cases hp : p = 0
  · subst hp
    have hpow : (ctors O (n + 1)).pow (rat 0) (rat 2) = .ok (rat 0) := by
      show powCtor O (ctors O n) (rat 0) (rat 2) = .ok (rat 0)
      simp [powCtor, beq, isAcc, accumulatePower, accumulatePowerRat]
    have e : (1 : ℚ) + 1 = 2 := by norm_num
    have d : ∀ t, t = rat 0 ∨ t = flt (.fin 0) → deconPow t = (t, rat 1) := by rintro t (rfl | rfl) <;> rfl
    refine ⟨rat 0, ?_, by simp [ext]⟩
    simp [prodCtor, flatPL, flatP, combineProd, combineProdLoop, d, isAcc, accumulateProd, beq, bind, Except.bind, pure, Except.pure,
      foldAdd, opAdd, likeFactor, hpow, e]
  · have hp' : ¬ 0 = p := fun h => hp h.symm
    have d : ∀ t, t = rat p ∨ t = flt (.fin 0) → deconPow t = (t, rat 1) := by rintro t (rfl | rfl) <;> rfl
    refine ⟨flt (.fin 0), ?_, by simp [ext]⟩
    simp [prodCtor, flatPL, flatP, combineProd, combineProdLoop, d, isAcc, accumulateProd, beq, bind, Except.bind, pure, Except.pure,
      hp', foldNum, numMul, value, h.mulZero hp0, const]

end Inf
open Inf

/-- **C91** `a + b` is the sum of the extended real numbers, unless the operands are opposite infinities. -/
theorem inf_add (h : O.Ieee) (n : Nat) (ha : Ext a) (hb : Ext b) (ra : InRange a) (rb : InRange b) (hx : ext a = some x) (hy : ext b = some y)
    (h1 : ¬ (x = ⊤ ∧ y = ⊥)) (h2 : ¬ (x = ⊥ ∧ y = ⊤)) : ∃ r, opAdd (ctors O (n + 1)) a b = .ok r ∧ Ext r ∧ ext r = some (x + y) := by
  cases ha with
  | rat p =>
    cases hb with
    | rat q =>
      cases hx; cases hy
      exact ⟨_, rfl, .rat _, by simp [ext]⟩
    | inf => cases hx; cases hy; exact ⟨_, sRT h ra, .inf, rfl⟩
    | neginf => cases hx; cases hy; exact ⟨_, sRB h ra, .neginf, rfl⟩
  | inf =>
    cases hb with
    | rat q => cases hx; cases hy; exact ⟨_, sTR h rb, .inf, rfl⟩
    | inf => cases hx; cases hy; exact ⟨_, sTT h, .inf, rfl⟩
    | neginf => cases hx; cases hy; exact absurd ⟨rfl, rfl⟩ h1
  | neginf =>
    cases hb with
    | rat q => cases hx; cases hy; exact ⟨_, sBR h rb, .neginf, rfl⟩
    | inf => cases hx; cases hy; exact absurd ⟨rfl, rfl⟩ h2
    | neginf => cases hx; cases hy; exact ⟨_, sBB h, .neginf, rfl⟩

/-- **C91** `a * b` is the product of the extended real numbers, unless one is 0 and the other infinite. -/
theorem inf_mul (h : O.Ieee) (n : Nat) (ha : Ext a) (hb : Ext b) (ra : InRange a) (rb : InRange b) (hx : ext a = some x) (hy : ext b = some y)
    (h1 : ¬ (x = 0 ∧ Infinite y)) (h2 : ¬ (Infinite x ∧ y = 0)) :
    ∃ r, opMul (ctors O (n + 2)) a b = .ok r ∧ Ext r ∧ ext r = some (x * y) := by
  have sgn : ∀ q : ℚ, q ≠ 0 → Ext (const (infOf q)) := by
    intro q hq
    unfold infOf
    rw [if_neg hq]
    split_ifs
    · exact .inf
    · exact .neginf
  cases ha with
  | rat p =>
    cases hb with
    | rat q =>
      cases hx; cases hy
      exact ⟨_, rfl, .rat _, by simp [ext]⟩
    | inf =>
      cases hx; cases hy
      have hp : p ≠ 0 := by rintro rfl; exact h1 ⟨by simp, .inl rfl⟩
      exact ⟨_, pRT h ra, sgn p hp, ext_infOf hp⟩
    | neginf =>
      cases hx; cases hy
      have hp : p ≠ 0 := by rintro rfl; exact h1 ⟨by simp, .inr rfl⟩
      exact ⟨_, pRB h ra, sgn _ (by simpa using hp), ext_infOf_neg hp⟩
  | inf =>
    cases hb with
    | rat q =>
      cases hx; cases hy
      have hp : q ≠ 0 := by rintro rfl; exact h2 ⟨.inl rfl, by simp⟩
      exact ⟨_, pTR h rb, sgn q hp, by rw [ext_infOf hp, mul_comm]⟩
    | inf => cases hx; cases hy; exact ⟨_, pTT h, .inf, rfl⟩
    | neginf => cases hx; cases hy; exact ⟨_, pTB h, .neginf, rfl⟩
  | neginf =>
    cases hb with
    | rat q =>
      cases hx; cases hy
      have hp : q ≠ 0 := by rintro rfl; exact h2 ⟨.inr rfl, by simp⟩
      exact ⟨_, pBR h rb, sgn _ (by simpa using hp), by rw [ext_infOf_neg hp, mul_comm]⟩
    | inf => cases hx; cases hy; exact ⟨_, pBT h, .neginf, rfl⟩
    | neginf => cases hx; cases hy; exact ⟨_, pBB h, .inf, rfl⟩

/-- **C91** `-a`. -/
theorem inf_neg (C : Ctors) (ha : Ext a) (hx : ext a = some x) : ∃ r, opNeg C a = .ok r ∧ Ext r ∧ ext r = some (-x) := by
  cases ha <;> cases hx
  · exact ⟨_, rfl, .rat _, by simp [ext]⟩
  · exact ⟨_, rfl, .neginf, rfl⟩
  · exact ⟨_, rfl, .inf, rfl⟩

/-- **C91** `a - b`. -/
theorem inf_sub (h : O.Ieee) (n : Nat) (ha : Ext a) (hb : Ext b) (ra : InRange a) (rb : InRange b) (hx : ext a = some x) (hy : ext b = some y)
    (h1 : ¬ (x = ⊤ ∧ y = ⊤)) (h2 : ¬ (x = ⊥ ∧ y = ⊥)) : ∃ r, opSub (ctors O (n + 2)) a b = .ok r ∧ Ext r ∧ ext r = some (x - y) := by
  have neg : ∃ m, opMul (ctors O (n + 2)) (rat (-1)) b = .ok m ∧ Ext m ∧ InRange m ∧ ext m = some (-y) := by
    cases hb <;> cases hy
    · rename_i q
      refine ⟨rat (-1 * q), rfl, .rat _, ?_, ?_⟩
      · rw [neg_one_mul]; exact range_neg rb
      · simp [ext]
    · exact ⟨neginf, pRT (C := ctors O (n + 1)) h (range_neg range1), .neginf, trivial, rfl⟩
    · refine ⟨inf, ?_, .inf, trivial, rfl⟩
      have := pRB (C := ctors O (n + 1)) h (range_neg range1)
      rw [neg_neg] at this
      exact this
  have gen : (do let m ← opMul (ctors O (n + 2)) (rat (-1)) b; opAdd (ctors O (n + 2)) a m) = opSub (ctors O (n + 2)) a b →
      ∃ r, opSub (ctors O (n + 2)) a b = .ok r ∧ Ext r ∧ ext r = some (x - y) := by
    intro e
    obtain ⟨m, e1, e2, e4, e3⟩ := neg
    obtain ⟨r, r1, r2, r3⟩ := inf_add h (n + 1) ha e2 ra e4 hx e3 (by rw [EReal.neg_eq_bot_iff]; exact h1) (by rw [EReal.neg_eq_top_iff]; exact h2)
    refine ⟨r, ?_, r2, by rw [r3, sub_eq_add_neg]⟩
    rw [← e, e1]; exact r1
  cases ha with
  | rat p =>
    cases hb with
    | rat q =>
      cases hx; cases hy
      exact ⟨_, rfl, .rat _, by simp [ext]⟩
    | inf => exact gen rfl
    | neginf => exact gen rfl
  | inf => exact gen rfl
  | neginf => exact gen rfl

/-- **C91** `inf - inf` and `0 * inf` are nan. -/
theorem inf_indeterminate (h : O.Ieee) (n : Nat) : opAdd (ctors O (n + 1)) inf neginf = .ok (flt .nan) ∧
    opAdd (ctors O (n + 1)) neginf inf = .ok (flt .nan) ∧ opMul (ctors O (n + 1)) (rat 0) inf = .ok (flt .nan) ∧
    opMul (ctors O (n + 1)) inf (rat 0) = .ok (flt .nan) :=
  ⟨sTB h, sBT h, pRT h range0, pTR h range0⟩

/-- **C91** `|a|`. -/
theorem inf_abs (C : Ctors) (ha : Ext a) (hx : ext a = some x) : ∃ r, absCtor C a = .ok r ∧ Ext r ∧ ext r = some (max x (-x)) := by
  cases ha <;> cases hx
  · rename_i q
    refine ⟨_, rfl, .rat _, ?_⟩
    have : ((|q| : ℚ) : ℝ) = max (q : ℝ) (-q) := by simp [abs]
    rw [ext, this, ← EReal.coe_neg, EReal.coe_strictMono.monotone.map_max]
  · exact ⟨_, rfl, .inf, by simp [ext]⟩
  · exact ⟨_, rfl, .inf, by simp [ext]⟩

/-- **C91** `a / b` is the quotient of the extended real numbers unless `b` is 0 or both are infinite; a quotient by an infinity may be the
Float 0.0. -/
theorem inf_div (h : O.Ieee) (n : Nat) (ha : Ext a) (hb : Ext b) (ra : InRange a) (rb : InRange b)
    (hx : ext a = some x) (hy : ext b = some y) (h0 : y ≠ 0)
    (h1 : ¬ (Infinite x ∧ Infinite y)) : ∃ r, opDiv (ctors O (n + 3)) a b = .ok r ∧ ext r = some (x / y) := by
  have iT : (ctors O (n + 3)).pow inf (rat (-1)) = .ok (flt (.fin 0)) := by
    rcases powT (C := ctors O (n + 2)) h (range_neg range1) (by norm_num) with h | h
    · rw [if_neg (by norm_num)] at h; exact h
    · norm_num at h
  have iB : (ctors O (n + 3)).pow neginf (rat (-1)) = .ok (flt (.fin 0)) := by
    have := powB (C := ctors O (n + 2)) h (k := -1) (by norm_num) (by norm_num) (by norm_num)
    rw [if_pos (by norm_num)] at this; exact this
  have iR : ∀ q : ℚ, q ≠ 0 → (ctors O (n + 3)).pow (rat q) (rat (-1)) = .ok (rat (1 / q)) := fun q hq => Mono1.inv_rat _ hq
  cases ha with
  | rat p =>
    cases hb with
    | rat q =>
      cases hx; cases hy
      have hq : q ≠ 0 := by rintro rfl; exact h0 (by simp)
      refine ⟨rat (p / q), ?_, ?_⟩
      · simp [opDiv, hq]
      · rw [← EReal.coe_div]; simp [ext]
    | inf =>
      cases hx; cases hy
      obtain ⟨r, r1, r2⟩ := pR0 (n := n + 1) h ra
      refine ⟨r, ?_, by rw [r2, EReal.div_top]⟩
      show (do let i ← (ctors O (n + 3)).pow inf (rat (-1)); (ctors O (n + 3)).prod [rat p, i]) = _
      rw [iT]; exact r1
    | neginf =>
      cases hx; cases hy
      obtain ⟨r, r1, r2⟩ := pR0 (n := n + 1) h ra
      refine ⟨r, ?_, by rw [r2, EReal.div_bot]⟩
      show (do let i ← (ctors O (n + 3)).pow neginf (rat (-1)); (ctors O (n + 3)).prod [rat p, i]) = _
      rw [iB]; exact r1
  | inf =>
    cases hb with
    | rat q =>
      cases hx; cases hy
      have hq : q ≠ 0 := by rintro rfl; exact h0 (by simp)
      refine ⟨const (infOf (1 / q)), ?_, ?_⟩
      · show (do let i ← (ctors O (n + 3)).pow (rat q) (rat (-1)); (ctors O (n + 3)).prod [inf, i]) = _
        rw [iR q hq]; exact pTR h (range_inv rb)
      · rw [ext_infOf (by simpa using hq), mul_comm, EReal.div_eq_inv_mul, mul_comm, ← EReal.coe_inv]
        simp
    | inf => cases hx; cases hy; exact absurd ⟨.inl rfl, .inl rfl⟩ h1
    | neginf => cases hx; cases hy; exact absurd ⟨.inl rfl, .inr rfl⟩ h1
  | neginf =>
    cases hb with
    | rat q =>
      cases hx; cases hy
      have hq : q ≠ 0 := by rintro rfl; exact h0 (by simp)
      refine ⟨const (infOf (-(1 / q))), ?_, ?_⟩
      · show (do let i ← (ctors O (n + 3)).pow (rat q) (rat (-1)); (ctors O (n + 3)).prod [neginf, i]) = _
        rw [iR q hq]; exact pBR h (range_inv rb)
      · rw [ext_infOf_neg (by simpa using hq), mul_comm, EReal.div_eq_inv_mul, mul_comm, ← EReal.coe_inv]
        simp
    | inf => cases hx; cases hy; exact absurd ⟨.inr rfl, .inl rfl⟩ h1
    | neginf => cases hx; cases hy; exact absurd ⟨.inr rfl, .inr rfl⟩ h1

/-- **C91** `q / 0` is the infinity with the sign of `q`, `0 / 0` is nan; but `0 ** -1` raises ZeroDivisionError. -/
theorem div_zero (h : O.Ieee) (n : Nat) {q : ℚ} (rb : FloatRange q) : opDiv (ctors O (n + 1)) (rat q) (rat 0) =
      .ok (if q = 0 then flt .nan else if 0 < q then inf else neginf) ∧
    opPow O (ctors O (n + 1)) (rat 0) (rat (-1)) = .error .zeroDivision := by
  constructor
  · have hp : (ctors O (n + 1)).pow (rat 0) (rat (-1)) = .ok inf := by
      show powCtor O (ctors O n) (rat 0) (rat (-1)) = .ok inf
      have e1 : ¬ (-1 : ℚ) = 1 := by norm_num
      have e2 : ¬ (1 : ℚ) < 0 := by norm_num
      simp [e1, e2, powCtor, beq, isAcc, accumulatePower, accumulatePowerRat]
    have : opDiv (ctors O (n + 1)) (rat q) (rat 0) = (do let i ← (ctors O (n + 1)).pow (rat 0) (rat (-1)); (ctors O (n + 1)).prod [rat q, i]) := rfl
    rw [this, hp]
    have := pRT (C := ctors O n) h rb
    refine (show (ctors O (n + 1)).prod [rat q, inf] = _ from this).trans ?_
    unfold infOf
    split_ifs <;> rfl
  · have e : (-1 : ℚ).den = 1 ∧ (-1 : ℚ).num = -1 := by decide
    simp [opPow, fracPowInt, bind, Except.bind, e]

/-- **C91** comparison is that of the extended real numbers. -/
theorem inf_compare (O : Oracle) (ha : Ext a) (hb : Ext b) (hx : ext a = some x) (hy : ext b = some y) :
    (opLt O a b = true ↔ x < y) ∧ (opLe O a b = true ↔ x ≤ y) ∧ (opGt O a b = true ↔ y < x) ∧ (opGe O a b = true ↔ y ≤ x) ∧
    (beq O a b = true ↔ x = y) := by
  cases ha <;> cases hb <;> cases hx <;> cases hy <;>
    simp [opLt, opLe, opGt, opGe, isNum, numValue, value, PyNum.lt, PyNum.le, beq]

/-- **C91** A comparison of a number with an expression that is not a number is always False. -/
theorem compare_symbolic (O : Oracle) (a : Expr) (hb : b.isNum = false) :
    opLt O a b = false ∧ opLe O a b = false ∧ opGt O a b = false ∧ opGe O a b = false := by
  simp [opLt, opLe, opGt, opGe, hb]

/-! ## Powers are limits -/

theorem lim_top {f : ℝ → ℝ} {l : Filter ℝ} (h : Filter.Tendsto f l Filter.atTop) : Filter.Tendsto (fun t => (f t : EReal)) l (nhds ⊤) :=
  EReal.tendsto_coe_nhds_top_iff.2 h

theorem lim_bot {f : ℝ → ℝ} {l : Filter ℝ} (h : Filter.Tendsto f l Filter.atBot) : Filter.Tendsto (fun t => (f t : EReal)) l (nhds ⊥) :=
  EReal.tendsto_coe_nhds_bot_iff.2 h

theorem lim_coe {f : ℝ → ℝ} {l : Filter ℝ} {c : ℝ} (h : Filter.Tendsto f l (nhds c)) :
    Filter.Tendsto (fun t => (f t : EReal)) l (nhds (c : EReal)) := EReal.tendsto_coe.2 h

/-- **C91** `inf ** q` is the limit of `t ** q` as `t` grows. -/
theorem inf_pow (h : O.Ieee) (n : Nat) {q : ℚ} (hq : FloatRange q) : ∃ r y, opPow O (ctors O (n + 1)) inf (rat q) = .ok r ∧ ext r = some y ∧
    Filter.Tendsto (fun t : ℝ => ((t ^ (q : ℝ) : ℝ) : EReal)) Filter.atTop (nhds y) := by
  have e : opPow O (ctors O (n + 1)) inf (rat q) = powCtor O (ctors O n) inf (rat q) := rfl
  rw [e]
  by_cases h0 : q = 0
  · subst h0
    exact ⟨rat 1, 1, by simp [powCtor, beq], by simp [ext], by simpa using lim_coe (tendsto_const_nhds (x := (1 : ℝ)))⟩
  · by_cases h1 : q = 1
    · subst h1
      refine ⟨inf, ⊤, by simp [powCtor, beq], rfl, lim_top ?_⟩
      exact (Filter.tendsto_id : Filter.Tendsto id (Filter.atTop : Filter ℝ) _).congr fun t => by simp
    · have := (powT (C := ctors O n) h hq h0).resolve_right h1
      rcases lt_or_gt_of_ne h0 with hq | hq
      · rw [if_neg (by linarith)] at this
        refine ⟨_, 0, this, by simp [ext], ?_⟩
        have hq' : (0 : ℝ) < -(q : ℝ) := by have : (q : ℝ) < 0 := by exact_mod_cast hq
                                            linarith
        have := tendsto_rpow_neg_atTop hq'
        simp only [neg_neg] at this
        exact lim_coe this
      · rw [if_pos hq] at this
        exact ⟨_, ⊤, this, rfl, lim_top (tendsto_rpow_atTop (by exact_mod_cast hq))⟩

/-- **C91** `(-inf) ** k` with an integer `k` that is not too large is the limit of `t ** k` as `t` falls. -/
theorem neginf_pow (h : O.Ieee) (n : Nat) {k : ℤ} (hk : |k| ≤ 2 ^ 53) : ∃ r y, opPow O (ctors O (n + 1)) neginf (rat k) = .ok r ∧ ext r = some y ∧
    Filter.Tendsto (fun t : ℝ => ((t ^ k : ℝ) : EReal)) Filter.atBot (nhds y) := by
  have e : opPow O (ctors O (n + 1)) neginf (rat k) = powCtor O (ctors O n) neginf (rat k) := rfl
  rw [e]
  have flip : ∀ {l : Filter ℝ} {f : ℝ → ℝ}, Filter.Tendsto (fun t => f (-t)) Filter.atTop l → Filter.Tendsto f Filter.atBot l := by
    intro l f hf
    have := hf.comp Filter.tendsto_neg_atBot_atTop
    simpa [Function.comp_def] using this
  by_cases h0 : k = 0
  · subst h0
    exact ⟨rat 1, 1, by simp [powCtor, beq], by simp [ext], by simpa using lim_coe (tendsto_const_nhds (x := (1 : ℝ)))⟩
  by_cases h1 : k = 1
  · subst h1
    refine ⟨neginf, ⊥, by simp [powCtor, beq], rfl, lim_bot ?_⟩
    exact (Filter.tendsto_id : Filter.Tendsto id (Filter.atBot : Filter ℝ) _).congr fun t => by simp
  have := powB (C := ctors O n) h hk h0 h1
  rcases lt_or_gt_of_ne h0 with hk | hk
  · rw [if_pos hk] at this
    refine ⟨_, 0, this, by simp [ext], lim_coe (flip ?_)⟩
    have := tendsto_zpow_atTop_zero (𝕜 := ℝ) hk
    rcases Int.even_or_odd k with hp | hp
    · simpa [hp.neg_zpow] using this
    · simpa [hp.neg_zpow] using this.neg
  · rw [if_neg (by omega)] at this
    obtain ⟨m, rfl⟩ := Int.eq_ofNat_of_zero_le hk.le
    have hm : m ≠ 0 := by rintro rfl; exact h0 rfl
    have top := Filter.tendsto_pow_atTop (α := ℝ) hm
    rcases Int.even_or_odd (m : ℤ) with hp | hp
    · rw [if_neg (by rw [Int.even_iff] at hp; omega)] at this
      refine ⟨_, ⊤, this, rfl, lim_top (flip ?_)⟩
      simpa [((Int.even_coe_nat m).1 hp).neg_pow] using top
    · rw [if_pos (Int.odd_iff.1 hp)] at this
      refine ⟨_, ⊥, this, rfl, lim_bot (flip ?_)⟩
      have hp' : Odd m := by exact_mod_cast hp
      have := Filter.tendsto_neg_atTop_atBot.comp top
      refine this.congr fun t => ?_
      simp [hp'.neg_pow]

/-- **C91** `b ** inf` and `b ** -inf` with a positive rational number `b` are the limits of `b ** t`. -/
theorem rat_pow_inf (h : O.Ieee) (n : Nat) {b : ℚ} (rb : FloatRange b) (hb : 0 < b) (hb1 : b = 1 ∨ 1 / 2 ^ 52 ≤ |b - 1|) :
    (∃ r y, opPow O (ctors O (n + 1)) (rat b) inf = .ok r ∧ ext r = some y ∧
      Filter.Tendsto (fun t : ℝ => (((b : ℝ) ^ t : ℝ) : EReal)) Filter.atTop (nhds y)) ∧
    (∃ r y, opPow O (ctors O (n + 1)) (rat b) neginf = .ok r ∧ ext r = some y ∧
      Filter.Tendsto (fun t : ℝ => (((b : ℝ) ^ t : ℝ) : EReal)) Filter.atBot (nhds y)) := by
  have e : ∀ t, t = inf ∨ t = neginf → opPow O (ctors O (n + 1)) (rat b) t = powCtor O (ctors O n) (rat b) t := by
    rintro t (rfl | rfl) <;> rfl
  rw [e _ (.inl rfl), e _ (.inr rfl)]
  by_cases h1 : b = 1
  · subst h1
    have : ∀ l : Filter ℝ, Filter.Tendsto (fun t : ℝ => ((((1 : ℚ) : ℝ) ^ t : ℝ) : EReal)) l (nhds 1) := fun l => by
      simpa using lim_coe (l := l) (tendsto_const_nhds (x := (1 : ℝ)))
    exact ⟨⟨rat 1, 1, by simp [powCtor, beq], by simp [ext], this _⟩, ⟨rat 1, 1, by simp [powCtor, beq], by simp [ext], this _⟩⟩
  have p1 : powCtor O (ctors O n) (rat b) inf = .ok (if 1 < b then inf else flt (.fin 0)) := by
    simp only [powCtor, beq, beq_iff_eq, h1, if_false, isAcc, Bool.and_self, if_true, accumulatePower, value, h.topPow rb hb (hb1.resolve_left h1), Bool.false_eq_true]
    split_ifs <;> rfl
  have p2 : powCtor O (ctors O n) (rat b) neginf = .ok (if 1 < b then flt (.fin 0) else inf) := by
    simp only [powCtor, beq, beq_iff_eq, h1, if_false, isAcc, Bool.and_self, if_true, accumulatePower, value, h.botPow rb hb (hb1.resolve_left h1), Bool.false_eq_true]
    split_ifs <;> rfl
  rw [p1, p2]
  have hb' : (0 : ℝ) < b := by exact_mod_cast hb
  rcases lt_or_gt_of_ne h1 with hl | hl
  · have hl' : (b : ℝ) < 1 := by exact_mod_cast hl
    rw [if_neg (by linarith), if_neg (by linarith)]
    exact ⟨⟨_, 0, rfl, by simp [ext], lim_coe (tendsto_rpow_atTop_of_base_lt_one _ (by linarith) hl')⟩,
      ⟨_, ⊤, rfl, rfl, lim_top (tendsto_rpow_atBot_of_base_lt_one _ hb' hl')⟩⟩
  · have hl' : (1 : ℝ) < b := by exact_mod_cast hl
    rw [if_pos hl, if_pos hl]
    exact ⟨⟨_, ⊤, rfl, rfl, lim_top (tendsto_rpow_atTop_of_base_gt_one _ hl')⟩,
      ⟨_, 0, rfl, by simp [ext], lim_coe (tendsto_rpow_atBot_of_base_gt_one _ hl')⟩⟩

/-- **C91** the same for `e` and `pi`; the result is exact, whatever the floating-point arithmetic. -/
theorem const_pow_inf (hO : O.Exact) (n : Nat) (ρ : Str → ℝ) (hb : b = euler ∨ b = pi) :
    (opPow O (ctors O (n + 1)) b inf = .ok inf ∧ Filter.Tendsto (fun t : ℝ => ((den ρ b ^ t : ℝ) : EReal)) Filter.atTop (nhds ⊤)) ∧
    (opPow O (ctors O (n + 1)) b neginf = .ok (rat 0) ∧ Filter.Tendsto (fun t : ℝ => ((den ρ b ^ t : ℝ) : EReal)) Filter.atBot (nhds 0)) := by
  have h1 : 1 < den ρ b := by
    rcases hb with rfl | rfl
    · simpa [den] using (Real.one_lt_exp_iff (x := 1)).2 one_pos
    · simpa [den] using (by linarith [Real.two_le_pi] : (1 : ℝ) < Real.pi)
  refine ⟨⟨?_, lim_top (tendsto_rpow_atTop_of_base_gt_one _ h1)⟩, ?_, ?_⟩
  · rcases hb with rfl | rfl
    · rfl
    · show powCtor O (ctors O n) pi inf = .ok inf
      simp [powCtor, beq, hO.isPi, isAcc, powLog, powTail, powInf, numericBase, isNum, isSubtraction]
  · rcases hb with rfl | rfl
    · rfl
    · show powCtor O (ctors O n) pi neginf = .ok (rat 0)
      simp [powCtor, beq, hO.isPi, isAcc, powLog, powTail, powInf, numericBase, isNum, isSubtraction]
  · simpa using lim_coe (tendsto_rpow_atBot_of_base_gt_one _ h1)

/-- **C91** a power of an unknown, and of a function of one, to an infinite exponent stays a power: no limit is claimed. -/
theorem unknown_pow_inf (O : Oracle) (n : Nat) (v : Str) (f : TrigFn) (u : Expr) (hb : b = sym v ∨ b = trig f u ∨ b = absv u) :
    opPow O (ctors O (n + 1)) b inf = .ok (pow b inf) ∧ opPow O (ctors O (n + 1)) b neginf = .ok (pow b neginf) := by
  have e : ∀ t, t = inf ∨ t = neginf → opPow O (ctors O (n + 1)) b t = powCtor O (ctors O n) b t := by
    rcases hb with rfl | rfl | rfl <;> rintro t (rfl | rfl) <;> rfl
  rw [e _ (.inl rfl), e _ (.inr rfl)]
  rcases hb with rfl | rfl | rfl <;>
    simp [powCtor, beq, isAcc, powLog, powTail, powInf, numericBase, isNum, isSubtraction]

example (n : Nat) : opPow exactOracle (ctors exactOracle (n + 1)) (sym ['x']) inf = .ok (pow (sym ['x']) inf) := (unknown_pow_inf exactOracle n ['x'] .sin (rat 0) (.inl rfl)).1

/-- **C91** so does a power of a negative multiple of `e` or `pi`: `b ** t` has no limit. -/
theorem negative_pow_inf (O : Oracle) (n : Nat) {q : ℚ} (hq : q < 0) {c : Expr} (hc : c = euler ∨ c = pi) (hb : b = prod [rat q, c]) :
    opPow O (ctors O (n + 1)) b inf = .ok (pow b inf) ∧ opPow O (ctors O (n + 1)) b neginf = .ok (pow b neginf) := by
  have e : ∀ t, t = inf ∨ t = neginf → opPow O (ctors O (n + 1)) b t = powCtor O (ctors O n) b t := by
    subst hb
    rintro t (rfl | rfl) <;> rfl
  rw [e _ (.inl rfl), e _ (.inr rfl)]
  subst hb
  rcases hc with rfl | rfl <;>
    simp [powCtor, beq, isAcc, powLog, powTail, powInf, numericBase, allNum, isNum, isSubtraction, hq]

example (n : Nat) : opPow exactOracle (ctors exactOracle (n + 1)) (prod [rat (-2), pi]) inf = .ok (pow (prod [rat (-2), pi]) inf) :=
  (negative_pow_inf exactOracle n (q := -2) (by norm_num) (.inr rfl) rfl).1

/-! ## Such an arithmetic exists -/

/-- Additions and multiplications with infinities as in IEEE 754, powers as in C. -/
def ieeeOracle : Oracle := { exactOracle with
  mul := fun a b => match a, b with
    | .frac _, .fin q => if q = 0 then .ok (.fin 0) else .error .overflow
    | a, b => infMul a b
  pow := fun a b => match a, b with
    | .pinf, .frac q => .ok (if 0 < q then .pinf else .fin 0)
    | .ninf, .frac q => .ok (if q < 0 then .fin 0 else if q.num % 2 = 1 then .ninf else .pinf)
    | .frac q, .pinf => .ok (if 1 < q then .pinf else .fin 0)
    | .frac q, .ninf => .ok (if 1 < q then .fin 0 else .pinf)
    | _, _ => .error .overflow }

theorem ieeeOracle_exact : ieeeOracle.Exact := ⟨exactOracle_exact.intPow, exactOracle_exact.isPi, exactOracle_exact.isE⟩

theorem ieeeOracle_ieee : ieeeOracle.Ieee where
  add := by
    intro a b x y ha hb _ _ hi
    show infAdd a b = _
    cases a <;> cases b <;> simp only [PyNum.ext, Option.some.injEq, reduceCtorEq] at ha hb <;> subst ha <;> subst hb <;>
      simp [Infinite, infAdd] at hi ⊢
  mul := by
    intro a b x y ha hb _ _ hi
    cases a <;> cases b <;> simp only [PyNum.ext, Option.some.injEq, reduceCtorEq] at ha hb <;> subst ha <;> subst hb <;>
      simp only [ieeeOracle] <;> simp [Infinite] at hi ⊢ <;> simp [infMul, PyNum.sign] <;> split_ifs <;> simp_all <;> linarith
  mulZero := fun {q} _ => by simp [ieeeOracle]
  powTop := fun _ h => rfl
  powBot := fun {k} _ h => by simp [ieeeOracle]; rfl
  topPow := fun _ h h1 => rfl
  botPow := fun _ h h1 => rfl

/-- `0 < inf`, `inf > -inf`, `-inf < -2039` (tests/test_nums.py:18-26), `not 2 < x`. -/
example : opLt exactOracle (rat 0) inf = true ∧ opGt exactOracle inf neginf = true ∧ opLt exactOracle neginf (rat (-2039)) = true ∧
    opLt exactOracle (rat 2) (sym ['x']) = false := by decide +kernel

/-- `-7/2 * inf`, `1 / inf`, `inf - 3`, `2 ** -inf`. -/
example : (∃ r, opMul (ctors ieeeOracle 5) (rat (-7 / 2)) inf = .ok r ∧ ext r = some ((((-7 / 2 : ℚ) : ℝ) : EReal) * ⊤)) ∧
    (∃ r, opDiv (ctors ieeeOracle 5) (rat 1) inf = .ok r ∧ ext r = some ((((1 : ℚ) : ℝ) : EReal) / ⊤)) ∧
    (∃ r, opSub (ctors ieeeOracle 5) inf (rat 3) = .ok r ∧ ext r = some (⊤ - (((3 : ℚ) : ℝ) : EReal))) ∧
    (opMul (ctors ieeeOracle 5) (rat (-7 / 2)) inf = .ok neginf ∧ opDiv (ctors ieeeOracle 5) (rat 1) inf = .ok (flt (.fin 0)) ∧
      opSub (ctors ieeeOracle 5) inf (rat 3) = .ok inf ∧ opPow ieeeOracle (ctors ieeeOracle 5) (rat 2) neginf = .ok (flt (.fin 0))) := by
  refine ⟨?_, ?_, ?_, by decide +kernel⟩
  · obtain ⟨r, h1, -, h2⟩ := inf_mul ieeeOracle_ieee 3 (.rat (-7 / 2)) .inf (range_mid (by norm_num) (by norm_num)) trivial rfl rfl (by norm_num) (by simp)
    exact ⟨r, h1, h2⟩
  · exact inf_div ieeeOracle_ieee 2 (.rat 1) .inf range1 trivial rfl rfl (by simp) fun h => coe_not_infinite _ h.1
  · obtain ⟨r, h1, -, h2⟩ := inf_sub ieeeOracle_ieee 3 .inf (.rat 3) trivial (range_mid (by norm_num) (by norm_num)) rfl rfl (by simp) (by simp)
    exact ⟨r, h1, h2⟩

end Simpy
