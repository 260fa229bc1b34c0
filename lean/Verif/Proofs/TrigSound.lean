import Verif.Model.Trig
import Verif.Proofs.DomF

/-! Soundness of the trigonometric and logarithm constructors. -/

namespace Simpy
open Expr

/-! ## Real-number facts -/

theorem pw_half {b : ℝ} (hb : 0 ≤ b) : pw b ((1 / 2 : ℚ) : ℝ) = √b := by
  rw [pw_of_nonneg hb, Real.sqrt_eq_rpow]; norm_num

theorem TrigFn.inner_of {f : TrigFn} (hf : f.isInverse = false) (t : ℝ) : f.inner t := by
  cases f <;> simp_all [TrigFn.isInverse, TrigFn.inner]

theorem WF_pi : WF pi := by simp [WF]
theorem Dom_pi (ρ : Str → ℝ) : DomS st ρ pi := by simp [DomS]
theorem den_pi (ρ : Str → ℝ) : den ρ pi = Real.pi := by simp [den]

section
variable {O : Oracle} {C : Ctors}

theorem opSqrt_W (hC : Sound C) {a r : Expr} (wa : WF a) (h : opSqrt O C a = .ok r) : WF r :=
  opPow_W hC wa (by simp) h

theorem opSqrt_V (hC : Sound C) {st : Bool} {ρ : Str → ℝ} {a r : Expr} (wa : WF a) (da : DomS st ρ a)
    (hr : RadOk ρ (rat (1 / 2)) a) (h0 : st = true → den ρ a ≠ 0) (h : opSqrt O C a = .ok r) : den ρ r = √(den ρ a) ∧ DomS st ρ r := by
  obtain ⟨v, d⟩ := opPow_V hC wa (by simp) ⟨da, by simp, .inr (by simp), fun _ => hr, fun hs => .inl (h0 hs)⟩ h
  refine ⟨?_, d⟩
  rw [v, den_rat, pw_half hr.nonneg]

theorem sqrtRat_V (hC : Sound C) (ρ : Str → ℝ) {q : ℚ} {r : Expr} (hq : 0 < q)
    (h : opSqrt O C (rat q) = .ok r) : den ρ r = √(q : ℝ) ∧ DomS st ρ r := by
  have := opSqrt_V hC (st := st) (ρ := ρ) (by simp) (by simp) (by simp only [RadOk, den_rat]; exact_mod_cast hq.le)
    (by intro _; simpa using hq.ne') h
  simpa using this

theorem overSqrt2_V (hC : Sound C) (ρ : Str → ℝ) {k : ℚ} {r : Expr} (h : overSqrt2 O C k = .ok r) :
    WF r ∧ den ρ r = k / √2 ∧ DomS st ρ r := by
  obtain ⟨s, hs, h⟩ := bind_ok.1 h
  have w := opSqrt_W hC (by simp) hs
  obtain ⟨v, d⟩ := sqrtRat_V hC ρ (by norm_num) hs
  have hne : den ρ s ≠ 0 := by rw [v]; norm_num
  obtain ⟨v2, d2⟩ := opDiv_V hC (by simp) w (by simp) d hne h
  exact ⟨opDiv_W hC (by simp) w h, by rw [v2, v]; simp, d2⟩

theorem sqrt3Over2_V (hC : Sound C) (ρ : Str → ℝ) {r : Expr} (h : sqrt3Over2 O C = .ok r) :
    WF r ∧ den ρ r = √3 / 2 ∧ DomS st ρ r := by
  obtain ⟨s, hs, h⟩ := bind_ok.1 h
  have w := opSqrt_W hC (by simp) hs
  obtain ⟨v, d⟩ := sqrtRat_V hC ρ (by norm_num) hs
  obtain ⟨v2, d2⟩ := opDiv_V hC w (by simp) d (by simp) (by simp) h
  exact ⟨opDiv_W hC w (by simp) h, by rw [v2, v]; simp, d2⟩

theorem negSqrt3Over2_V (hC : Sound C) (ρ : Str → ℝ) {r : Expr} (h : negSqrt3Over2 O C = .ok r) :
    WF r ∧ den ρ r = -(√3 / 2) ∧ DomS st ρ r := by
  obtain ⟨s, hs, h⟩ := bind_ok.1 h
  obtain ⟨m, hm, h⟩ := bind_ok.1 h
  have w := opSqrt_W hC (by simp) hs
  obtain ⟨v, d⟩ := sqrtRat_V hC ρ (by norm_num) hs
  have wm := opNeg_W hC w hm
  obtain ⟨vm, dm⟩ := opNeg_V hC w d hm
  obtain ⟨v2, d2⟩ := opDiv_V hC wm (by simp) dm (by simp) (by simp) h
  exact ⟨opDiv_W hC wm (by simp) h, by rw [v2, vm, v]; simp [neg_div], d2⟩

theorem opNegRat {q : ℚ} {r : Expr} (h : opNeg C (rat q) = .ok r) : r = rat (-q) := by
  simp only [opNeg, Except.ok.injEq] at h; exact h.symm

theorem one_div_sqrt2 : (1:ℝ) / √2 = √2 / 2 := by
  rw [div_eq_div_iff (by norm_num) (by norm_num)]
  have := Real.mul_self_sqrt (show (0:ℝ) ≤ 2 by norm_num)
  linarith

theorem ite_cases {P : Prop} [Decidable P] {a b : R Expr} {r : Expr} (h : (if P then a else b) = .ok r) :
    (P ∧ a = .ok r) ∨ (¬P ∧ b = .ok r) := by
  by_cases hP : P
  · rw [if_pos hP] at h; exact .inl ⟨hP, h⟩
  · rw [if_neg hP] at h; exact .inr ⟨hP, h⟩

theorem sinSpecial_V (hC : Sound C) (ρ : Str → ℝ) {k : ℚ} {r : Expr} (h : sinSpecial O C k = .ok r) :
    WF r ∧ den ρ r = Real.sin (k * Real.pi) ∧ DomS st ρ r := by
  have hpi := Real.pi_pos
  have os := one_div_sqrt2
  unfold sinSpecial at h
  rcases ite_cases h with ⟨hk, h⟩ | ⟨_, h⟩
  · simp only [Except.ok.injEq] at h; subst h hk; simp
  rcases ite_cases h with ⟨hk, h⟩ | ⟨_, h⟩
  ·
    simp only [Except.ok.injEq] at h; subst h hk
    refine ⟨by simp, ?_, by simp⟩
    have : ((1 / 6 : ℚ) : ℝ) * Real.pi = Real.pi / 6 := by push_cast; ring
    rw [this, Real.sin_pi_div_six]; simp
  rcases ite_cases h with ⟨hk, h⟩ | ⟨_, h⟩
  ·
    obtain ⟨w, v, d⟩ := overSqrt2_V hC ρ h
    subst hk
    refine ⟨w, ?_, d⟩
    have : ((1 / 4 : ℚ) : ℝ) * Real.pi = Real.pi / 4 := by push_cast; ring
    rw [v, this, Real.sin_pi_div_four, ← os]; simp
  rcases ite_cases h with ⟨hk, h⟩ | ⟨_, h⟩
  ·
    obtain ⟨w, v, d⟩ := sqrt3Over2_V hC ρ h
    subst hk
    refine ⟨w, ?_, d⟩
    have : ((1 / 3 : ℚ) : ℝ) * Real.pi = Real.pi / 3 := by push_cast; ring
    rw [v, this, Real.sin_pi_div_three]
  rcases ite_cases h with ⟨hk, h⟩ | ⟨_, h⟩
  ·
    simp only [Except.ok.injEq] at h; subst h hk
    refine ⟨by simp, ?_, by simp⟩
    have : ((1 / 2 : ℚ) : ℝ) * Real.pi = Real.pi / 2 := by push_cast; ring
    rw [this, Real.sin_pi_div_two]; simp
  rcases ite_cases h with ⟨hk, h⟩ | ⟨_, h⟩
  ·
    obtain ⟨w, v, d⟩ := sqrt3Over2_V hC ρ h
    subst hk
    refine ⟨w, ?_, d⟩
    have : ((2 / 3 : ℚ) : ℝ) * Real.pi = Real.pi - Real.pi / 3 := by push_cast; ring
    rw [v, this, Real.sin_pi_sub, Real.sin_pi_div_three]
  rcases ite_cases h with ⟨hk, h⟩ | ⟨_, h⟩
  ·
    obtain ⟨w, v, d⟩ := overSqrt2_V hC ρ h
    subst hk
    refine ⟨w, ?_, d⟩
    have : ((3 / 4 : ℚ) : ℝ) * Real.pi = Real.pi - Real.pi / 4 := by push_cast; ring
    rw [v, this, Real.sin_pi_sub, Real.sin_pi_div_four, ← os]; simp
  rcases ite_cases h with ⟨hk, h⟩ | ⟨_, h⟩
  ·
    simp only [Except.ok.injEq] at h; subst h hk
    refine ⟨by simp, ?_, by simp⟩
    have : ((5 / 6 : ℚ) : ℝ) * Real.pi = Real.pi - Real.pi / 6 := by push_cast; ring
    rw [this, Real.sin_pi_sub, Real.sin_pi_div_six]; simp
  rcases ite_cases h with ⟨hk, h⟩ | ⟨_, h⟩
  · simp only [Except.ok.injEq] at h; subst h hk; simp
  rcases ite_cases h with ⟨hk, h⟩ | ⟨_, h⟩
  ·
    have := opNegRat h; subst this hk
    refine ⟨by simp, ?_, by simp⟩
    have : ((7 / 6 : ℚ) : ℝ) * Real.pi = Real.pi / 6 + Real.pi := by push_cast; ring
    rw [this, Real.sin_add_pi, Real.sin_pi_div_six]; simp
  rcases ite_cases h with ⟨hk, h⟩ | ⟨_, h⟩
  ·
    obtain ⟨w, v, d⟩ := overSqrt2_V hC ρ h
    subst hk
    refine ⟨w, ?_, d⟩
    have : ((5 / 4 : ℚ) : ℝ) * Real.pi = Real.pi / 4 + Real.pi := by push_cast; ring
    rw [v, this, Real.sin_add_pi, Real.sin_pi_div_four, ← os]; simp [neg_div]
  rcases ite_cases h with ⟨hk, h⟩ | ⟨_, h⟩
  ·
    obtain ⟨w, v, d⟩ := negSqrt3Over2_V hC ρ h
    subst hk
    refine ⟨w, ?_, d⟩
    have : ((4 / 3 : ℚ) : ℝ) * Real.pi = Real.pi / 3 + Real.pi := by push_cast; ring
    rw [v, this, Real.sin_add_pi, Real.sin_pi_div_three]
  rcases ite_cases h with ⟨hk, h⟩ | ⟨_, h⟩
  ·
    have := opNegRat h; subst this hk
    refine ⟨by simp, ?_, by simp⟩
    have : ((3 / 2 : ℚ) : ℝ) * Real.pi = Real.pi / 2 + Real.pi := by push_cast; ring
    rw [this, Real.sin_add_pi, Real.sin_pi_div_two]; simp
  rcases ite_cases h with ⟨hk, h⟩ | ⟨_, h⟩
  ·
    obtain ⟨w, v, d⟩ := negSqrt3Over2_V hC ρ h
    subst hk
    refine ⟨w, ?_, d⟩
    have : ((5 / 3 : ℚ) : ℝ) * Real.pi = (Real.pi - Real.pi / 3) + Real.pi := by push_cast; ring
    rw [v, this, Real.sin_add_pi, Real.sin_pi_sub, Real.sin_pi_div_three]
  rcases ite_cases h with ⟨hk, h⟩ | ⟨_, h⟩
  ·
    obtain ⟨w, v, d⟩ := overSqrt2_V hC ρ h
    subst hk
    refine ⟨w, ?_, d⟩
    have : ((7 / 4 : ℚ) : ℝ) * Real.pi = (Real.pi - Real.pi / 4) + Real.pi := by push_cast; ring
    rw [v, this, Real.sin_add_pi, Real.sin_pi_sub, Real.sin_pi_div_four, ← os]; simp [neg_div]
  rcases ite_cases h with ⟨hk, h⟩ | ⟨_, h⟩
  ·
    have := opNegRat h; subst this hk
    refine ⟨by simp, ?_, by simp⟩
    have : ((11 / 6 : ℚ) : ℝ) * Real.pi = (Real.pi - Real.pi / 6) + Real.pi := by push_cast; ring
    rw [this, Real.sin_add_pi, Real.sin_pi_sub, Real.sin_pi_div_six]; simp
  · simp at h

theorem cosSpecial_V (hC : Sound C) (ρ : Str → ℝ) {k : ℚ} {r : Expr} (h : cosSpecial O C k = .ok r) :
    WF r ∧ den ρ r = Real.cos (k * Real.pi) ∧ DomS st ρ r := by
  have os := one_div_sqrt2
  unfold cosSpecial at h
  rcases ite_cases h with ⟨hk, h⟩ | ⟨_, h⟩
  · simp only [Except.ok.injEq] at h; subst h hk; simp
  rcases ite_cases h with ⟨hk, h⟩ | ⟨_, h⟩
  ·
    obtain ⟨w, v, d⟩ := sqrt3Over2_V hC ρ h
    subst hk
    refine ⟨w, ?_, d⟩
    have : ((1 / 6 : ℚ) : ℝ) * Real.pi = Real.pi / 6 := by push_cast; ring
    rw [v, this, Real.cos_pi_div_six]
  rcases ite_cases h with ⟨hk, h⟩ | ⟨_, h⟩
  ·
    obtain ⟨w, v, d⟩ := overSqrt2_V hC ρ h
    subst hk
    refine ⟨w, ?_, d⟩
    have : ((1 / 4 : ℚ) : ℝ) * Real.pi = Real.pi / 4 := by push_cast; ring
    rw [v, this, Real.cos_pi_div_four, ← os]; simp
  rcases ite_cases h with ⟨hk, h⟩ | ⟨_, h⟩
  ·
    simp only [Except.ok.injEq] at h; subst h hk
    refine ⟨by simp, ?_, by simp⟩
    have : ((1 / 3 : ℚ) : ℝ) * Real.pi = Real.pi / 3 := by push_cast; ring
    rw [this, Real.cos_pi_div_three]; simp
  rcases ite_cases h with ⟨hk, h⟩ | ⟨_, h⟩
  ·
    simp only [Except.ok.injEq] at h; subst h hk
    refine ⟨by simp, ?_, by simp⟩
    have : ((1 / 2 : ℚ) : ℝ) * Real.pi = Real.pi / 2 := by push_cast; ring
    rw [this, Real.cos_pi_div_two]; simp
  rcases ite_cases h with ⟨hk, h⟩ | ⟨_, h⟩
  ·
    have := opNegRat h; subst this hk
    refine ⟨by simp, ?_, by simp⟩
    have : ((2 / 3 : ℚ) : ℝ) * Real.pi = Real.pi - Real.pi / 3 := by push_cast; ring
    rw [this, Real.cos_pi_sub, Real.cos_pi_div_three]; simp
  rcases ite_cases h with ⟨hk, h⟩ | ⟨_, h⟩
  ·
    obtain ⟨w, v, d⟩ := overSqrt2_V hC ρ h
    subst hk
    refine ⟨w, ?_, d⟩
    have : ((3 / 4 : ℚ) : ℝ) * Real.pi = Real.pi - Real.pi / 4 := by push_cast; ring
    rw [v, this, Real.cos_pi_sub, Real.cos_pi_div_four, ← os]; simp [neg_div]
  rcases ite_cases h with ⟨hk, h⟩ | ⟨_, h⟩
  ·
    obtain ⟨w, v, d⟩ := negSqrt3Over2_V hC ρ h
    subst hk
    refine ⟨w, ?_, d⟩
    have : ((5 / 6 : ℚ) : ℝ) * Real.pi = Real.pi - Real.pi / 6 := by push_cast; ring
    rw [v, this, Real.cos_pi_sub, Real.cos_pi_div_six]
  rcases ite_cases h with ⟨hk, h⟩ | ⟨_, h⟩
  · simp only [Except.ok.injEq] at h; subst h hk; simp
  rcases ite_cases h with ⟨hk, h⟩ | ⟨_, h⟩
  ·
    obtain ⟨w, v, d⟩ := negSqrt3Over2_V hC ρ h
    subst hk
    refine ⟨w, ?_, d⟩
    have : ((7 / 6 : ℚ) : ℝ) * Real.pi = Real.pi / 6 + Real.pi := by push_cast; ring
    rw [v, this, Real.cos_add_pi, Real.cos_pi_div_six]
  rcases ite_cases h with ⟨hk, h⟩ | ⟨_, h⟩
  ·
    obtain ⟨w, v, d⟩ := overSqrt2_V hC ρ h
    subst hk
    refine ⟨w, ?_, d⟩
    have : ((5 / 4 : ℚ) : ℝ) * Real.pi = Real.pi / 4 + Real.pi := by push_cast; ring
    rw [v, this, Real.cos_add_pi, Real.cos_pi_div_four, ← os]; simp [neg_div]
  rcases ite_cases h with ⟨hk, h⟩ | ⟨_, h⟩
  ·
    have := opNegRat h; subst this hk
    refine ⟨by simp, ?_, by simp⟩
    have : ((4 / 3 : ℚ) : ℝ) * Real.pi = Real.pi / 3 + Real.pi := by push_cast; ring
    rw [this, Real.cos_add_pi, Real.cos_pi_div_three]; simp
  rcases ite_cases h with ⟨hk, h⟩ | ⟨_, h⟩
  ·
    have := opNegRat h; subst this hk
    refine ⟨by simp, ?_, by simp⟩
    have : ((3 / 2 : ℚ) : ℝ) * Real.pi = Real.pi / 2 + Real.pi := by push_cast; ring
    rw [this, Real.cos_add_pi, Real.cos_pi_div_two]; simp
  rcases ite_cases h with ⟨hk, h⟩ | ⟨_, h⟩
  ·
    simp only [Except.ok.injEq] at h; subst h hk
    refine ⟨by simp, ?_, by simp⟩
    have : ((5 / 3 : ℚ) : ℝ) * Real.pi = (Real.pi - Real.pi / 3) + Real.pi := by push_cast; ring
    rw [this, Real.cos_add_pi, Real.cos_pi_sub, Real.cos_pi_div_three]; simp
  rcases ite_cases h with ⟨hk, h⟩ | ⟨_, h⟩
  ·
    obtain ⟨w, v, d⟩ := overSqrt2_V hC ρ h
    subst hk
    refine ⟨w, ?_, d⟩
    have : ((7 / 4 : ℚ) : ℝ) * Real.pi = (Real.pi - Real.pi / 4) + Real.pi := by push_cast; ring
    rw [v, this, Real.cos_add_pi, Real.cos_pi_sub, Real.cos_pi_div_four, ← os]; simp
  rcases ite_cases h with ⟨hk, h⟩ | ⟨_, h⟩
  ·
    obtain ⟨w, v, d⟩ := sqrt3Over2_V hC ρ h
    subst hk
    refine ⟨w, ?_, d⟩
    have : ((11 / 6 : ℚ) : ℝ) * Real.pi = (Real.pi - Real.pi / 6) + Real.pi := by push_cast; ring
    rw [v, this, Real.cos_add_pi, Real.cos_pi_sub, Real.cos_pi_div_six]; simp
  · simp at h

theorem specialValue_V (hC : Sound C) (ρ : Str → ℝ) {f : TrigFn} {k : ℚ} {r : Expr}
    (hok : f.ok (k * Real.pi)) (h : specialValue O C f k = .ok r) :
    WF r ∧ den ρ r = f.real (k * Real.pi) ∧ DomS st ρ r := by
  cases f <;> simp only [specialValue, TrigFn.ok, TrigFn.real] at h hok ⊢ <;> try (simp at h; done)
  · exact sinSpecial_V hC ρ h
  · exact cosSpecial_V hC ρ h
  · obtain ⟨s, hs, h⟩ := bind_ok.1 h
    obtain ⟨c, hc, h⟩ := bind_ok.1 h
    obtain ⟨ws, vs, ds⟩ := sinSpecial_V hC ρ hs
    obtain ⟨wc, vc, dc⟩ := cosSpecial_V hC ρ hc
    obtain ⟨v, d⟩ := opDiv_V hC ws wc ds dc (by rw [vc]; exact hok) h
    exact ⟨opDiv_W hC ws wc h, by rw [v, vs, vc], d⟩
  · obtain ⟨s, hs, h⟩ := bind_ok.1 h
    obtain ⟨ws, vs, ds⟩ := sinSpecial_V hC ρ hs
    obtain ⟨v, d⟩ := opDiv_V hC (by simp) ws (by simp) ds (by rw [vs]; exact hok) h
    exact ⟨opDiv_W hC (by simp) ws h, by rw [v, vs]; simp, d⟩
  · obtain ⟨c, hc, h⟩ := bind_ok.1 h
    obtain ⟨wc, vc, dc⟩ := cosSpecial_V hC ρ hc
    obtain ⟨v, d⟩ := opDiv_V hC (by simp) wc (by simp) dc (by rw [vc]; exact hok) h
    exact ⟨opDiv_W hC (by simp) wc h, by rw [v, vc]; simp, d⟩
  · obtain ⟨c, hc, h⟩ := bind_ok.1 h
    obtain ⟨s, hs, h⟩ := bind_ok.1 h
    obtain ⟨ws, vs, ds⟩ := sinSpecial_V hC ρ hs
    obtain ⟨wc, vc, dc⟩ := cosSpecial_V hC ρ hc
    obtain ⟨v, d⟩ := opDiv_V hC wc ws dc ds (by rw [vs]; exact hok) h
    exact ⟨opDiv_W hC wc ws h, by rw [v, vs, vc], d⟩

end

/-! ## Periodicity -/

theorem neg_one_zpow_cases (m : ℤ) : ((-1 : ℝ) ^ m = 1) ∨ ((-1 : ℝ) ^ m = -1) := by
  rcases Int.even_or_odd m with h | h
  · exact .inl h.neg_one_zpow
  · exact .inr h.neg_one_zpow

theorem period_pi (t : ℝ) (m : ℤ) : ∃ s : ℝ, (s = 1 ∨ s = -1) ∧ Real.sin (t + m * Real.pi) = s * Real.sin t ∧
    Real.cos (t + m * Real.pi) = s * Real.cos t :=
  ⟨(-1) ^ m, neg_one_zpow_cases m, Real.sin_add_int_mul_pi t m, Real.cos_add_int_mul_pi t m⟩

/-- Every non-inverse function is periodic with the class's `_period` (in multiples of pi). -/
theorem TrigFn.periodic {f : TrigFn} (hf : f.isInverse = false) (t : ℝ) (m : ℤ) :
    f.real (t + (f.period : ℝ) * m * Real.pi) = f.real t ∧
    (f.ok (t + (f.period : ℝ) * m * Real.pi) ↔ f.ok t) := by
  have h2 : t + ((2 : ℚ) : ℝ) * m * Real.pi = t + m * (2 * Real.pi) := by push_cast; ring
  have hs : Real.sin (t + m * (2 * Real.pi)) = Real.sin t := Real.sin_add_int_mul_two_pi t m
  have hc : Real.cos (t + m * (2 * Real.pi)) = Real.cos t := Real.cos_add_int_mul_two_pi t m
  have h1 : t + ((1 : ℚ) : ℝ) * m * Real.pi = t + m * Real.pi := by push_cast; ring
  obtain ⟨s, hs1, hs2, hs3⟩ := period_pi t m
  have hs0 : s ≠ 0 := by rcases hs1 with rfl | rfl <;> norm_num
  cases f <;> simp only [TrigFn.period, TrigFn.real, TrigFn.ok, h1, h2, hs, hc, hs2, hs3, and_self] <;>
    first
    | (simp [TrigFn.isInverse] at hf; done)
    | (refine ⟨mul_div_mul_left _ _ hs0, ?_⟩
       simp [hs0])

theorem ratMod_spec (a m : ℚ) : ∃ k : ℤ, a = ratMod a m + m * k := ⟨⌊a / m⌋, by unfold ratMod; ring⟩

theorem TrigFn.period_two {f : TrigFn} (hf : f.isInverse = false) (t : ℝ) (m : ℤ) :
    f.real (t + 2 * m * Real.pi) = f.real t ∧ (f.ok (t + 2 * m * Real.pi) ↔ f.ok t) := by
  have h := TrigFn.periodic hf t
  by_cases hp : f.period = 2
  · have := h m; rw [hp] at this; exact_mod_cast this
  · have hp1 : f.period = 1 := by cases f <;> simp_all [TrigFn.period]
    have := h (2 * m); rw [hp1] at this
    have e : t + ((1 : ℚ) : ℝ) * ((2 * m : ℤ) : ℝ) * Real.pi = t + 2 * m * Real.pi := by push_cast; ring
    rwa [e] at this

section
variable {O : Oracle} {C : Ctors}

theorem findPeriod_V (hC : Sound C) {st : Bool} {ρ : Str → ℝ} {per : ℚ} : ∀ {ts : List Expr} {t : Expr},
    (∀ t ∈ ts, WF t) → (∀ t ∈ ts, DomS st ρ t) → findPeriod C per ts = .ok (some t) →
    t ∈ ts ∧ ∃ m : ℤ, den ρ t = per * m * Real.pi
  | [], t, _, _, h => by simp [findPeriod] at h
  | u :: r, t, hW, hD, h => by
    have ih : findPeriod C per r = .ok (some t) → t ∈ u :: r ∧ ∃ m : ℤ, den ρ t = per * m * Real.pi := by
      intro h
      obtain ⟨h1, h2⟩ := findPeriod_V hC (fun t ht => hW t (by simp [ht])) (fun t ht => hD t (by simp [ht])) h
      exact ⟨by simp [h1], h2⟩
    simp only [findPeriod] at h
    split at h
    · obtain ⟨c, hc, h⟩ := bind_ok.1 h
      obtain ⟨v, d⟩ := opDiv_V hC (hW u (by simp)) WF_pi (hD u (by simp)) (Dom_pi ρ)
        (by rw [den_pi]; exact Real.pi_ne_zero) hc
      cases c with
      | rat q =>
        simp only at h
        split at h
        · next hm =>
          simp only [pure_ok, Option.some.injEq] at h; subst h
          refine ⟨by simp, ?_⟩
          obtain ⟨k, hk⟩ := ratMod_spec q per
          rw [hm, zero_add] at hk
          refine ⟨k, ?_⟩
          rw [den_rat, den_pi, hk] at v
          rw [eq_div_iff Real.pi_ne_zero] at v
          rw [← v]; push_cast; ring
        · exact ih h
      | _ => exact ih h
    · exact ih h

/-- The radicand that `_double_simplification_dict` takes a root of is a principal one. -/
def RadSide (O : Oracle) (C : Ctors) (ρ : Str → ℝ) (i : Expr) : Prop :=
  ∀ g w x2 z, i = trig g w → g.isInverse = true → opPow O C w (rat 2) = .ok x2 →
    (opSub C (rat 1) x2 = .ok z ∨ opAdd C (rat 1) x2 = .ok z) → RadOk ρ (rat (1 / 2)) z

theorem sq_V (hC : Sound C) {st : Bool} {ρ : Str → ℝ} {w x2 : Expr} (ww : WF w) (dw : DomS st ρ w)
    (h : opPow O C w (rat 2) = .ok x2) : WF x2 ∧ den ρ x2 = den ρ w ^ 2 ∧ DomS st ρ x2 := by
  have hp : PowDomS st ρ w (rat 2) := PowDom_int (n := 2) dw (.inr (by norm_num)) (fun _ => .inr (by norm_num))
  obtain ⟨v, d⟩ := opPow_V hC ww (by simp) hp h
  refine ⟨opPow_W hC ww (by simp) h, ?_, d⟩
  rw [v, den_rat]
  have := pw_int (den ρ w) 2
  push_cast at this ⊢
  rw [this]; norm_cast

theorem doubleSimp_V (hC : Sound C) {st : Bool} {ρ : Str → ℝ} {f g : TrigFn} {w r : Expr} (ww : WF w)
    (di : DomS st ρ (trig g w)) (hgi : g.isInverse = true) (hs : RadSide O C ρ (trig g w)) (hok : f.ok (g.real (den ρ w)))
    (h : doubleSimp O C f g w = .ok r) : WF r ∧ den ρ r = f.real (g.real (den ρ w)) ∧ DomS st ρ r := by
  obtain ⟨dw, hg, hgin⟩ := di
  unfold doubleSimp at h
  obtain ⟨x2, hx2, h⟩ := bind_ok.1 h
  obtain ⟨w2, v2, d2⟩ := sq_V hC ww dw hx2
  -- the two radicands
  have sub : (g = .asin ∨ g = .acos) → ∀ z s, opSub C (rat 1) x2 = .ok z → opSqrt O C z = .ok s →
      WF s ∧ den ρ s = √(1 - den ρ w ^ 2) ∧ DomS st ρ s := by
    intro hga z s hz hsq
    have wz := opSub_W hC (by simp) w2 hz
    obtain ⟨vz, dz⟩ := opSub_V hC (by simp) w2 (by simp) d2 hz
    obtain ⟨vs, ds⟩ := opSqrt_V hC wz dz (hs g w x2 z rfl hgi hx2 (.inl hz)) (by
      intro hst
      have hin : -1 < den ρ w ∧ den ρ w < 1 := by rcases hga with rfl | rfl <;> exact hgin hst
      rw [vz, v2]; simp only [den_rat, Rat.cast_one]; nlinarith [hin.1, hin.2]) hsq
    exact ⟨opSqrt_W hC wz hsq, by rw [vs, vz, v2]; simp, ds⟩
  have add : ∀ z s, opAdd C (rat 1) x2 = .ok z → opSqrt O C z = .ok s →
      WF s ∧ den ρ s = √(1 + den ρ w ^ 2) ∧ DomS st ρ s := by
    intro z s hz hsq
    have wz := opAdd_W hC (by simp) w2 hz
    obtain ⟨vz, dz⟩ := opAdd_V hC (by simp) w2 (by simp) d2 hz
    obtain ⟨vs, ds⟩ := opSqrt_V hC wz dz (hs g w x2 z rfl hgi hx2 (.inr hz)) (by
      intro hst; rw [vz, v2]; simp only [den_rat, Rat.cast_one]; positivity) hsq
    exact ⟨opSqrt_W hC wz hsq, by rw [vs, vz, v2]; simp, ds⟩
  have pos : 0 < √(1 + den ρ w ^ 2) := Real.sqrt_pos.2 (by positivity)
  split at h <;> simp only [TrigFn.ok, TrigFn.real] at hg hok ⊢
  · obtain ⟨z, hz, h⟩ := bind_ok.1 h
    obtain ⟨a, b, c⟩ := sub (by simp) z r hz h
    exact ⟨a, by rw [b, Real.sin_arccos], c⟩
  · obtain ⟨z, hz, h⟩ := bind_ok.1 h
    obtain ⟨s, hsq, h⟩ := bind_ok.1 h
    obtain ⟨a, b, c⟩ := add z s hz hsq
    obtain ⟨v, d⟩ := opDiv_V hC ww a dw c (by rw [b]; exact pos.ne') h
    exact ⟨opDiv_W hC ww a h, by rw [v, b, Real.sin_arctan], d⟩
  · obtain ⟨z, hz, h⟩ := bind_ok.1 h
    obtain ⟨a, b, c⟩ := sub (by simp) z r hz h
    exact ⟨a, by rw [b, Real.cos_arcsin], c⟩
  · obtain ⟨z, hz, h⟩ := bind_ok.1 h
    obtain ⟨s, hsq, h⟩ := bind_ok.1 h
    obtain ⟨a, b, c⟩ := add z s hz hsq
    obtain ⟨v, d⟩ := opDiv_V hC (by simp) a (by simp) c (by rw [b]; exact pos.ne') h
    exact ⟨opDiv_W hC (by simp) a h, by rw [v, b, Real.cos_arctan]; simp, d⟩
  · obtain ⟨z, hz, h⟩ := bind_ok.1 h
    obtain ⟨s, hsq, h⟩ := bind_ok.1 h
    obtain ⟨a, b, c⟩ := sub (by simp) z s hz hsq
    rw [Real.cos_arcsin] at hok
    obtain ⟨v, d⟩ := opDiv_V hC ww a dw c (by rw [b]; exact hok) h
    exact ⟨opDiv_W hC ww a h, by rw [v, b, Real.sin_arcsin hg.1 hg.2, Real.cos_arcsin], d⟩
  · obtain ⟨z, hz, h⟩ := bind_ok.1 h
    obtain ⟨s, hsq, h⟩ := bind_ok.1 h
    obtain ⟨a, b, c⟩ := sub (by simp) z s hz hsq
    rw [Real.cos_arccos hg.1 hg.2] at hok
    obtain ⟨v, d⟩ := opDiv_V hC a ww c dw hok h
    exact ⟨opDiv_W hC a ww h, by rw [v, b, Real.sin_arccos, Real.cos_arccos hg.1 hg.2], d⟩
  · simp at h

theorem sin_arctan_ne_zero {w : ℝ} (h : Real.sin (Real.arctan w) ≠ 0) : w ≠ 0 := by
  rintro rfl; simp at h

theorem cot_arctan (w : ℝ) : Real.cos (Real.arctan w) / Real.sin (Real.arctan w) = 1 / w := by
  rw [Real.cos_arctan, Real.sin_arctan]
  have : (0:ℝ) < √(1 + w ^ 2) := Real.sqrt_pos.2 (by positivity)
  by_cases hw : w = 0
  · subst hw; simp
  · field_simp

theorem recip_real {f h : TrigFn} (hf : f.recip = some h) (hne : f = .csc ∨ f = .sec ∨ f = .cot) (t : ℝ) :
    f.real t = 1 / h.real t ∧ (f.ok t → h.ok t → h.real t ≠ 0) := by
  rcases hne with rfl | rfl | rfl <;> simp only [TrigFn.recip, Option.some.injEq] at hf <;> subst hf <;>
    simp [TrigFn.real, TrigFn.ok]
  intro h1 h2; exact ⟨h1, h2⟩

theorem trigOfTrig_V (hC : Sound C) {st : Bool} {ρ : Str → ℝ} {f : TrigFn} {i r : Expr} (hf : f.isInverse = false)
    (wi : WF i) (di : DomS st ρ i) (hok : f.ok (den ρ i)) (hs : RadSide O C ρ i)
    (hcot : f = .cot → (∃ g w, i = trig g w ∧ g.isInverse = true) → Real.cos (den ρ i) ≠ 0)
    (h : trigOfTrig O C f i = .ok (some r)) : WF r ∧ den ρ r = f.real (den ρ i) ∧ DomS st ρ r := by
  unfold trigOfTrig at h
  split at h
  case h_2 => simp at h
  next g w =>
  have ww : WF w := wi
  have dw : DomS st ρ w := di.1
  have hg := di.2.1
  have hden : den ρ (trig g w) = g.real (den ρ w) := by simp only [den]
  have hgi : g.isInverse = true := by
    by_contra hc
    simp [hf, hc] at h
  have hcot' : f = .cot → Real.cos (g.real (den ρ w)) ≠ 0 := by
    intro hc; have := hcot hc ⟨g, w, rfl, hgi⟩; rwa [hden] at this
  clear hcot
  rw [hden] at hok ⊢
  have div : ∀ r', den ρ w ≠ 0 → (do let r ← opDiv C (rat 1) w; return some r : R (Option Expr)) = .ok (some r') →
      WF r' ∧ den ρ r' = 1 / den ρ w ∧ DomS st ρ r' := by
    intro r' hw h
    obtain ⟨a, ha, h⟩ := bind_ok.1 h
    simp only [pure_ok, Option.some.injEq] at h; subst h
    obtain ⟨v, d⟩ := opDiv_V hC (by simp) ww (by simp) dw hw ha
    exact ⟨opDiv_W hC (by simp) ww ha, by rw [v]; simp, d⟩
  have dbl : ∀ f', f'.ok (g.real (den ρ w)) → (do let r ← doubleSimp O C f' g w; return some r : R (Option Expr)) = .ok (some r) →
      WF r ∧ den ρ r = f'.real (g.real (den ρ w)) ∧ DomS st ρ r := by
    intro f' hok' h
    obtain ⟨a, ha, h⟩ := bind_ok.1 h
    simp only [pure_ok, Option.some.injEq] at h; subst h
    exact doubleSimp_V hC ww di hgi hs hok' ha
  have dblr : ∀ f', f.recip = some f' → (f = .csc ∨ f = .sec ∨ f = .cot) → f'.ok (g.real (den ρ w)) →
      (do let r ← doubleSimp O C f' g w; let r' ← opDiv C (rat 1) r; return some r' : R (Option Expr)) = .ok (some r) →
      WF r ∧ den ρ r = f.real (g.real (den ρ w)) ∧ DomS st ρ r := by
    intro f' hrec hcase hok' h
    obtain ⟨a, ha, h⟩ := bind_ok.1 h
    obtain ⟨b, hb, h⟩ := bind_ok.1 h
    simp only [pure_ok, Option.some.injEq] at h; subst h
    obtain ⟨wa, va, da⟩ := doubleSimp_V hC ww di hgi hs hok' ha
    obtain ⟨h1, h2⟩ := recip_real hrec hcase (g.real (den ρ w))
    obtain ⟨v, d⟩ := opDiv_V hC (by simp) wa (by simp) da (by rw [va]; exact h2 hok hok') hb
    exact ⟨opDiv_W hC (by simp) wa hb, by rw [v, va, h1]; simp, d⟩
  cases f <;> simp [TrigFn.isInverse] at hf <;> cases g <;>
    simp only [recipMatch, TrigFn.isInverse, TrigFn.func, TrigFn.recip, TrigFn.real, TrigFn.ok, Option.getD_some, ne_eq] at h hok hg dbl dblr hcot' ⊢ <;>
    try (simp at h; done)
  -- sin
  · simp at h; subst h; exact ⟨ww, (Real.sin_arcsin hg.1 hg.2).symm, dw⟩
  · exact dbl .sin trivial h
  · exact dbl .sin trivial h
  -- cos
  · exact dbl .cos trivial h
  · simp at h; subst h; exact ⟨ww, (Real.cos_arccos hg.1 hg.2).symm, dw⟩
  · exact dbl .cos trivial h
  -- tan
  · exact dbl .tan hok h
  · exact dbl .tan hok h
  · simp at h; subst h
    refine ⟨ww, ?_, dw⟩
    rw [← Real.tan_eq_sin_div_cos, Real.tan_arctan]
  -- csc
  · have hw : den ρ w ≠ 0 := by rwa [Real.sin_arcsin hg.1 hg.2] at hok
    rw [Real.sin_arcsin hg.1 hg.2]; exact div r hw h
  · exact dblr .sin rfl (by simp) trivial h
  · exact dblr .sin rfl (by simp) trivial h
  -- sec
  · exact dblr .cos rfl (by simp) trivial h
  · have hw : den ρ w ≠ 0 := by rwa [Real.cos_arccos hg.1 hg.2] at hok
    rw [Real.cos_arccos hg.1 hg.2]; exact div r hw h
  · exact dblr .cos rfl (by simp) trivial h
  -- cot
  · exact dblr .tan rfl (by simp) (hcot' trivial) h
  · exact dblr .tan rfl (by simp) (hcot' trivial) h
  · rw [cot_arctan]; exact div r (sin_arctan_ne_zero hok) h

theorem trigRest_V (hC : Sound C) {st : Bool} {ρ : Str → ℝ} {f : TrigFn} {i r : Expr} (hf : f.isInverse = false)
    (wi : WF i) (di : DomS st ρ i) (hok : f.ok (den ρ i)) (hs : RadSide O C ρ i)
    (hcot : f = .cot → (∃ g w, i = trig g w ∧ g.isInverse = true) → Real.cos (den ρ i) ≠ 0)
    (h : trigRest O C f i = .ok r) : den ρ r = f.real (den ρ i) ∧ DomS st ρ r := by
  unfold trigRest at h
  obtain ⟨o, ho, h⟩ := bind_ok.1 h
  cases o with
  | some r' =>
    simp only [pure_ok] at h; subst h
    exact (trigOfTrig_V hC hf wi di hok hs hcot ho).2
  | none =>
    cases i with
    | flt v => simp [DomS] at di
    | _ => simp only [pure_ok] at h; subst h; exact ⟨by simp only [den], di, hok, fun _ => TrigFn.inner_of hf _⟩

theorem trigPeriod_V (hC : Sound C) {st : Bool} {ρ : Str → ℝ} {f : TrigFn} {i r : Expr} (hf : f.isInverse = false)
    (wi : WF i) (di : DomS st ρ i) (hok : f.ok (den ρ i)) (hs : RadSide O C ρ i)
    (hcot : f = .cot → (∃ g w, i = trig g w ∧ g.isInverse = true) → Real.cos (den ρ i) ≠ 0)
    (h : trigPeriod O C f i = .ok r) : den ρ r = f.real (den ρ i) ∧ DomS st ρ r := by
  unfold trigPeriod at h
  split at h
  · next ts =>
    obtain ⟨o, ho, h⟩ := bind_ok.1 h
    cases o with
    | none => exact trigRest_V hC hf wi di hok hs hcot h
    | some t =>
      obtain ⟨j, hj, h⟩ := bind_ok.1 h
      simp only [pure_ok] at h; subst h
      obtain ⟨ht, m, hm⟩ := findPeriod_V hC (WF_sum.1 wi) (Dom_sum.1 di) ho
      obtain ⟨v, d⟩ := opSub_V hC wi (WF_sum.1 wi t ht) di (Dom_sum.1 di t ht) hj
      have e : den ρ j = den ρ (sum ts) + (f.period : ℝ) * ((-m : ℤ) : ℝ) * Real.pi := by
        rw [v, hm]; push_cast; ring
      obtain ⟨p1, p2⟩ := TrigFn.periodic hf (den ρ (sum ts)) (-m)
      refine ⟨?_, d, ?_, fun _ => TrigFn.inner_of hf _⟩
      · simp only [den] at p1 ⊢; rw [e]; simpa only [den] using p1
      · rw [e]; exact p2.2 hok
  · exact trigRest_V hC hf wi di hok hs hcot h

theorem trigNew_V (hO : O.Exact) (hC : Sound C) {st : Bool} {ρ : Str → ℝ} {f : TrigFn} {i r : Expr}
    (hf : f.isInverse = false) (wi : WF i) (di : DomS st ρ i) (hok : f.ok (den ρ i)) (hs : RadSide O C ρ i)
    (hcot : f = .cot → (∃ g w, i = trig g w ∧ g.isInverse = true) → Real.cos (den ρ i) ≠ 0)
    (h : trigNew O C f i = .ok r) : den ρ r = f.real (den ρ i) ∧ DomS st ρ r := by
  unfold trigNew at h
  split at h
  · next h0 =>
    have := Exact.beq_eq hO di (Dom_rat ρ 0) h0
    subst this
    obtain ⟨_, v, d⟩ := specialValue_V hC ρ (by simpa using hok) h
    exact ⟨by simpa using v, d⟩
  · split at h
    · obtain ⟨c, hc, h⟩ := bind_ok.1 h
      obtain ⟨v, d⟩ := opDiv_V hC wi WF_pi di (Dom_pi ρ) (by rw [den_pi]; exact Real.pi_ne_zero) hc
      cases c with
      | rat q =>
        simp only at h
        split at h
        · rw [den_rat, den_pi, eq_div_iff Real.pi_ne_zero] at v
          obtain ⟨m, hm⟩ := ratMod_spec q 2
          obtain ⟨p1, p2⟩ := TrigFn.period_two hf ((ratMod q 2 : ℚ) * Real.pi) m
          have e : den ρ i = (ratMod q 2 : ℚ) * Real.pi + 2 * m * Real.pi := by
            rw [← v]; conv_lhs => rw [hm]
            push_cast; ring
          rw [e] at hok ⊢
          obtain ⟨_, v', d'⟩ := specialValue_V hC ρ (p2.1 hok) h
          exact ⟨by rw [v', p1], d'⟩
        · exact trigPeriod_V hC hf wi di hok hs hcot h
      | _ => exact trigPeriod_V hC hf wi di hok hs hcot h
    · exact trigRest_V hC hf wi di hok hs hcot h

/-! ## Well-formedness of the results -/

theorem specialValue_W (hC : Sound C) {f : TrigFn} {k : ℚ} {r : Expr}
    (h : specialValue O C f k = .ok r) : WF r := by
  have hs : ∀ r, sinSpecial O C k = .ok r → WF r := fun r h => (sinSpecial_V (st := false) hC (fun _ => 0) h).1
  have hc : ∀ r, cosSpecial O C k = .ok r → WF r := fun r h => (cosSpecial_V (st := false) hC (fun _ => 0) h).1
  cases f <;> simp only [specialValue] at h
  · exact hs r h
  · exact hc r h
  · obtain ⟨s, h1, h⟩ := bind_ok.1 h
    obtain ⟨c, h2, h⟩ := bind_ok.1 h
    exact opDiv_W hC (hs _ h1) (hc _ h2) h
  · obtain ⟨s, h1, h⟩ := bind_ok.1 h
    exact opDiv_W hC (by simp) (hs _ h1) h
  · obtain ⟨c, h2, h⟩ := bind_ok.1 h
    exact opDiv_W hC (by simp) (hc _ h2) h
  · obtain ⟨c, h2, h⟩ := bind_ok.1 h
    obtain ⟨s, h1, h⟩ := bind_ok.1 h
    exact opDiv_W hC (hc _ h2) (hs _ h1) h
  all_goals simp at h

theorem doubleSimp_W (hC : Sound C) {f g : TrigFn} {w r : Expr} (ww : WF w)
    (h : doubleSimp O C f g w = .ok r) : WF r := by
  unfold doubleSimp at h
  obtain ⟨x2, hx2, h⟩ := bind_ok.1 h
  have w2 := opPow_W hC ww (by simp) hx2
  have sub : ∀ z s, opSub C (rat 1) x2 = .ok z → opSqrt O C z = .ok s → WF s :=
    fun z s hz hs => opSqrt_W hC (opSub_W hC (by simp) w2 hz) hs
  have add : ∀ z s, opAdd C (rat 1) x2 = .ok z → opSqrt O C z = .ok s → WF s :=
    fun z s hz hs => opSqrt_W hC (opAdd_W hC (by simp) w2 hz) hs
  split at h
  · obtain ⟨z, hz, h⟩ := bind_ok.1 h
    exact sub z r hz h
  · obtain ⟨z, hz, h⟩ := bind_ok.1 h
    obtain ⟨s, hsq, h⟩ := bind_ok.1 h
    exact opDiv_W hC ww (add z s hz hsq) h
  · obtain ⟨z, hz, h⟩ := bind_ok.1 h
    exact sub z r hz h
  · obtain ⟨z, hz, h⟩ := bind_ok.1 h
    obtain ⟨s, hsq, h⟩ := bind_ok.1 h
    exact opDiv_W hC (by simp) (add z s hz hsq) h
  · obtain ⟨z, hz, h⟩ := bind_ok.1 h
    obtain ⟨s, hsq, h⟩ := bind_ok.1 h
    exact opDiv_W hC ww (sub z s hz hsq) h
  · obtain ⟨z, hz, h⟩ := bind_ok.1 h
    obtain ⟨s, hsq, h⟩ := bind_ok.1 h
    exact opDiv_W hC (sub z s hz hsq) ww h
  · simp at h

theorem trigOfTrig_W (hC : Sound C) {f : TrigFn} {i r : Expr} (wi : WF i)
    (h : trigOfTrig O C f i = .ok (some r)) : WF r := by
  unfold trigOfTrig at h
  split at h
  case h_2 => simp at h
  next g w =>
  have ww : WF w := wi
  split at h
  case isFalse => simp at h
  split at h
  · simp only [Except.ok.injEq, Option.some.injEq] at h; subst h; exact ww
  · split at h
    · obtain ⟨a, ha, h⟩ := bind_ok.1 h
      simp only [pure_ok, Option.some.injEq] at h; subst h
      exact opDiv_W hC (by simp) ww ha
    · split at h
      case isFalse => simp at h
      split at h
      case h_4 =>
        obtain ⟨a, ha, h⟩ := bind_ok.1 h
        obtain ⟨b, hb, h⟩ := bind_ok.1 h
        simp only [pure_ok, Option.some.injEq] at h; subst h
        exact opDiv_W hC (by simp) (doubleSimp_W hC ww ha) hb
      all_goals
        obtain ⟨a, ha, h⟩ := bind_ok.1 h
        simp only [pure_ok, Option.some.injEq] at h; subst h
        exact doubleSimp_W hC ww ha

theorem const_WF (v : PyNum) : WF (const v) := by cases v <;> simp [const, WF]

theorem trigRest_W (hC : Sound C) {f : TrigFn} {i r : Expr} (wi : WF i)
    (h : trigRest O C f i = .ok r) : WF r := by
  unfold trigRest at h
  obtain ⟨o, ho, h⟩ := bind_ok.1 h
  cases o with
  | some r' => simp only [pure_ok] at h; subst h; exact trigOfTrig_W hC wi ho
  | none =>
    cases i with
    | flt v =>
      obtain ⟨a, ha, h⟩ := bind_ok.1 h
      simp only [pure_ok] at h; subst h; exact const_WF a
    | _ => simp only [pure_ok] at h; subst h; exact wi

theorem findPeriod_mem {per : ℚ} : ∀ {ts : List Expr} {t : Expr},
    findPeriod C per ts = .ok (some t) → t ∈ ts
  | [], t, h => by simp [findPeriod] at h
  | u :: r, t, h => by
    have ih : findPeriod C per r = .ok (some t) → t ∈ u :: r := fun h => by simp [findPeriod_mem h]
    simp only [findPeriod] at h
    split at h
    · obtain ⟨c, hc, h⟩ := bind_ok.1 h
      cases c with
      | rat q =>
        simp only at h
        split at h
        · simp only [pure_ok, Option.some.injEq] at h; subst h; simp
        · exact ih h
      | _ => exact ih h
    · exact ih h

theorem trigPeriod_W (hC : Sound C) {f : TrigFn} {i r : Expr} (wi : WF i)
    (h : trigPeriod O C f i = .ok r) : WF r := by
  unfold trigPeriod at h
  split at h
  · next ts =>
    obtain ⟨o, ho, h⟩ := bind_ok.1 h
    cases o with
    | none => exact trigRest_W hC wi h
    | some t =>
      obtain ⟨j, hj, h⟩ := bind_ok.1 h
      simp only [pure_ok] at h; subst h
      have := opSub_W hC wi (WF_sum.1 wi t (findPeriod_mem ho)) hj
      simpa only [WF] using this
  · exact trigRest_W hC wi h

theorem trigNew_W (hC : Sound C) {f : TrigFn} {i r : Expr} (wi : WF i)
    (h : trigNew O C f i = .ok r) : WF r := by
  unfold trigNew at h
  split at h
  · exact specialValue_W hC h
  · split at h
    · obtain ⟨c, hc, h⟩ := bind_ok.1 h
      cases c with
      | rat q =>
        simp only at h
        split at h
        · exact specialValue_W hC h
        · exact trigPeriod_W hC wi h
      | _ => exact trigPeriod_W hC wi h
    · exact trigRest_W hC wi h

end

/-! ## The constructors -/

/-- What `f(i)` needs besides definedness: see `RadSide`; for `sin`, `cos` and `tan` of a "subtraction" the
condition is on the negated argument. -/
def TrigSide (O : Oracle) (ρ : Str → ℝ) : Nat → Expr → Prop
  | 0, _ => True
  | n + 1, i => RadSide O (ctors O n) ρ i ∧
      (i.isSubtraction = true → ∀ ni, opNeg (ctors O n) i = .ok ni → TrigSide O ρ n ni)

theorem trigCtor_W {O : Oracle} (hO : O.Exact) : ∀ (n : Nat) {f : TrigFn} {i r : Expr}, WF i →
    trigCtor O n f i = .ok r → WF r
  | 0, f, i, r, _, h => by simp [trigCtor] at h
  | n + 1, f, i, r, wi, h => by
    have hC := ctors_sound hO n
    have oddc : (if i.isSubtraction = true then do
        let ni ← opNeg (ctors O n) i
        let s ← trigCtor O n f ni
        opNeg (ctors O n) s
      else trigNew O (ctors O n) f i) = .ok r → WF r := by
      intro h
      split at h
      · obtain ⟨ni, hn, h⟩ := bind_ok.1 h
        obtain ⟨s, hs, h⟩ := bind_ok.1 h
        exact opNeg_W hC (trigCtor_W hO n (opNeg_W hC wi hn) hs) h
      · exact trigNew_W hC wi h
    cases f <;> simp only [trigCtor] at h <;> try exact trigNew_W hC wi h
    · exact oddc h
    · obtain ⟨r', hr, h⟩ := bind_ok.1 h
      have wr := trigNew_W hC wi hr
      split at h
      · split at h
        · obtain ⟨ni, hn, h⟩ := bind_ok.1 h
          simp only [pure_ok] at h; subst h
          have := opNeg_W hC wi hn
          simpa only [WF] using this
        · simp only [pure_ok] at h; subst h; exact wr
      · simp only [pure_ok] at h; subst h; exact wr
    · exact oddc h

theorem TrigFn.parity {f : TrigFn} (t : ℝ) : (f = .sin ∨ f = .tan → f.real (-t) = -f.real t) ∧
    (f = .cos → f.real (-t) = f.real t) ∧ (f = .sin ∨ f = .tan ∨ f = .cos → f.ok t → f.ok (-t)) := by
  refine ⟨?_, ?_, ?_⟩
  · rintro (rfl | rfl) <;> simp [TrigFn.real, neg_div]
  · rintro rfl; simp [TrigFn.real]
  · rintro (rfl | rfl | rfl) <;> simp [TrigFn.ok]

theorem trigCtor_V {O : Oracle} (hO : O.Exact) : ∀ (n : Nat) {st : Bool} {ρ : Str → ℝ} {f : TrigFn} {i r : Expr},
    f.isInverse = false → WF i → DomS st ρ i → f.ok (den ρ i) → TrigSide O ρ n i →
    (f = .cot → (∃ g w, i = trig g w ∧ g.isInverse = true) → Real.cos (den ρ i) ≠ 0) →
    trigCtor O n f i = .ok r → den ρ r = f.real (den ρ i) ∧ DomS st ρ r
  | 0, _, ρ, f, i, r, _, _, _, _, _, _, h => by simp [trigCtor] at h
  | n + 1, st, ρ, f, i, r, hf, wi, di, hok, hs, hcot, h => by
    have hC := ctors_sound hO n
    have oddc : (f = .sin ∨ f = .tan) → (if i.isSubtraction = true then do
        let ni ← opNeg (ctors O n) i
        let s ← trigCtor O n f ni
        opNeg (ctors O n) s
      else trigNew O (ctors O n) f i) = .ok r → den ρ r = f.real (den ρ i) ∧ DomS st ρ r := by
      intro hft h
      split at h
      · next hsub =>
        obtain ⟨ni, hn, h⟩ := bind_ok.1 h
        obtain ⟨s, hs', h⟩ := bind_ok.1 h
        obtain ⟨vn, dn⟩ := opNeg_V hC wi di hn
        have wn := opNeg_W hC wi hn
        have hpar := TrigFn.parity (f := f) (den ρ i)
        have ih := trigCtor_V hO n hf wn dn (by rw [vn]; exact hpar.2.2 (by tauto) hok) (hs.2 hsub ni hn)
          (by intro hc; rcases hft with rfl | rfl <;> simp at hc) hs'
        obtain ⟨v2, d2⟩ := opNeg_V hC (trigCtor_W hO n wn hs') ih.2 h
        refine ⟨?_, d2⟩
        rw [v2, ih.1, vn, hpar.1 hft, neg_neg]
      · exact trigNew_V hO hC hf wi di hok hs.1 hcot h
    cases f <;> simp only [trigCtor] at h <;> try exact trigNew_V hO hC hf wi di hok hs.1 hcot h
    · exact oddc (.inl rfl) h
    · obtain ⟨r', hr, h⟩ := bind_ok.1 h
      have hr' := trigNew_V hO hC hf wi di hok hs.1 hcot hr
      split at h
      · split at h
        · obtain ⟨ni, hn, h⟩ := bind_ok.1 h
          simp only [pure_ok] at h; subst h
          obtain ⟨vn, dn⟩ := opNeg_V hC wi di hn
          refine ⟨?_, dn, trivial, fun _ => trivial⟩
          simp only [den, TrigFn.real]
          rw [vn, Real.cos_neg]
        · simp only [pure_ok] at h; subst h; exact hr'
      · simp only [pure_ok] at h; subst h; exact hr'
    · exact oddc (.inr rfl) h

/-- Inverse functions: when the argument is not a trig function that the code cancels. -/
theorem trigCtor_inv_V {O : Oracle} (n : Nat) {st : Bool} {ρ : Str → ℝ} {f : TrigFn} {i r : Expr}
    (hf : f.isInverse = true) (di : DomS st ρ i) (hok : f.ok (den ρ i)) (hin : st = true → f.inner (den ρ i))
    (hno : ∀ g w, i = trig g w → g.isInverse = false → g.func ≠ f.func ∧ ∀ h, g.recip = some h → h.func ≠ f.func)
    (h : trigCtor O n f i = .ok r) : r = trig f i ∧ den ρ r = f.real (den ρ i) ∧ DomS st ρ r := by
  cases n with
  | zero => simp [trigCtor] at h
  | succ n =>
    have key : trigNew O (ctors O n) f i = .ok r → r = trig f i ∧ den ρ r = f.real (den ρ i) ∧ DomS st ρ r := by
      intro h
      unfold trigNew at h
      split at h
      · next h0 =>
        cases f <;> simp [TrigFn.isInverse] at hf <;> simp [specialValue] at h
      · simp only [hf, Bool.not_true, Bool.false_and, Bool.false_eq_true, if_false] at h
        unfold trigRest at h
        obtain ⟨o, ho, h⟩ := bind_ok.1 h
        cases o with
        | some r' =>
          exfalso
          unfold trigOfTrig at ho
          split at ho
          case h_2 => simp at ho
          rename_i g w _ _ _
          cases hg : g.isInverse with
          | true => simp [hf, hg] at ho
          | false =>
            obtain ⟨h1, h2⟩ := hno g w rfl hg
            have h3 : recipMatch f g = false := by
              simp only [recipMatch, hg, Bool.false_eq_true, if_false]
              cases hgr : g.recip with
              | none => rfl
              | some k => simpa using h2 k hgr
            simp [hf, hg, h1, h3] at ho
        | none =>
          cases i with
          | flt v => simp [DomS] at di
          | _ => simp only [pure_ok] at h; subst h; exact ⟨rfl, by simp only [den], di, hok, hin⟩
    cases f <;> simp [TrigFn.isInverse] at hf <;> exact key (by simpa only [trigCtor] using h)

/-! ## Logarithms -/

/-- What `log(i, b)` needs: positive argument, a base other than 1. -/
def LogDom (ρ : Str → ℝ) (i b : Expr) : Prop :=
  DomF ρ i ∧ DomF ρ b ∧ 0 < den ρ i ∧ 0 < den ρ b ∧ den ρ b ≠ 1

theorem logCtor_W {O : Oracle} {i b r : Expr} (wi : WF i) (wb : WF b) (h : logCtor O i b = .ok r) : WF r := by
  unfold logCtor at h
  dsimp only at h
  split at h
  · simp only [Except.ok.injEq] at h; subst h; simp
  split at h
  · simp only [Except.ok.injEq] at h; subst h; simp
  have hlog : WF (log i b) := ⟨wi, wb⟩
  cases i with
  | pow c x =>
    simp only at h
    split at h
    · split at h
      · simp at h
      · simp only [Except.ok.injEq] at h; subst h; exact wi.2.1
    · simp only [Except.ok.injEq] at h; subst h; exact hlog
  | flt v =>
    simp only at h
    split at h
    · obtain ⟨l, _, h⟩ := bind_ok.1 h
      simp only [pure_ok] at h; subst h; exact const_WF l
    · split at h
      · obtain ⟨l, _, h⟩ := bind_ok.1 h
        obtain ⟨m, _, h⟩ := bind_ok.1 h
        obtain ⟨d, _, h⟩ := bind_ok.1 h
        simp only [pure_ok] at h; subst h; exact const_WF d
      · simp only [Except.ok.injEq] at h; subst h; exact hlog
  | _ => simp only [Except.ok.injEq] at h; subst h; exact hlog

theorem logCtor_V {O : Oracle} (h1 : ∀ q, O.isPi q = false) (h2 : ∀ q, O.isE q = false) {st : Bool} {ρ : Str → ℝ}
    {i b r : Expr} (hd : LogDom ρ i b) (h : logCtor O i b = .ok r) :
    den ρ r = Real.log (den ρ i) / Real.log (den ρ b) ∧ DomF ρ r ∧
      (DomS st ρ i → DomS st ρ b → HN ρ i → DomS st ρ r) := by
  obtain ⟨di, db, pi', pb, nb⟩ := hd
  have hb0 : Real.log (den ρ b) ≠ 0 := Real.log_ne_zero_of_pos_of_ne_one pb nb
  have hlog : den ρ (log i b) = Real.log (den ρ i) / Real.log (den ρ b) ∧ DomF ρ (log i b) ∧
      (DomS st ρ i → DomS st ρ b → HN ρ i → DomS st ρ (log i b)) :=
    ⟨by simp only [den], ⟨di, db, pi', pb, nb⟩, fun a c e => ⟨a, c, e, pi', pb, nb⟩⟩
  unfold logCtor at h
  dsimp only at h
  split at h
  · next h0 =>
    have : i = rat 1 := beq_eq h1 h2 _ _ di.noFlt (by simp [NoFlt]) h0
    simp only [Except.ok.injEq] at h; subst h this; simp [DomF]
  split at h
  · next h0 =>
    have : i = b := beq_eq h1 h2 _ _ di.noFlt db.noFlt h0
    simp only [Except.ok.injEq] at h; subst h this
    exact ⟨by rw [div_self hb0]; simp, by simp [DomF], by simp⟩
  cases i with
  | pow c x =>
    simp only at h
    split at h
    · next hc =>
      have : c = b := beq_eq h1 h2 _ _ di.1.noFlt db.noFlt hc
      subst this
      split at h
      · simp at h
      · simp only [Except.ok.injEq] at h; subst h
        refine ⟨?_, di.2.1, fun d _ _ => d.2.1⟩
        simp only [den]
        rw [pw_of_nonneg pb.le, Real.log_rpow pb]
        field_simp
    · simp only [Except.ok.injEq] at h; subst h; exact hlog
  | flt v => simp [DomF] at di
  | _ => simp only [Except.ok.injEq] at h; subst h; exact hlog

end Simpy
