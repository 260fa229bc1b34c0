import Verif.Model.Exact
import Verif.Proofs.PowSound2

/-! The exact oracle satisfies the assumption of the value theorems. -/

namespace Simpy

theorem rootSearch_spec {d t r : Nat} (h : rootSearch d t = some r) : r ^ d = t := by
  simp only [rootSearch] at h
  split at h
  · next hk => simp only [Option.some.injEq] at h; subst h; exact hk
  · simp at h

theorem exactOracle_exact : exactOracle.Exact where
  isPi _ := rfl
  isE _ := rfl
  intPow := by
    intro n x k _ hx h
    simp only [exactOracle, Except.ok.injEq, exactIntPow] at h
    split at h
    · simp at h
    · next hn =>
      push Not at hn
      refine ⟨hn.1, ?_⟩
      split at h
      case h_2 => simp at h
      rename_i r hr
      simp only [Option.some.injEq] at h
      subst h
      have hr := rootSearch_spec hr
      have hnn : (n : ℝ) = (n.toNat : ℝ) := by
        have : ((n.toNat : ℤ) : ℝ) = (n : ℝ) := by rw [Int.toNat_of_nonneg hn.1]
        rw [← this, Int.cast_natCast]
      have hxn : (x.num.toNat : ℝ) = (x.num : ℝ) := by
        have h0 : 0 ≤ x.num := Rat.num_nonneg.2 hx.le
        have : ((x.num.toNat : ℤ) : ℝ) = (x.num : ℝ) := by rw [Int.toNat_of_nonneg h0]
        rw [← this, Int.cast_natCast]
      have hd : (x.den : ℝ) ≠ 0 := by exact_mod_cast x.den_nz
      have h1 : ((r : ℝ)) ^ (x.den : ℝ) = (n.toNat : ℝ) ^ (x.num : ℝ) := by
        rw [← hxn, Real.rpow_natCast, Real.rpow_natCast]; exact_mod_cast hr
      have hx' : (x : ℝ) = (x.num : ℝ) * (x.den : ℝ)⁻¹ := by rw [← div_eq_mul_inv]; exact Rat.cast_def x
      rw [hnn, hx', Real.rpow_mul (by positivity), ← h1, ← Real.rpow_mul (by positivity),
        mul_inv_cancel₀ hd, Real.rpow_one]
      simp

end Simpy
