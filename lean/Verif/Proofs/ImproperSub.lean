import Verif.Proofs.ExpConst
import Verif.Props.Infinity
import Verif.Props.Definite

/-! # Lemmas: the values of the antiderivative of an exponential function at the bounds -/

namespace Simpy
namespace Lin
open Expr

variable {O : Oracle} {C : Ctors} {L : Expr} {v : Str} {a b c k : ℚ}

theorem prod_rats (hC : Squares C) (p q : ℚ) : prodCtor O C [rat p, rat q] = .ok (rat (p * q)) := by
  have hd : ∀ x : ℚ, deconPow (rat x) = (rat x, rat 1) := fun _ => rfl
  by_cases e : q = p
  · subst e
    have hq := hC q
    by_cases h2 : q ^ 2 = 1
    · have h3 : q * q = 1 := by rw [← sq]; exact h2
      simp [prodCtor, flatPL, Simpy.flatP, combineProd, combineProdLoop, hd, beq, Expr.isAcc, accumulateProd, foldAdd, opAdd, likeFactor,
        show ((1 : ℚ) + 1) = 2 by norm_num, hq, h2, h3, bind, Except.bind, pure, Except.pure]
    · simp [prodCtor, flatPL, Simpy.flatP, combineProd, combineProdLoop, hd, beq, Expr.isAcc, accumulateProd, foldAdd, opAdd, likeFactor,
        show ((1 : ℚ) + 1) = 2 by norm_num, hq, h2, sq, bind, Except.bind, pure, Except.pure]
      split_ifs <;> simp_all
  · have e' : ¬ p = q := fun h => e h.symm
    by_cases h2 : p * q = 1
    · simp [prodCtor, flatPL, Simpy.flatP, combineProd, combineProdLoop, hd, beq, e, e', Expr.isAcc, accumulateProd, foldNum, numMul, value, const,
        h2, bind, Except.bind, pure, Except.pure]
    · simp [prodCtor, flatPL, Simpy.flatP, combineProd, combineProdLoop, hd, beq, e, e', Expr.isAcc, accumulateProd, foldNum, numMul, value, const,
        h2, bind, Except.bind, pure, Except.pure]

theorem sum_rats (p q : ℚ) : sumCtor O C [rat p, rat q] = .ok (rat (p + q)) := by
  by_cases h : p + q = 0 <;>
  simp [sumCtor, flatSL, Simpy.flatS, combineSum, combineSumLoop, Expr.isAcc, accumulateSum, foldNum, numAdd, value, const, beq, h,
    bind, Except.bind, pure, Except.pure]

theorem subs_arg (h : Slope v a b L) (A : ℚ) (n : Nat) : subsE O (n + 5) (single v (rat A)) L = .ok (rat (a * A + b)) := by
  have hs : ∀ m, subsE O (m + 1) (single v (rat A)) (sym v) = .ok (rat A) := fun m => by simp [subsE, single]
  have hr : ∀ m q, subsE O (m + 1) (single v (rat A)) (rat q) = .ok (rat q) := fun m q => by simp [subsE]
  have hp : ∀ m, subsE O (m + 4) (single v (rat A)) (prod [rat a, sym v]) = .ok (rat (a * A)) := fun m => by
    rw [subsE]
    simp only [mapR, hs, hr, bind, Except.bind, pure, Except.pure]
    exact prod_rats (squares_ctors (m + 1)) a A
  cases h with
  | var => simpa using hs (n + 4)
  | lin h =>
    cases h with
    | times _ _ _ => simpa using hp (n + 1)
    | plus _ _ =>
      rw [subsE]
      simp only [mapR, hs, hr, bind, Except.bind, pure, Except.pure, one_mul]
      exact sum_rats A b
    | both _ _ _ _ _ =>
      rw [subsE]
      simp only [mapR, hp, hr, bind, Except.bind, pure, Except.pure]
      exact sum_rats _ b

/-- The argument at the bound where the exponential function vanishes. -/
theorem subs_arg_inf (hI : O.Ieee) (h : Slope v a b L) (ra : FloatRange a) (rb : FloatRange b) {B : Expr}
    (hB : B = inf ∧ a < 0 ∨ B = neginf ∧ 0 < a) (n : Nat) : subsE O (n + 5) (single v B) L = .ok neginf := by
  have hs : ∀ m, subsE O (m + 1) (single v B) (sym v) = .ok B := fun m => by simp [subsE, single]
  have hr : ∀ m q, subsE O (m + 1) (single v B) (rat q) = .ok (rat q) := fun m q => by simp [subsE]
  have hp : ∀ m, subsE O (m + 4) (single v B) (prod [rat a, sym v]) = .ok neginf := fun m => by
    rw [subsE]
    simp only [mapR, hs, hr, bind, Except.bind, pure, Except.pure]
    rcases hB with ⟨rfl, h⟩ | ⟨rfl, h⟩
    · refine (Inf.pRT (C := ctors O (m + 2)) hI ra).trans ?_
      rw [Inf.infOf, if_neg h.ne, if_neg (by linarith)]; rfl
    · refine (Inf.pRB (C := ctors O (m + 2)) hI ra).trans ?_
      rw [Inf.infOf, if_neg (by linarith), if_neg (by linarith)]; rfl
  cases h with
  | var =>
    rcases hB with ⟨rfl, h⟩ | ⟨rfl, h⟩
    · linarith
    · exact hs (n + 4)
  | lin h =>
    cases h with
    | times _ _ _ => exact hp (n + 1)
    | plus _ _ =>
      rcases hB with ⟨rfl, h⟩ | ⟨rfl, h⟩
      · linarith
      · rw [subsE]
        simp only [mapR, hs, hr, bind, Except.bind, pure, Except.pure]
        exact Inf.sBR hI rb
    | both _ _ _ _ _ =>
      rw [subsE]
      simp only [mapR, hp, hr, bind, Except.bind, pure, Except.pure]
      exact Inf.sBR hI rb

theorem eMul_prod (hO : O.Exact) (hC : Squares C) (c : ℚ) {k : ℚ} (hk : k ≠ 0) (r : ℚ) : prodCtor O C [rat c, eMul k r] = .ok (eMul (c * k) r) := by
  unfold eMul
  split_ifs with h
  · exact prod_rats hC c k
  · exact (EU.to h).prod_scale hO hC c hk

theorem eTo_prod (hO : O.Exact) (hC : Squares C) (c r : ℚ) : prodCtor O C [rat c, eTo r] = .ok (eMul c r) := by
  have := eMul_prod (O := O) hO hC c one_ne_zero r
  have e : eMul 1 r = eTo r := by unfold eMul scale eTo; split_ifs <;> simp_all
  rwa [e, mul_one] at this

theorem subs_exp (hO : O.Exact) (h : Slope v a b L) (hk : k ≠ 0) (A : ℚ) (n : Nat) :
    subsE O (n + 7) (single v (rat A)) (scale k (pow euler L)) = .ok (eMul k (a * A + b)) := by
  have hp : ∀ m, subsE O (m + 6) (single v (rat A)) (pow euler L) = .ok (eTo (a * A + b)) := fun m => by
    have he : subsE O (m + 5) (single v (rat A)) euler = .ok euler := by simp [subsE]
    rw [subsE]
    simp only [he, subs_arg h, bind, Except.bind]
    exact pow_eTo _ (m + 4)
  have e : eMul 1 (a * A + b) = eTo (a * A + b) := by unfold eMul scale eTo; split_ifs <;> simp_all
  by_cases h1 : k = 1
  · subst h1
    rw [e]
    simpa [scale] using hp (n + 1)
  · have : scale k (pow euler L) = prod [rat k, pow euler L] := by simp [scale, hk, h1]
    have hr : subsE O (n + 6) (single v (rat A)) (rat k) = .ok (rat k) := by simp [subsE]
    rw [this, subsE]
    simp only [mapR, hp n, hr, bind, Except.bind, pure, Except.pure]
    exact eTo_prod hO (squares_ctors (n + 4)) _ _

theorem subs_exp_inf (hI : O.Ieee) (h : Slope v a b L) (ra : FloatRange a) (rb : FloatRange b) {B : Expr}
    (hB : B = inf ∧ a < 0 ∨ B = neginf ∧ 0 < a) (hk : k ≠ 0) (n : Nat) :
    subsE O (n + 7) (single v B) (scale k (pow euler L)) = .ok (rat 0) := by
  have hp : ∀ m, subsE O (m + 6) (single v B) (pow euler L) = .ok (rat 0) := fun m => by
    have he : subsE O (m + 5) (single v B) euler = .ok euler := by simp [subsE]
    rw [subsE]
    simp only [he, subs_arg_inf hI h ra rb hB, bind, Except.bind]
    rfl
  by_cases h1 : k = 1
  · subst h1
    simpa [scale] using hp (n + 1)
  · have : scale k (pow euler L) = prod [rat k, pow euler L] := by simp [scale, hk, h1]
    have hr : subsE O (n + 6) (single v B) (rat k) = .ok (rat k) := by simp [subsE]
    rw [this, subsE]
    simp only [mapR, hp n, hr, bind, Except.bind, pure, Except.pure]
    have := prod_rats (O := O) (squares_ctors (O := O) (n + 4)) k 0
    rw [mul_zero] at this
    exact this

theorem eMul_cases (hk : k ≠ 0) (r : ℚ) : (∃ q, eMul k r = rat q) ∨ (∀ q, eMul k r ≠ rat q) ∧ ∃ u, EU u ∧ eMul k r = scale k u := by
  by_cases h : r = 0
  · exact .inl ⟨k, by simp [eMul, h]⟩
  · refine .inr ⟨fun q => ?_, _, EU.to h, by simp [eMul, h]⟩
    unfold eMul scale eTo
    split_ifs <;> simp_all

/-- `0 - k*e**r`. -/
theorem sub_eMul (hO : O.Exact) (hk : k ≠ 0) (r : ℚ) (n : Nat) : opSub (ctors O (n + 2)) (rat 0) (eMul k r) = .ok (eMul (-k) r) := by
  by_cases h : r = 0
  · simp [eMul, h, opSub]
  · obtain ⟨hu, e⟩ : EU (eTo r) ∧ eMul k r = scale k (eTo r) := ⟨EU.to h, by simp [eMul, h]⟩
    have e2 : eMul (-k) r = scale (-k) (eTo r) := by simp [eMul, h]
    rw [e, e2]
    generalize eTo r = u at hu
    have hm : opMul (ctors O (n + 2)) (rat (-1)) (scale k u) = .ok (scale (-k) u) := by
      have := hu.prod_scale hO (C := ctors O (n + 1)) (squares_ctors n) (-1) hk
      rw [neg_one_mul] at this
      rw [← this]
      unfold scale; rw [if_neg hk]; split_ifs <;> cases hu <;> rfl
    have hk' : -k ≠ 0 := by simpa using hk
    have ha : opAdd (ctors O (n + 2)) (rat 0) (scale (-k) u) = .ok (scale (-k) u) := by
      rw [← (hu.sum0 (O := O) (C := ctors O (n + 1)) hk').1]
      unfold scale; rw [if_neg hk']; split_ifs <;> cases hu <;> rfl
    have hs : opSub (ctors O (n + 2)) (rat 0) (scale k u) =
        (do let m ← opMul (ctors O (n + 2)) (rat (-1)) (scale k u); opAdd (ctors O (n + 2)) (rat 0) m) := by
      unfold scale; rw [if_neg hk]; split_ifs <;> cases hu <;> rfl
    rw [hs, hm]
    exact ha

/-- `k*e**r - 0`. -/
theorem eMul_sub (hk : k ≠ 0) (r : ℚ) (n : Nat) : opSub (ctors O (n + 2)) (eMul k r) (rat 0) = .ok (eMul k r) := by
  by_cases h : r = 0
  · simp [eMul, h, opSub]
  · obtain ⟨hu, e⟩ : EU (eTo r) ∧ eMul k r = scale k (eTo r) := ⟨EU.to h, by simp [eMul, h]⟩
    rw [e]
    generalize eTo r = u at hu
    have ha : opAdd (ctors O (n + 2)) (scale k u) (rat 0) = .ok (scale k u) := by
      rw [← (hu.sum0 (O := O) (C := ctors O (n + 1)) hk).2]
      unfold scale; rw [if_neg hk]; split_ifs <;> cases hu <;> rfl
    have hs : opSub (ctors O (n + 2)) (scale k u) (rat 0) = opAdd (ctors O (n + 2)) (scale k u) (rat (-1 * 0)) := by
      unfold scale; rw [if_neg hk]; split_ifs <;> cases hu <;> rfl
    rw [hs, mul_zero]
    exact ha

end Lin
end Simpy
