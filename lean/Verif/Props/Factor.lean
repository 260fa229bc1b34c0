import Verif.Proofs.FactorMono
import Verif.Proofs.ReprReads

/-!
# C73: what `Sum.factor` takes out of a sum of monomials in one variable
-/

namespace Simpy
namespace TakenOut
open Expr Mono1

variable {O : Oracle} {v : Str}

theorem Name.ne (h : Name v) : v ≠ [] := by
  obtain ⟨c, r, rfl, -⟩ := h; simp

theorem Name.ratStr (h : Name v) (q : ℚ) : Simpy.ratStr q ≠ v := by
  obtain ⟨c, r, rfl, h1, h2⟩ := h
  have hi : ∀ (z : ℤ) (w s : Str), intStr z ++ w ≠ c :: s := by
    intro z w s e
    rcases lt_or_ge z 0 with hz | hz
    · rw [intStr_neg hz] at e
      simp only [List.cons_append, List.cons.injEq] at e
      exact h1 e.1.symm
    · obtain ⟨m, rfl⟩ := Int.eq_ofNat_of_zero_le hz
      rw [intStr_nat] at e
      have hd : ∀ x ∈ Nat.toDigits 10 m, x.isDigit = true := fun x hx => Nat.isDigit_of_mem_toDigits (by norm_num) (by norm_num) hx
      cases hl : Nat.toDigits 10 m with
      | nil => have := Nat.toDigits_ne_nil (n := m) (b := 10); exact this hl
      | cons y t =>
        rw [hl] at e hd
        simp only [List.cons_append, List.cons.injEq] at e
        have := hd y (by simp)
        rw [e.1, h2] at this; cases this
  unfold Simpy.ratStr
  split
  · intro e; exact hi q.num [] r (by simpa using e)
  · intro e; exact hi q.num _ r e

/-- **C73** `Sum.factor` on a sum of monomials `c * x ** q` (rational numbers `c ≠ 0` and `q`; not all of them numbers) always
returns: the product of one monomial `k * x ** e` and of the `Sum` of the monomials `(c/k) * x ** (q-e)`. `x ** e` is the power
common to all the terms: the least exponent if all are positive, the greatest if all are negative, none otherwise. `k` divides all
the coefficients, is one of them up to its sign, and is negative exactly if they all are; or it is 1 and there are two coefficients
neither of which divides the other. -/
theorem factor_takes_out_common (hO : O.Exact) (n : Nat) (hv : Name v) {ps : List (ℚ × ℚ)} (hc : ∀ p ∈ ps, p.1 ≠ 0)
    (hx : ∃ p ∈ ps, p.2 ≠ 0) : ∃ k e s r,
    factorSum (ctors O (n + 12)) (ps.map fun p => monomial v p.1 p.2) = .ok r ∧
    opMul (ctors O (n + 12)) (monomial v k e) s = .ok r ∧
    (ctors O (n + 12)).sum (ps.map fun p => monomial v (p.1 / k) (p.2 - e)) = .ok s ∧
    CommonExponent (ps.map Prod.snd) e ∧ k ≠ 0 ∧
    (CommonNumber (ps.map Prod.fst) k ∨
      k = 1 ∧ ∃ a ∈ ps.map Prod.fst, ∃ b ∈ ps.map Prod.fst, ¬ Divides a b ∧ ¬ Divides b a) := by
  obtain ⟨k, e, h1, hk, he, hn⟩ := factorCommon_mq (O := O) (n + 10) hv.ratStr hc hx
  have e1 : (ps.map fun p => monomial v p.1 p.2) = ps.map fun p => mq v p.1 p.2 :=
    List.map_congr_left fun p hp => (mq_eq (hc p hp) p.2).symm
  have e2 : (ps.map fun p => monomial v (p.1 / k) (p.2 - e)) = ps.map fun p => mq v (p.1 / k) (p.2 - e) :=
    List.map_congr_left fun p hp => (mq_eq (div_ne_zero (hc p hp) hk) _).symm
  obtain ⟨s, hs, hP⟩ := Lin.sum_combs (P := Power1 v) hO hv.ne (ts := ps.map fun p => mq v (p.1 / k) (p.2 - e))
    (fun t ht => by obtain ⟨p, -, rfl⟩ := List.mem_map.1 ht; exact .inl (mq_term _)) (n + 1)
  have hcs : Canon O s := (ctors_presG (closed_canon hO) (n + 12)).sum _ _
    (fun t ht => by obtain ⟨p, -, rfl⟩ := List.mem_map.1 ht; exact mq_canon _ _) hs
  obtain ⟨r, hr⟩ := prod_comb hO hv.ne hcs hP (k := k) (e := e) hk n
  refine ⟨k, e, s, r, ?_, by rw [← mq_eq hk]; exact hr, by rw [e2]; exact hs, he, hk, hn⟩
  rw [e1]
  unfold factorSum
  have h1' : factorCommon (ctors O (n + 12)) (ps.map fun p => mq v p.1 p.2) = .ok (mq v k e) := h1
  rw [h1']
  simp only [bind, Except.bind, mapR_div (n + 7) hk ps hc]
  rw [hs]
  exact hr

/-- The number taken out depends on the order of the terms: 2 is taken out of `2 + 4x^2 + 6x`, but nothing out of `4x^2 + 6x + 2`. -/
theorem factor_depends_on_order :
    factorCommon (ctors exactOracle 9) [rat 2, prod [rat 4, pow (sym ['x']) (rat 2)], prod [rat 6, sym ['x']]] = .ok (rat 2) ∧
    factorCommon (ctors exactOracle 9) [prod [rat 4, pow (sym ['x']) (rat 2)], prod [rat 6, sym ['x']], rat 2] = .ok (rat 1) := by
  set_option maxRecDepth 10000 in
  decide +kernel

section examples

/-- The name `x`. -/
theorem name_x : Name ['x'] := ⟨'x', [], rfl, by decide, by decide⟩

/-- Non-vacuity: `factor` of `-4x^3 - 6x^2` and of `4x + 2x^2`. -/
example : (∀ p ∈ [((-4 : ℚ), (3 : ℚ)), (-6, 2)], p.1 ≠ 0) ∧ (∃ p ∈ [((-4 : ℚ), (3 : ℚ)), (-6, 2)], p.2 ≠ 0) := by
  constructor
  · simp
  · exact ⟨(-4, 3), by simp, by norm_num⟩

example : factorCommon (ctors exactOracle 9) [monomial ['x'] 4 1, monomial ['x'] 2 2] = .ok (monomial ['x'] 2 1) := by
  set_option maxRecDepth 10000 in
  decide +kernel

end examples

end TakenOut
end Simpy
