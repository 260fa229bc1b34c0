import Verif.Proofs.ExpConst
import Verif.Spec.Elementary

/-! # Lemmas: the derivative of a number times a table function -/

namespace Simpy
namespace Lin
open Expr

variable {O : Oracle} {C : Ctors} {u w L : Expr} {v : Str} {a b c k q : ℚ}

/-- A number times a piece, times a number. -/
theorem prod_prod_rat (hO : O.Exact) (hC : Squares C) (h : Piece v u) (a c : ℚ) :
    prodCtor O C [prod [rat a, u], rat c] = .ok (scale (a * c) u) := by
  by_cases e : c = a
  · subst e
    refine prodCtor_of h (cs := [c ^ 2]) (by simp) ?_ (by simp [sq])
    have := hC c
    cases h <;> simp [flatPL, Simpy.flatP, combineProdLoop, deconPow, beq, hO.isE, List.filter_cons, Expr.isAcc, bind, Except.bind, pure, Except.pure, foldAdd, opAdd,
      likeFactor, this, show ((1 : ℚ) + 1) = 2 by norm_num]
  · refine prodCtor_of h (cs := [a, c]) (by simp) ?_ (by simp)
    cases h <;> simp [flatPL, Simpy.flatP, combineProdLoop, deconPow, beq, hO.isE, List.filter_cons, Expr.isAcc, bind, Except.bind, pure, Except.pure, e]

theorem scale_mul (hO : O.Exact) (h : Piece v u) (ha : a ≠ 0) (c : ℚ) (n : Nat) :
    (ctors O (n + 2)).prod [scale a u, rat c] = .ok (scale (a * c) u) := by
  show prodCtor O (ctors O (n + 1)) [scale a u, rat c] = _
  by_cases h1 : a = 1
  · subst h1
    have e : scale 1 u = u := by simp [scale]
    rw [e, one_mul]
    exact prod_unit_rat hO h c
  · have e : scale a u = prod [rat a, u] := by simp [scale, ha, h1]
    rw [e]
    exact prod_prod_rat hO (squares_ctors n) h a c

/-- The same through the operator. -/
theorem scale_opMul (hO : O.Exact) (h : Piece v u) (ha : a ≠ 0) (c : ℚ) (n : Nat) :
    opMul (ctors O (n + 2)) (scale a u) (rat c) = .ok (scale (a * c) u) := by
  have key : opMul (ctors O (n + 2)) (scale a u) (rat c) = (ctors O (n + 2)).prod [scale a u, rat c] := by
    by_cases h1 : a = 1
    · have e : scale a u = u := by simp [scale, h1]
      rw [e]
      cases h <;> rfl
    · have e : scale a u = prod [rat a, u] := by simp [scale, ha, h1]
      rw [e]; rfl
  rw [key]
  exact scale_mul hO h ha c n

/-- The sum of 0 and a term. -/
theorem sum_zero_scale (h : Piece v u) (ha : a ≠ 0) (C : Ctors) : sumCtor O C [rat 0, scale a u] = .ok (scale a u) := by
  by_cases h1 : a = 1
  · have e : scale a u = u := by simp [scale, h1]
    rw [e]
    cases h <;>
      simp [sumCtor, flatSL, flatS, combineSum, combineSumLoop, isAcc, deconProd, beqL, beq, accumulateSum, likeTerm, bind, Except.bind, pure, Except.pure]
  · have e : scale a u = prod [rat a, u] := by simp [scale, ha, h1]
    rw [e]
    cases h <;>
      simp [sumCtor, flatSL, flatS, combineSum, combineSumLoop, isAcc, deconProd, beqL, beq, accumulateSum, likeTerm, bind, Except.bind, pure, Except.pure]

/-- The derivative of `c * u`. -/
theorem diff_scale (hO : O.Exact) (hu : Piece v u) (hw : Piece v w) (hc : c ≠ 0) (hk : k ≠ 0) {n : Nat}
    (h : diffE O (n + 3) v u = .ok (scale k w)) (h' : diffE O (n + 4) v u = .ok (scale k w)) :
    diffE O (n + 4) v (scale c u) = .ok (scale (c * k) w) := by
  by_cases h1 : c = 1
  · subst h1; simpa [scale] using h'
  · have e : scale c u = prod [rat c, u] := by simp [scale, hc, h1]
    have hr : diffE O (n + 3) v (rat c) = .ok (rat 0) := by simp [diffE]
    have h2 : (ctors O (n + 3)).prod [rat 0, u] = .ok (rat 0) := by
      have : (ctors O (n + 3)).prod [rat 0, u] = .ok (scale 0 u) := prod_rat_unit hu 0
      simpa [scale] using this
    have h3 : (ctors O (n + 3)).prod [scale k w, rat c] = .ok (scale (c * k) w) := by
      rw [mul_comm]; exact scale_mul hO hw hk c (n + 1)
    have h4 : (ctors O (n + 3)).sum [rat 0, scale (c * k) w] = .ok (scale (c * k) w) := sum_zero_scale hw (mul_ne_zero hc hk) _
    rw [e, diffE]
    simp only [prodDiffTerms, h, hr, bind, Except.bind, pure, Except.pure, List.nil_append, List.append_nil, h2, h3, h4]

theorem Slope.diff (h : Slope v a b L) (n : Nat) : diffE O (n + 6) v L = .ok (rat a) := by
  cases h with
  | var => simp [diffE]
  | lin h => exact h.diff n

theorem diff_exp (hO : O.Exact) (h : Slope v a b L) (n : Nat) : diffE O (n + 7) v (pow euler L) = .ok (scale a (pow euler L)) := by
  have hl : logCtor O euler euler = .ok (rat 1) := rfl
  have h1 : opMul (ctors O (n + 6)) (rat 1) (pow euler L) = .ok (pow euler L) := by
    have : opMul (ctors O (n + 6)) (rat 1) (pow euler L) = .ok (scale 1 (pow euler L)) := prod_rat_unit (.exp h.arg) 1
    simpa [scale] using this
  have h2 : opMul (ctors O (n + 6)) (pow euler L) (rat a) = .ok (scale a (pow euler L)) := prod_unit_rat hO (.exp h.arg) a
  rw [diffE]
  simp only [contains_arg h.arg, Expr.contains, Bool.not_true, Bool.not_false, Bool.false_eq_true, if_false, if_true, hl, h1, h.diff n, h2, bind, Except.bind]

theorem diff_sin (hO : O.Exact) (h : Slope v a b L) (hs : L.isSubtraction = false) (n : Nat) :
    diffE O (n + 7) v (trig .sin L) = .ok (scale a (trig .cos L)) := by
  have h1 : trigCtor O (n + 6) .cos L = .ok (trig .cos L) := h.arg.trig_ctor (.inr rfl) hs _
  have h2 : opMul (ctors O (n + 6)) (trig .cos L) (rat a) = .ok (scale a (trig .cos L)) := prod_unit_rat hO (.cos h.arg hs) a
  rw [diffE]
  simp only [h1, h.diff n, h2, bind, Except.bind]

theorem diff_cos (hO : O.Exact) (h : Slope v a b L) (hs : L.isSubtraction = false) (n : Nat) :
    diffE O (n + 7) v (trig .cos L) = .ok (scale (-a) (trig .sin L)) := by
  have h1 : trigCtor O (n + 6) .sin L = .ok (trig .sin L) := h.arg.trig_ctor (.inl rfl) hs _
  have h2 : opNeg (ctors O (n + 6)) (trig .sin L) = .ok (scale (-1) (trig .sin L)) := prod_rat_unit (.sin h.arg hs) (-1)
  have h3 : opMul (ctors O (n + 6)) (scale (-1) (trig .sin L)) (rat a) = .ok (scale (-a) (trig .sin L)) := by
    have := scale_opMul hO (.sin h.arg hs) (a := -1) (by norm_num) a (n + 4)
    rwa [neg_one_mul] at this
  rw [diffE]
  simp only [h1, h2, h.diff n, h3, bind, Except.bind]

theorem diff_varPow (hO : O.Exact) (h1 : q ≠ 1) (h0 : q ≠ 0) (n : Nat) : diffE O (n + 7) v (varPow v q) = .ok (scale q (varPow v (q - 1))) := by
  have hq : q - 1 ≠ 0 := sub_ne_zero.2 h1
  have e : varPow v q = pow (sym v) (rat q) := by simp [varPow, h1]
  have a1 : opSub (ctors O (n + 6)) (rat q) (rat 1) = .ok (rat (q - 1)) := rfl
  have a2 : opPow O (ctors O (n + 6)) (sym v) (rat (q - 1)) = .ok (varPow v (q - 1)) := pow_var' (n + 5) hq
  have a3 : opMul (ctors O (n + 6)) (rat q) (varPow v (q - 1)) = .ok (scale q (varPow v (q - 1))) := by
    have := mul_scale (O := O) (q := 1) one_ne_zero (varPow_piece (v := v) hq) q (n + 3)
    simpa [scale] using this
  have a4 : opMul (ctors O (n + 6)) (scale q (varPow v (q - 1))) (rat 1) = .ok (scale q (varPow v (q - 1))) := by
    have := scale_opMul hO (varPow_piece (v := v) hq) h0 1 (n + 4)
    rwa [mul_one] at this
  rw [e, diffE]
  simp only [Expr.contains, Bool.not_false, if_true, a1, a2, a3, a4, bind, Except.bind]
  simp [diffE, a4]

theorem diff_powTerm (hO : O.Exact) (c q : ℚ) (n : Nat) : diffE O (n + 8) v (powTerm v c q) = .ok (powTerm v (c * q) (q - 1)) := by
  by_cases hc : c = 0
  · subst hc; simp [powTerm, diffE]
  by_cases h0 : q = 0
  · subst h0; simp [powTerm, diffE, hc]
  by_cases h1 : q = 1
  · subst h1
    have e2 : powTerm v (c * 1) (1 - 1) = rat c := by simp [powTerm, hc]
    rw [e2]
    by_cases h : c = 1
    · subst h; simp [powTerm, varPow, scale, diffE]
    · have e1 : powTerm v c 1 = prod [rat c, sym v] := by simp [powTerm, varPow, scale, hc, h]
      rw [e1]
      exact (Linear.times (v := v) c hc h).diff (n + 2)
  · have hq : q - 1 ≠ 0 := sub_ne_zero.2 h1
    have e1 : powTerm v c q = scale c (varPow v q) := by simp [powTerm, h0, hc]
    have e2 : powTerm v (c * q) (q - 1) = scale (c * q) (varPow v (q - 1)) := by simp [powTerm, h0, hc, hq]
    rw [e1, e2]
    exact diff_scale hO (varPow_piece h0) (varPow_piece hq) hc h0 (diff_varPow hO h1 h0 n) (diff_varPow hO h1 h0 (n + 1))

end Lin
end Simpy
