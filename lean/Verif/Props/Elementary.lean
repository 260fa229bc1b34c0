import Verif.Proofs.ElemInt
import Verif.Props.Improper
import Mathlib.Algebra.BigOperators.Intervals

/-!
# C94: derivatives of any order, and integrals, of elementary terms

What `diff` (any number of times) and `integrate` return for `c * e**(a*x+b)`, `c * sin(a*x+b)`, `c * cos(a*x+b)` and `c * x**q`, expression
by expression, not only up to their values. `LinearArg v L`: `L` is written as `a*x + b` (Spec/Combination); `hL` says what `a` and `b` are.
`powTerm v c q` is `c * x**q` and `diffs` is `diff` repeated (Spec/Elementary).
-/

namespace Simpy
open Expr Lin

variable {O : Oracle} {v : Str} {L : Expr} {a b c q : ℚ} {ρ : Str → ℝ}

/-- **C94** the `k`-th derivative of `c * e**(a*x+b)` is `c * a**k * e**(a*x+b)`. -/
theorem derivs_exp (hO : O.Exact) (h : LinearArg v L) (hL : ∀ t : ℝ, fnOf ρ v L t = a * t + b) (hc : c ≠ 0) (n k : Nat) :
    diffs O (n + 8) v k (scale c (pow euler L)) = .ok (scale (c * a ^ k) (pow euler L)) := by
  have hs := slope_of h hL
  induction k generalizing c with
  | zero => simp [diffs]
  | succ k ih =>
    have := diff_scale hO (.exp h) (.exp h) hc hs.ne (diff_exp hO hs n) (diff_exp hO hs (n + 1))
    simp only [diffs, this, bind, Except.bind]
    rw [ih (mul_ne_zero hc hs.ne), pow_succ', mul_assoc]

namespace Lin

theorem derivs_trig (hO : O.Exact) (h : LinearArg v L) (hn : L.isSubtraction = false) (hs : Slope v a b L) (n k : Nat) : ∀ {c : ℚ}, c ≠ 0 →
    diffs O (n + 8) v k (scale c (trig .sin L)) = .ok (scale (c * a ^ k * (-1) ^ (k / 2)) (trig (if Even k then .sin else .cos) L)) ∧
    diffs O (n + 8) v k (scale c (trig .cos L)) = .ok (scale (c * a ^ k * (-1) ^ ((k + 1) / 2)) (trig (if Even k then .cos else .sin) L)) := by
  induction k with
  | zero => intro c _; simp [diffs]
  | succ k ih =>
    intro c hc
    have hna : -a ≠ 0 := neg_ne_zero.2 hs.ne
    have h1 := diff_scale hO (.sin h hn) (.cos h hn) hc hs.ne (diff_sin hO hs hn n) (diff_sin hO hs hn (n + 1))
    have h2 := diff_scale hO (.cos h hn) (.sin h hn) hc hna (diff_cos hO hs hn n) (diff_cos hO hs hn (n + 1))
    have e : (k + 1 + 1) / 2 = k / 2 + 1 := by omega
    constructor
    · simp only [diffs, h1, bind, Except.bind]
      rw [(ih (mul_ne_zero hc hs.ne)).2]
      congr 2
      · rw [pow_succ']; ring
      · by_cases hk : Even k <;> simp [hk, Nat.even_add_one]
    · simp only [diffs, h2, bind, Except.bind]
      rw [(ih (mul_ne_zero hc hna)).1]
      congr 2
      · rw [e, pow_succ', pow_succ']; ring
      · by_cases hk : Even k <;> simp [hk, Nat.even_add_one]

end Lin

/-- **C94** the `k`-th derivative of `c * sin(a*x+b)`. -/
theorem derivs_sin (hO : O.Exact) (h : LinearArg v L) (hn : L.isSubtraction = false) (hL : ∀ t : ℝ, fnOf ρ v L t = a * t + b) (hc : c ≠ 0) (n k : Nat) :
    diffs O (n + 8) v k (scale c (trig .sin L)) = .ok (scale (c * a ^ k * (-1) ^ (k / 2)) (trig (if Even k then .sin else .cos) L)) :=
  (derivs_trig hO h hn (slope_of h hL) n k hc).1

/-- **C94** the `k`-th derivative of `c * cos(a*x+b)`. -/
theorem derivs_cos (hO : O.Exact) (h : LinearArg v L) (hn : L.isSubtraction = false) (hL : ∀ t : ℝ, fnOf ρ v L t = a * t + b) (hc : c ≠ 0) (n k : Nat) :
    diffs O (n + 8) v k (scale c (trig .cos L)) = .ok (scale (c * a ^ k * (-1) ^ ((k + 1) / 2)) (trig (if Even k then .cos else .sin) L)) :=
  (derivs_trig hO h hn (slope_of h hL) n k hc).2

/-- **C94** the `k`-th derivative of `c * x**q` is `c * q * (q-1) * ... * (q-k+1) * x**(q-k)`. -/
theorem derivs_power (hO : O.Exact) (c q : ℚ) (n k : Nat) :
    diffs O (n + 8) v k (powTerm v c q) = .ok (powTerm v (c * ∏ i ∈ Finset.range k, (q - i)) (q - k)) := by
  induction k generalizing c q with
  | zero => simp [diffs]
  | succ k ih =>
    simp only [diffs, diff_powTerm hO c q n, bind, Except.bind]
    rw [ih (c * q) (q - 1), Finset.prod_range_succ']
    congr 2
    · push_cast
      have : ∀ i : ℕ, q - 1 - (i : ℚ) = q - ((i : ℚ) + 1) := fun i => by ring
      simp only [this, sub_zero]
      ring
    · push_cast; ring

/-- **C94** after `m + 1` derivatives nothing is left of `c * x**m`. -/
theorem derivs_vanish (hO : O.Exact) (c : ℚ) (m n : Nat) : diffs O (n + 8) v (m + 1) (powTerm v c m) = .ok (rat 0) := by
  rw [derivs_power hO, Finset.prod_eq_zero (Finset.self_mem_range_succ m) (sub_self _), mul_zero]
  simp [powTerm]

/-- **C94** the integral of `c * e**(a*x+b)`. -/
theorem integral_exp (hO : O.Exact) (h : LinearArg v L) (hL : ∀ t : ℝ, fnOf ρ v L t = a * t + b) (hc : c ≠ 0) (n k : Nat) (ν : Supply) (bf : Bool) :
    integrateTop O (n + 15) ν bf k (scale c (pow euler L)) (.var v) = .ok (some (scale (c / a) (pow euler L))) := by
  have := integrate_outer hO .exp (slope_of h hL) ⟨h, .exp h, .exp h⟩ hc n k ν bf true
  rwa [mul_one, ← div_eq_mul_inv] at this

/-- **C94** the integral of `c * sin(a*x+b)`. -/
theorem integral_sin (hO : O.Exact) (h : LinearArg v L) (hn : L.isSubtraction = false) (hL : ∀ t : ℝ, fnOf ρ v L t = a * t + b) (hc : c ≠ 0)
    (n k : Nat) (ν : Supply) (bf : Bool) :
    integrateTop O (n + 15) ν bf k (scale c (trig .sin L)) (.var v) = .ok (some (scale (-(c / a)) (trig .cos L))) := by
  have := integrate_outer hO .sin (slope_of h hL) ⟨h, .sin h hn, .cos h hn⟩ hc n k ν bf true
  rwa [show c * (a⁻¹ * -1) = -(c / a) by ring] at this

/-- **C94** the integral of `c * cos(a*x+b)`. -/
theorem integral_cos (hO : O.Exact) (h : LinearArg v L) (hn : L.isSubtraction = false) (hL : ∀ t : ℝ, fnOf ρ v L t = a * t + b) (hc : c ≠ 0)
    (n k : Nat) (ν : Supply) (bf : Bool) :
    integrateTop O (n + 15) ν bf k (scale c (trig .cos L)) (.var v) = .ok (some (scale (c / a) (trig .sin L))) := by
  have := integrate_outer hO .cos (slope_of h hL) ⟨h, .cos h hn, .sin h hn⟩ hc n k ν bf true
  rwa [mul_one, ← div_eq_mul_inv] at this

/-- **C94** the integral of `c * x**q`. -/
theorem integral_power (hq : q ≠ -1) (hc : c ≠ 0) (n k : Nat) (ν : Supply) (bf : Bool) :
    integrateTop O (n + 15) ν bf k (powTerm v c q) (.var v) = .ok (some (powTerm v (c / (q + 1)) (q + 1))) := by
  have := integrate_power (O := O) (v := v) hq hc n k ν bf true
  rwa [← div_eq_mul_inv] at this

/-- The terms of C94: multiples of `e**L`, `sin(L)` and `cos(L)` with a linear `L`, and of powers of the variable. -/
inductive Elementary (v : Str) : Expr → Prop
  | exp {c : ℚ} {L : Expr} : c ≠ 0 → LinearArg v L → Elementary v (scale c (pow euler L))
  | sin {c : ℚ} {L : Expr} : c ≠ 0 → LinearArg v L → L.isSubtraction = false → Elementary v (scale c (trig .sin L))
  | cos {c : ℚ} {L : Expr} : c ≠ 0 → LinearArg v L → L.isSubtraction = false → Elementary v (scale c (trig .cos L))
  | power {c q : ℚ} : c ≠ 0 → q ≠ -1 → Elementary v (powTerm v c q)

namespace Lin

theorem slope_exists (h : LinearArg v L) : ∃ a b, Slope v a b L := by
  rcases Linear.of h with rfl | ⟨a, b, hl⟩
  · exact ⟨1, 0, .var⟩
  · exact ⟨a, b, .lin hl⟩

end Lin

/-- **C94** `diff` undoes `integrate`: the derivative of the integral of a term is that term. -/
theorem diff_integral (hO : O.Exact) {t : Expr} (h : Elementary v t) (n k m : Nat) (ν : Supply) (bf : Bool) :
    ∃ F, integrateTop O (n + 15) ν bf k t (.var v) = .ok (some F) ∧ diffE O (m + 8) v F = .ok t := by
  cases h with
  | @exp c L hc h =>
    obtain ⟨a, b, hs⟩ := slope_exists h
    have hd := diff_scale hO (.exp h) (.exp h) (c := c * (a⁻¹ * 1)) (by simp [hc, hs.ne]) hs.ne (diff_exp hO hs m) (diff_exp hO hs (m + 1))
    have e : c * (a⁻¹ * 1) * a = c := by field_simp [hs.ne]
    rw [e] at hd
    exact ⟨_, integrate_outer hO .exp hs ⟨h, .exp h, .exp h⟩ hc n k ν bf true, hd⟩
  | @sin c L hc h hn =>
    obtain ⟨a, b, hs⟩ := slope_exists h
    have hd := diff_scale hO (.cos h hn) (.sin h hn) (c := c * (a⁻¹ * -1)) (by simp [hc, hs.ne]) (neg_ne_zero.2 hs.ne) (diff_cos hO hs hn m) (diff_cos hO hs hn (m + 1))
    have e : c * (a⁻¹ * -1) * -a = c := by field_simp [hs.ne]
    rw [e] at hd
    exact ⟨_, integrate_outer hO .sin hs ⟨h, .sin h hn, .cos h hn⟩ hc n k ν bf true, hd⟩
  | @cos c L hc h hn =>
    obtain ⟨a, b, hs⟩ := slope_exists h
    have hd := diff_scale hO (.sin h hn) (.cos h hn) (c := c * (a⁻¹ * 1)) (by simp [hc, hs.ne]) hs.ne (diff_sin hO hs hn m) (diff_sin hO hs hn (m + 1))
    have e : c * (a⁻¹ * 1) * a = c := by field_simp [hs.ne]
    rw [e] at hd
    exact ⟨_, integrate_outer hO .cos hs ⟨h, .cos h hn, .sin h hn⟩ hc n k ν bf true, hd⟩
  | @power c q hc hq =>
    have hq1 : q + 1 ≠ 0 := fun h => hq (by linarith)
    refine ⟨_, integrate_power hq hc n k ν bf true, ?_⟩
    rw [diff_powTerm hO, mul_assoc, inv_mul_cancel₀ hq1, mul_one, add_sub_cancel_right]

/-- **C94** `integrate` undoes `diff`, except for numbers, whose derivative is 0. -/
theorem integral_diff (hO : O.Exact) {t : Expr} (h : Elementary v t) (ht : ∀ r, t ≠ rat r) (n k m : Nat) (ν : Supply) (bf : Bool) :
    ∃ d, diffE O (m + 8) v t = .ok d ∧ integrateTop O (n + 15) ν bf k d (.var v) = .ok (some t) := by
  cases h with
  | @exp c L hc h =>
    obtain ⟨a, b, hs⟩ := slope_exists h
    have hi := integrate_outer hO .exp hs ⟨h, .exp h, .exp h⟩ (c := c * a) (by simp [hc, hs.ne]) n k ν bf true
    have e : c * a * (a⁻¹ * 1) = c := by field_simp [hs.ne]
    rw [e] at hi
    exact ⟨_, diff_scale hO (.exp h) (.exp h) hc hs.ne (diff_exp hO hs m) (diff_exp hO hs (m + 1)), hi⟩
  | @sin c L hc h hn =>
    obtain ⟨a, b, hs⟩ := slope_exists h
    have hi := integrate_outer hO .cos hs ⟨h, .cos h hn, .sin h hn⟩ (c := c * a) (by simp [hc, hs.ne]) n k ν bf true
    have e : c * a * (a⁻¹ * 1) = c := by field_simp [hs.ne]
    rw [e] at hi
    exact ⟨_, diff_scale hO (.sin h hn) (.cos h hn) hc hs.ne (diff_sin hO hs hn m) (diff_sin hO hs hn (m + 1)), hi⟩
  | @cos c L hc h hn =>
    obtain ⟨a, b, hs⟩ := slope_exists h
    have hi := integrate_outer hO .sin hs ⟨h, .sin h hn, .cos h hn⟩ (c := c * -a) (by simp [hc, hs.ne]) n k ν bf true
    have e : c * -a * (a⁻¹ * -1) = c := by field_simp [hs.ne]
    rw [e] at hi
    exact ⟨_, diff_scale hO (.cos h hn) (.sin h hn) hc (neg_ne_zero.2 hs.ne) (diff_cos hO hs hn m) (diff_cos hO hs hn (m + 1)), hi⟩
  | @power c q hc hq =>
    have h0 : q ≠ 0 := fun h => ht c (by simp [powTerm, h, hc])
    have hi := integrate_power (O := O) (v := v) (q := q - 1) (c := c * q) (fun h => h0 (by linarith)) (mul_ne_zero hc h0) n k ν bf true
    rw [sub_add_cancel, mul_assoc, mul_inv_cancel₀ h0, mul_one] at hi
    exact ⟨_, diff_powTerm hO c q m, hi⟩

/-! ## Cases -/

/-- The 5th derivative of `3*sin(2*x)` is `96*cos(2*x)`. -/
example (hO : O.Exact) : diffs O 8 ['x'] 5 (prod [rat 3, trig .sin (prod [rat 2, sym ['x']])]) =
    .ok (prod [rat 96, trig .cos (prod [rat 2, sym ['x']])]) := by
  have := derivs_sin (v := ['x']) (L := prod [rat 2, sym ['x']]) (a := 2) (b := 0) (c := 3) (ρ := fun _ => 0) hO
    (.times 2 (by norm_num) (by norm_num)) (by decide +kernel) (fun t => by simp [fnOf, den, denP]) (by norm_num) 0 5
  have e1 : scale 3 (trig .sin (prod [rat 2, sym ['x']])) = prod [rat 3, trig .sin (prod [rat 2, sym ['x']])] := rfl
  rw [e1] at this
  rw [this]
  decide +kernel

/-- The 4th derivative of `x**(5/2)` is `-15/16 * x**(-3/2)`. -/
example (hO : O.Exact) : diffs O 8 ['x'] 4 (pow (sym ['x']) (rat (5 / 2))) = .ok (prod [rat (-15 / 16), pow (sym ['x']) (rat (-3 / 2))]) := by
  have := derivs_power (v := ['x']) hO 1 (5 / 2) 0 4
  have e1 : powTerm ['x'] 1 (5 / 2) = pow (sym ['x']) (rat (5 / 2)) := by decide +kernel
  rw [e1] at this
  rw [this]
  decide +kernel

/-- The integral of `cos(1 - 2*x)` is `-1/2 * sin(1 - 2*x)`. -/
example (hO : O.Exact) (ν : Supply) : integrateTop O 15 ν false 3 (trig .cos (sum [prod [rat (-2), sym ['x']], rat 1])) (.var ['x']) =
    .ok (some (prod [rat (-1 / 2), trig .sin (sum [prod [rat (-2), sym ['x']], rat 1])])) := by
  have := integral_cos (v := ['x']) (L := sum [prod [rat (-2), sym ['x']], rat 1]) (a := -2) (b := 1) (c := 1) (ρ := fun _ => 0) hO
    (.both (-2) 1 (by norm_num) (by norm_num) (by norm_num)) (by decide +kernel) (fun t => by simp [fnOf, den, denS, denP]) (by norm_num) 0 3 ν false
  have e1 : scale 1 (trig .cos (sum [prod [rat (-2), sym ['x']], rat 1])) = trig .cos (sum [prod [rat (-2), sym ['x']], rat 1]) := rfl
  rw [e1] at this
  rw [this]
  decide +kernel

/-- An elementary term that is not a number. -/
example : Elementary ['x'] (powTerm ['x'] 4 (-3)) ∧ ∀ r, powTerm ['x'] 4 (-3) ≠ rat r :=
  ⟨.power (by norm_num) (by norm_num), fun r => by
    have : powTerm ['x'] 4 (-3) = prod [rat 4, pow (sym ['x']) (rat (-3))] := by decide +kernel
    simp [this]⟩

end Simpy
