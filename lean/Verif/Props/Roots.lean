import Verif.Proofs.RootRun
import Verif.Props.Elementary
import Mathlib.Analysis.SpecialFunctions.Pow.Deriv

/-!
# C95: roots, and other fractional powers, of linear functions

What `integrate` and `diff` (any number of times) return for `c * (a*x+b)**q` with a fractional `q`, as `c * sqrt(a*x+b)` or
`c / (a*x+b)**(3/2)`, expression by expression. `LinearArg v (sum ts)`: the base is a sum that is written as `a*x + b`
(Spec/Combination); `hL` says what `a` and `b` are. `q.den ≠ 1`: `q` is not an integer.
-/

namespace Simpy
open Expr Lin

variable {O : Oracle} {v : Str} {ts : List Expr} {a b c q : ℚ} {ρ : Str → ℝ}

namespace Lin

theorem linear_of_sum (h : LinearArg v (sum ts)) (hL : ∀ t : ℝ, fnOf ρ v (sum ts) t = a * t + b) : Linear v a b (sum ts) := by
  cases slope_of h hL with
  | lin h => exact h

end Lin

/-- **C95** the integral of `c * (a*x+b)**q` is `c/(a*(q+1)) * (a*x+b)**(q+1)`. -/
theorem integral_root (hO : O.Exact) (h : LinearArg v (sum ts)) (hL : ∀ t : ℝ, fnOf ρ v (sum ts) t = a * t + b) (hq : q.den ≠ 1) (hc : c ≠ 0)
    (n k : Nat) (ν : Supply) (bf : Bool) :
    integrateTop O (n + 15) ν bf k (scale c (pow (sum ts) (rat q))) (.var v) =
      .ok (some (scale (c / (a * (q + 1))) (pow (sum ts) (rat (q + 1))))) := by
  have := integrate_root hO (linear_of_sum h hL) hq hc n k ν bf true
  rwa [← mul_inv, ← div_eq_mul_inv] at this

/-- **C95** the `k`-th derivative of `c * (a*x+b)**q` is `c * a**k * q * (q-1) * ... * (q-k+1) * (a*x+b)**(q-k)`. -/
theorem derivs_root (h : LinearArg v (sum ts)) (hL : ∀ t : ℝ, fnOf ρ v (sum ts) t = a * t + b) (hq : q.den ≠ 1) (hc : c ≠ 0) (n k : Nat) :
    diffs O (n + 8) v k (scale c (pow (sum ts) (rat q))) =
      .ok (scale (c * a ^ k * ∏ i ∈ Finset.range k, (q - i)) (pow (sum ts) (rat (q - k)))) := by
  have hl := linear_of_sum h hL
  induction k generalizing c q with
  | zero => simp [diffs]
  | succ k ih =>
    simp only [diffs, diff_scale_root hl hq hc n, bind, Except.bind]
    rw [ih (frac_pred hq) (mul_ne_zero hc (mul_ne_zero (frac_ne_zero hq) hl.ne)), Finset.prod_range_succ', pow_succ]
    congr 2
    · push_cast
      have : ∀ i : ℕ, q - 1 - (i : ℚ) = q - ((i : ℚ) + 1) := fun i => by ring
      simp only [this, sub_zero]
      ring
    · push_cast; congr 2; ring

/-- **C95** `diff` undoes `integrate`, and `integrate` undoes `diff`: both give the expression they started from. -/
theorem root_undo (hO : O.Exact) (h : LinearArg v (sum ts)) (hq : q.den ≠ 1) (hc : c ≠ 0) (n k m : Nat) (ν : Supply) (bf : Bool) :
    (∃ F, integrateTop O (n + 15) ν bf k (scale c (pow (sum ts) (rat q))) (.var v) = .ok (some F) ∧
      diffE O (m + 8) v F = .ok (scale c (pow (sum ts) (rat q)))) ∧
    ∃ d, diffE O (m + 8) v (scale c (pow (sum ts) (rat q))) = .ok d ∧
      integrateTop O (n + 15) ν bf k d (.var v) = .ok (some (scale c (pow (sum ts) (rat q)))) := by
  obtain ⟨a, b, hs⟩ := slope_exists h
  obtain hl : Linear v a b (sum ts) := by cases hs with | lin h => exact h
  have ha := hl.ne
  have h0 := frac_ne_zero hq
  have h1 := frac_ne_zero (frac_succ hq)
  constructor
  · have hd := diff_scale_root (O := O) hl (frac_succ hq) (c := c * (a⁻¹ * (q + 1)⁻¹)) (by simp [hc, ha, h1]) m
    have e : c * (a⁻¹ * (q + 1)⁻¹) * ((q + 1) * a) = c := by field_simp
    rw [e, add_sub_cancel_right] at hd
    exact ⟨_, integrate_root hO hl hq hc n k ν bf true, hd⟩
  · have hi := integrate_root hO hl (frac_pred hq) (c := c * (q * a)) (by simp [hc, ha, h0]) n k ν bf true
    rw [sub_add_cancel] at hi
    have e : c * (q * a) * (a⁻¹ * q⁻¹) = c := by field_simp
    rw [e] at hi
    exact ⟨_, diff_scale_root hl hq hc m, hi⟩

/-- **C95** in the sense of analysis: what `integrate` returns has the integrand as its derivative, wherever `a*x + b` is positive. -/
theorem root_antiderivative (hO : O.Exact) (h : LinearArg v (sum ts)) (hL : ∀ t : ℝ, fnOf ρ v (sum ts) t = a * t + b) (hq : q.den ≠ 1) (hc : c ≠ 0)
    (n k : Nat) (ν : Supply) (bf : Bool) : ∃ F, integrateTop O (n + 15) ν bf k (scale c (pow (sum ts) (rat q))) (.var v) = .ok (some F) ∧
      ∀ t : ℝ, 0 < a * t + b → HasDerivAt (fnOf ρ v F) (c * (a * t + b) ^ (q : ℝ)) t ∧
        fnOf ρ v (scale c (pow (sum ts) (rat q))) t = c * (a * t + b) ^ (q : ℝ) := by
  have hl := linear_of_sum h hL
  refine ⟨_, integral_root hO h hL hq hc n k ν bf, fun t ht => ?_⟩
  have hv : ∀ (r : ℚ) (s : ℝ), 0 < a * s + b → fnOf ρ v (pow (sum ts) (rat r)) s = (a * s + b) ^ (r : ℝ) := by
    intro r s hs
    have e : fnOf ρ v (pow (sum ts) (rat r)) s = pw (fnOf ρ v (sum ts) s) r := rfl
    rw [e, hL s, pw_of_nonneg hs.le]
  constructor
  · rw [fnOf_scale]
    have hlin : HasDerivAt (fun s : ℝ => (a : ℝ) * s + b) a t := by
      simpa using ((hasDerivAt_id t).const_mul (a : ℝ)).add_const (b : ℝ)
    have hd := (hlin.rpow_const (p := ((q + 1 : ℚ) : ℝ)) (.inl ht.ne')).const_mul ((c / (a * (q + 1)) : ℚ) : ℝ)
    have hev : (fun s : ℝ => ((c / (a * (q + 1)) : ℚ) : ℝ) * fnOf ρ v (pow (sum ts) (rat (q + 1))) s) =ᶠ[nhds t]
        fun s => ((c / (a * (q + 1)) : ℚ) : ℝ) * ((a : ℝ) * s + b) ^ ((q + 1 : ℚ) : ℝ) := by
      have : ∀ᶠ s : ℝ in nhds t, 0 < (a : ℝ) * s + b := hlin.continuousAt.eventually (lt_mem_nhds ht)
      filter_upwards [this] with s hs
      rw [hv _ s hs]
    refine (hd.congr_of_eventuallyEq hev).congr_deriv ?_
    have ha : (a : ℝ) ≠ 0 := by exact_mod_cast hl.ne
    have h1 : (q : ℝ) + 1 ≠ 0 := by exact_mod_cast frac_ne_zero (frac_succ hq)
    push_cast
    rw [add_sub_cancel_right]
    field_simp
  · rw [fnOf_scale]; dsimp only; rw [hv q t ht]

/-! ## Cases -/

/-- The integral of `3*sqrt(2*x + 1)` is `(2*x + 1)**(3/2)`. -/
example (hO : O.Exact) (ν : Supply) : integrateTop O 15 ν false 0 (prod [rat 3, pow (sum [prod [rat 2, sym ['x']], rat 1]) (rat (1 / 2))]) (.var ['x']) =
    .ok (some (pow (sum [prod [rat 2, sym ['x']], rat 1]) (rat (3 / 2)))) := by
  have := integral_root (v := ['x']) (ts := [prod [rat 2, sym ['x']], rat 1]) (a := 2) (b := 1) (c := 3) (q := 1 / 2) (ρ := fun _ => 0) hO
    (.both 2 1 (by norm_num) (by norm_num) (by norm_num)) (fun t => by simp [fnOf, den, denS, denP]) (by norm_num) (by norm_num) 0 0 ν false
  have e1 : scale 3 (pow (sum [prod [rat 2, sym ['x']], rat 1]) (rat (1 / 2))) = prod [rat 3, pow (sum [prod [rat 2, sym ['x']], rat 1]) (rat (1 / 2))] := rfl
  rw [e1] at this
  rw [this]
  norm_num [scale]

/-- The second derivative of `sqrt(x + 5)` is `-1/4 * (x + 5)**(-3/2)`. -/
example : diffs O 8 ['x'] 2 (pow (sum [sym ['x'], rat 5]) (rat (1 / 2))) =
    .ok (prod [rat (-1 / 4), pow (sum [sym ['x'], rat 5]) (rat (-3 / 2))]) := by
  have := derivs_root (O := O) (v := ['x']) (ts := [sym ['x'], rat 5]) (a := 1) (b := 5) (c := 1) (q := 1 / 2) (ρ := fun _ => 0)
    (.plus 5 (by norm_num)) (fun t => by simp [fnOf, den, denS]) (by norm_num) (by norm_num) 0 2
  have e1 : scale 1 (pow (sum [sym ['x'], rat 5]) (rat (1 / 2))) = pow (sum [sym ['x'], rat 5]) (rat (1 / 2)) := rfl
  rw [e1] at this
  rw [this]
  norm_num [scale, Finset.prod_range_succ]

/-- `-2 / (7 - 3*x)**(5/2)` meets the hypotheses. -/
example : LinearArg ['x'] (sum [prod [rat (-3), sym ['x']], rat 7]) ∧ (-5 / 2 : ℚ).den ≠ 1 ∧ (-2 : ℚ) ≠ 0 :=
  ⟨.both _ _ (by norm_num) (by norm_num) (by norm_num), by norm_num, by norm_num⟩

end Simpy
