import Verif.Proofs.ImproperSub
import Mathlib.Analysis.SpecialFunctions.ImproperIntegrals

/-!
# C92: improper integrals of exponential functions

`integrate(c * e**(a*x+b), (x, A, inf))` for `a < 0` and `integrate(c * e**(a*x+b), (x, -inf, B))` for `a > 0`. `LinearArg v L`: `L` is written
as `a*x + b` (Spec/Combination); `hL` says what `a` and `b` are.
-/

namespace Simpy
open Expr Lin MeasureTheory

variable {O : Oracle} {v : Str} {L : Expr} {a b c : ℚ}

namespace Lin

/-- Slope and intercept are determined by the function. -/
theorem slope_of (h : LinearArg v L) {ρ : Str → ℝ} (hL : ∀ t : ℝ, fnOf ρ v L t = a * t + b) : Slope v a b L := by
  have key : ∀ {p q : ℚ}, Slope v p q L → (∀ t : ℝ, fnOf ρ v L t = p * t + q) → Slope v a b L := by
    intro p q hs hp
    have h0 : (b : ℝ) = q := by have := (hL 0).symm.trans (hp 0); simpa using this
    have h1 : (a : ℝ) = p := by have := (hL 1).symm.trans (hp 1); rw [h0] at this; simpa using this
    rw [show a = p by exact_mod_cast h1, show b = q by exact_mod_cast h0]
    exact hs
  rcases Linear.of h with rfl | ⟨p, q, hl⟩
  · exact key .var fun t => by simp [fnOf, den]
  · exact key (.lin hl) fun t => hl.fn ρ t

theorem fn_scale (hc : c ≠ 0) {ρ : Str → ℝ} (hL : ∀ t : ℝ, fnOf ρ v L t = a * t + b) :
    fnOf ρ v (scale c (pow euler L)) = fun t => (c * Real.exp b) * Real.exp (a * t) := by
  funext t
  have e : fnOf ρ v (pow euler L) t = Real.exp (a * t + b) := by rw [← hL t]; exact den_exp _ _
  have : fnOf ρ v (scale c (pow euler L)) t = c * fnOf ρ v (pow euler L) t := by
    unfold scale fnOf
    split_ifs with h0 h1
    · exact absurd h0 hc
    · simp [h1]
    · simp [den, denP]
  rw [this, e, Real.exp_add]
  ring

end Lin

/-- **C92** the integral from `A` to infinity. -/
theorem improper_exp_above (hO : O.Exact) (hI : O.Ieee) (n k : Nat) (ν : Supply) (bf : Bool) (h : LinearArg v L) (ra : FloatRange a)
    (rb : FloatRange b) (hc : c ≠ 0) (ha : a < 0) (A : ℚ) {ρ : Str → ℝ} (hL : ∀ t : ℝ, fnOf ρ v L t = a * t + b) :
    ∃ r, integrateTop O (n + 15) ν bf k (scale c (pow euler L)) (.full v (rat A) inf) = .ok (some r) ∧ Dom ρ r ∧
      IntegrableOn (fnOf ρ v (scale c (pow euler L))) (Set.Ioi (A : ℝ)) ∧
      den ρ r = ∫ t in Set.Ioi (A : ℝ), fnOf ρ v (scale c (pow euler L)) t := by
  have hs := slope_of h hL
  have hk : c * a⁻¹ ≠ 0 := mul_ne_zero hc (inv_ne_zero hs.ne)
  have ha' : (a : ℝ) < 0 := by exact_mod_cast ha
  refine ⟨eMul (-(c * a⁻¹)) (a * A + b), ?_, (den_eMul ρ _ _).1, ?_, ?_⟩
  · simp only [integrateTop, integrateBounds, integrate_exp hO hs hc n k ν bf, boundsValue, subs_exp hO hs hk A (n + 8),
      subs_exp_inf hI hs ra rb (.inl ⟨rfl, ha⟩) hk (n + 8), sub_eMul hO hk _ (n + 13), eMul_simplify _ _ (n + 12), bind, Except.bind, pure, Except.pure]
  · rw [fn_scale hc hL]
    exact (integrableOn_exp_mul_Ioi ha' _).const_mul _
  · rw [(den_eMul ρ _ _).2, fn_scale hc hL, integral_const_mul, integral_exp_mul_Ioi ha']
    push_cast
    rw [Real.exp_add]
    field_simp

/-- **C92** the integral from minus infinity to `B`. -/
theorem improper_exp_below (hO : O.Exact) (hI : O.Ieee) (n k : Nat) (ν : Supply) (bf : Bool) (h : LinearArg v L) (ra : FloatRange a)
    (rb : FloatRange b) (hc : c ≠ 0) (ha : 0 < a) (B : ℚ) {ρ : Str → ℝ} (hL : ∀ t : ℝ, fnOf ρ v L t = a * t + b) :
    ∃ r, integrateTop O (n + 15) ν bf k (scale c (pow euler L)) (.full v neginf (rat B)) = .ok (some r) ∧ Dom ρ r ∧
      IntegrableOn (fnOf ρ v (scale c (pow euler L))) (Set.Iic (B : ℝ)) ∧
      den ρ r = ∫ t in Set.Iic (B : ℝ), fnOf ρ v (scale c (pow euler L)) t := by
  have hs := slope_of h hL
  have hk : c * a⁻¹ ≠ 0 := mul_ne_zero hc (inv_ne_zero hs.ne)
  have ha' : 0 < (a : ℝ) := by exact_mod_cast ha
  refine ⟨eMul (c * a⁻¹) (a * B + b), ?_, (den_eMul ρ _ _).1, ?_, ?_⟩
  · simp only [integrateTop, integrateBounds, integrate_exp hO hs hc n k ν bf, boundsValue, subs_exp hO hs hk B (n + 8),
      subs_exp_inf hI hs ra rb (.inr ⟨rfl, ha⟩) hk (n + 8), eMul_sub hk _ (n + 13), eMul_simplify _ _ (n + 12), bind, Except.bind, pure, Except.pure]
  · rw [fn_scale hc hL]
    exact (integrableOn_exp_mul_Iic ha' _).const_mul _
  · rw [(den_eMul ρ _ _).2, fn_scale hc hL, integral_const_mul, integral_exp_mul_Iic ha']
    push_cast
    rw [Real.exp_add]
    field_simp

/-! ## Cases -/

/-- The integral of `3 * e**(1 - 2*x)` from 0 to infinity is `3/2 * e`. -/
example (ν : Supply) : integrateTop ieeeOracle 20 ν false 3 (prod [rat 3, pow euler (sum [prod [rat (-2), sym ['x']], rat 1])]) (.full ['x'] (rat 0) inf) =
    .ok (some (prod [rat (3 / 2), euler])) := by
  have h : LinearArg ['x'] (sum [prod [rat (-2), sym ['x']], rat 1]) := .both _ _ (by norm_num) (by norm_num) (by norm_num)
  have hL : ∀ t : ℝ, fnOf (fun _ => 0) ['x'] (sum [prod [rat (-2), sym ['x']], rat 1]) t = ((-2 : ℚ) : ℝ) * t + ((1 : ℚ) : ℝ) := by
    intro t; simp [fnOf, den, denS, denP]
  have hs := slope_of h hL
  have hk : (3 : ℚ) * (-2)⁻¹ ≠ 0 := by norm_num
  have := integrate_exp ieeeOracle_exact hs (c := 3) (by norm_num) 5 3 ν false
  have e : scale 3 (pow euler (sum [prod [rat (-2), sym ['x']], rat 1])) = prod [rat 3, pow euler (sum [prod [rat (-2), sym ['x']], rat 1])] := rfl
  rw [e] at this
  simp only [integrateTop, integrateBounds, this, bind, Except.bind]
  decide +kernel

/-- The hypotheses for it. -/
example : ∃ r, integrateTop ieeeOracle 20 (fun _ => ['u']) false 3 (scale 3 (pow euler (sum [prod [rat (-2), sym ['x']], rat 1])))
      (.full ['x'] (rat 0) inf) = .ok (some r) ∧
    den (fun _ => 0) r = ∫ t in Set.Ioi ((0 : ℚ) : ℝ), fnOf (fun _ => 0) ['x'] (scale 3 (pow euler (sum [prod [rat (-2), sym ['x']], rat 1]))) t := by
  obtain ⟨r, h1, -, -, h2⟩ := improper_exp_above (a := -2) (b := 1) (c := 3) (ρ := fun _ => 0) ieeeOracle_exact ieeeOracle_ieee 5 3 (fun _ => ['u']) false
    (.both (v := ['x']) (-2) 1 (by norm_num) (by norm_num) (by norm_num)) (Inf.range_neg Inf.range2) Inf.range1 (by norm_num) (by norm_num) 0
    (fun t => by simp [fnOf, den, denS, denP])
  exact ⟨r, h1, h2⟩

/-- The integral of `e**x` up to 0 is 1. -/
example : ∃ r, integrateTop ieeeOracle 20 (fun _ => ['u']) false 3 (scale 1 (pow euler (sym ['x']))) (.full ['x'] neginf (rat 0)) = .ok (some r) ∧
    den (fun _ => 0) r = ∫ t in Set.Iic ((0 : ℚ) : ℝ), fnOf (fun _ => 0) ['x'] (scale 1 (pow euler (sym ['x']))) t := by
  obtain ⟨r, h1, -, -, h2⟩ := improper_exp_below (a := 1) (b := 0) (c := 1) (ρ := fun _ => 0) ieeeOracle_exact ieeeOracle_ieee 5 3 (fun _ => ['u']) false
    (.var (v := ['x'])) Inf.range1 Inf.range0 (by norm_num) (by norm_num) 0 (fun t => by simp [fnOf, den])
  exact ⟨r, h1, h2⟩

/-- **C92** A divergent integral: that of `e**x` from 1 to infinity is the sum of `inf` and `-e`, which is not simplified to `inf`. -/
theorem divergent_is_not_inf : integrateTop ieeeOracle 20 (fun _ => ['u']) false 3 (pow euler (sym ['x'])) (.full ['x'] (rat 1) inf) =
    .ok (some (sum [prod [rat (-1), euler], inf])) := by
  set_option maxRecDepth 10000 in decide +kernel

end Simpy
