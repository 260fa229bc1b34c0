import Verif.Proofs.ExpDiff
import Verif.Proofs.TrigDiff
import Verif.Props.Improper
import Verif.Props.Elementary
import Verif.Props.Rationals
import Mathlib.Analysis.SpecialFunctions.Integrals.Basic

/-!
# C99: definite integrals of exponential functions, sines, cosines and powers

`integrate(c * e**(a*x+b), (x, A, B))`, `integrate(c * sin(a*x+b), (x, A, B))`, `integrate(c * cos(a*x+b), (x, A, B))` and
`integrate(c * x**m, (x, A, B))` for rational bounds. `LinearArg v L`: `L` is written as `a*x + b`
(Spec/Combination); `hL` says what `a` and `b` are. `powTerm v c m` is `c * x**m` as the constructors write it (Spec/Elementary).
-/

namespace Simpy
open Expr Lin MeasureTheory

variable {O : Oracle} {v : Str} {L : Expr} {a b c : ℚ}

/-- **C99** exponential functions: an expression is returned, and its value is that of the integral. -/
theorem bounded_exp (hO : O.Exact) (n k : Nat) (ν : Supply) (bf : Bool) (h : LinearArg v L) (hc : c ≠ 0) (A B : ℚ) {ρ : Str → ℝ}
    (hL : ∀ t : ℝ, fnOf ρ v L t = a * t + b) :
    ∃ r, integrateTop O (n + 15) ν bf k (scale c (pow euler L)) (.full v (rat A) (rat B)) = .ok (some r) ∧ Dom ρ r ∧
      den ρ r = ∫ t in (A : ℝ)..B, fnOf ρ v (scale c (pow euler L)) t := by
  have hs := slope_of h hL
  have hk : c * a⁻¹ ≠ 0 := mul_ne_zero hc (inv_ne_zero hs.ne)
  have ha : (a : ℝ) ≠ 0 := by exact_mod_cast hs.ne
  obtain ⟨d, hd, hq, hv⟩ := eMul_diff hO (c * a⁻¹) (a * B + b) (c * a⁻¹) (a * A + b) (n + 7)
  refine ⟨d, ?_, (hv ρ).1, ?_⟩
  · simp only [integrateTop, integrateBounds, integrate_exp hO hs hc n k ν bf, boundsValue, subs_exp hO hs hk A (n + 8),
      subs_exp hO hs hk B (n + 8), hd, hq, bind, Except.bind, pure, Except.pure]
  · rw [(hv ρ).2, fn_scale hc hL, intervalIntegral.integral_const_mul]
    have : ∫ t in (A : ℝ)..B, Real.exp (a * t) = (a : ℝ)⁻¹ * (Real.exp (a * B) - Real.exp (a * A)) := by
      rw [intervalIntegral.integral_comp_mul_left _ ha, _root_.integral_exp]; rfl
    rw [this]
    push_cast
    rw [Real.exp_add, Real.exp_add]
    ring

namespace Lin

theorem fn_power {m : ℤ} (hc : c ≠ 0) (ρ : Str → ℝ) (t : ℝ) : fnOf ρ v (powTerm v c m) t = c * t ^ m := by
  unfold powTerm scale varPow fnOf
  split_ifs <;> simp_all [den, denP, pw_int]

theorem fn_trig {f : TrigFn} {ρ : Str → ℝ} (hL : ∀ t : ℝ, fnOf ρ v L t = a * t + b) (t : ℝ) : fnOf ρ v (scale c (trig f L)) t = c * f.real (a * t + b) := by
  have := hL t
  unfold fnOf at this ⊢
  rw [den_scale, den, this]

/-- The answer is the difference of the antiderivative at the bounds. -/
theorem bounded_run (hO : O.Exact) {f g : TrigFn} {k l : ℚ} (hg : g = .sin ∨ g = .cos) (h : Slope v a b L) (hl : l ≠ 0) (n j : Nat) (ν : Supply) (bf : Bool)
    (hF : Node.integrate O (n + 15) ν bf j false v (scale k (trig f L)) = .ok (some (scale l (trig g L)))) (A B : ℚ) :
    ∃ r, integrateTop O (n + 15) ν bf j (scale k (trig f L)) (.full v (rat A) (rat B)) = .ok (some r) ∧
      ∀ ρ, Dom ρ r ∧ den ρ r = l * (g.real (a * B + b) - g.real (a * A + b)) := by
  obtain ⟨x, hx, tx, vx⟩ := subs_trig (O := O) hg h hl B (n + 8)
  obtain ⟨y, hy, ty, vy⟩ := subs_trig (O := O) hg h hl A (n + 8)
  obtain ⟨d, r, hd, hr, hv⟩ := TV.diff hO tx ty (n + 3)
  refine ⟨r, ?_, fun ρ => ⟨(hv ρ).1, by rw [(hv ρ).2, vx, vy]; ring⟩⟩
  simp only [integrateTop, integrateBounds, hF, boundsValue, hx, hy, hd, hr, bind, Except.bind, pure, Except.pure]

end Lin

/-- **C99** sines. -/
theorem bounded_sin (hO : O.Exact) (n k : Nat) (ν : Supply) (bf : Bool) (h : LinearArg v L) (hn : L.isSubtraction = false) (hc : c ≠ 0) (A B : ℚ)
    {ρ : Str → ℝ} (hL : ∀ t : ℝ, fnOf ρ v L t = a * t + b) :
    ∃ r, integrateTop O (n + 15) ν bf k (scale c (trig .sin L)) (.full v (rat A) (rat B)) = .ok (some r) ∧ Dom ρ r ∧
      den ρ r = ∫ t in (A : ℝ)..B, fnOf ρ v (scale c (trig .sin L)) t := by
  have hs := slope_of h hL
  have hk : c * (a⁻¹ * -1) ≠ 0 := mul_ne_zero hc (mul_ne_zero (inv_ne_zero hs.ne) (by norm_num))
  have ha : (a : ℝ) ≠ 0 := by exact_mod_cast hs.ne
  obtain ⟨r, h1, h2⟩ := bounded_run hO (.inr rfl) hs hk n k ν bf (integrate_outer hO .sin hs ⟨h, .sin h hn, .cos h hn⟩ hc n k ν bf false) A B
  refine ⟨r, h1, (h2 ρ).1, ?_⟩
  rw [(h2 ρ).2]
  simp only [fn_trig hL, TrigFn.real]
  rw [intervalIntegral.integral_const_mul, intervalIntegral.integral_comp_mul_add (fun t => Real.sin t) ha, _root_.integral_sin]
  push_cast
  simp only [smul_eq_mul]
  ring

/-- **C99** cosines. -/
theorem bounded_cos (hO : O.Exact) (n k : Nat) (ν : Supply) (bf : Bool) (h : LinearArg v L) (hn : L.isSubtraction = false) (hc : c ≠ 0) (A B : ℚ)
    {ρ : Str → ℝ} (hL : ∀ t : ℝ, fnOf ρ v L t = a * t + b) :
    ∃ r, integrateTop O (n + 15) ν bf k (scale c (trig .cos L)) (.full v (rat A) (rat B)) = .ok (some r) ∧ Dom ρ r ∧
      den ρ r = ∫ t in (A : ℝ)..B, fnOf ρ v (scale c (trig .cos L)) t := by
  have hs := slope_of h hL
  have hk : c * (a⁻¹ * 1) ≠ 0 := mul_ne_zero hc (mul_ne_zero (inv_ne_zero hs.ne) (by norm_num))
  have ha : (a : ℝ) ≠ 0 := by exact_mod_cast hs.ne
  obtain ⟨r, h1, h2⟩ := bounded_run hO (.inl rfl) hs hk n k ν bf (integrate_outer hO .cos hs ⟨h, .cos h hn, .sin h hn⟩ hc n k ν bf false) A B
  refine ⟨r, h1, (h2 ρ).1, ?_⟩
  rw [(h2 ρ).2]
  simp only [fn_trig hL, TrigFn.real]
  rw [intervalIntegral.integral_const_mul, intervalIntegral.integral_comp_mul_add (fun t => Real.cos t) ha, _root_.integral_cos]
  push_cast
  simp only [smul_eq_mul]
  ring

/-- **C99** `c/x`: the answer is written with logarithms of numbers. -/
theorem bounded_inverse (hO : O.Exact) (n k : Nat) (ν : Supply) (bf : Bool) (hc : c ≠ 0) {A B : ℚ} (hA : A ≠ 0) (hB : B ≠ 0) :
    ∃ r, integrateTop O (n + 15) ν bf k (powTerm v c (-1)) (.full v (rat A) (rat B)) = .ok (some r) ∧
      ∀ ρ, Dom ρ r ∧ den ρ r = c * (Real.log |(B : ℝ)| - Real.log |(A : ℝ)|) := by
  have e : powTerm v c (-1) = scale c (pow (sym v) (rat (-1))) := by
    unfold powTerm Lin.varPow; rw [if_neg hc]; norm_num
  obtain ⟨x, hx, tx, vx⟩ := subs_ln (v := v) hO hc hB (n + 8)
  obtain ⟨y, hy, ty, vy⟩ := subs_ln (v := v) hO hc hA (n + 8)
  obtain ⟨d, r, hd, hr, hv⟩ := TV.diff hO tx ty (n + 3)
  refine ⟨r, ?_, fun ρ => ⟨(hv ρ).1, by rw [(hv ρ).2, vx, vy, Real.log_abs, Real.log_abs]; ring⟩⟩
  rw [e]
  simp only [integrateTop, integrateBounds, integrate_inverse (O := O) (v := v) hc n k ν bf false, boundsValue, hx, hy, hd, hr, bind, Except.bind, pure, Except.pure]

/-- **C99** if 0 is not between the bounds, its value is that of the integral. -/
theorem bounded_inverse_value (hO : O.Exact) (n k : Nat) (ν : Supply) (bf : Bool) (hc : c ≠ 0) {A B : ℚ} (h0 : (0 : ℝ) ∉ Set.uIcc (A : ℝ) B) (ρ : Str → ℝ) :
    ∃ r, integrateTop O (n + 15) ν bf k (powTerm v c (-1)) (.full v (rat A) (rat B)) = .ok (some r) ∧ Dom ρ r ∧
      den ρ r = ∫ t in (A : ℝ)..B, fnOf ρ v (powTerm v c (-1)) t := by
  have hz : ∀ {q : ℚ}, (q : ℝ) ∈ Set.uIcc (A : ℝ) B → q ≠ 0 := fun {q} hq e => h0 (by rw [e] at hq; simpa using hq)
  have hA := hz Set.left_mem_uIcc
  have hB := hz Set.right_mem_uIcc
  obtain ⟨r, h1, h2⟩ := bounded_inverse (v := v) hO n k ν bf hc hA hB
  refine ⟨r, h1, (h2 ρ).1, ?_⟩
  have hf : fnOf ρ v (powTerm v c (-1)) = fun t => (c : ℝ) * t⁻¹ := funext fun t => by
    have := fn_power (v := v) (m := -1) hc ρ t
    rw [zpow_neg_one] at this
    exact_mod_cast this
  have hA' : (A : ℝ) ≠ 0 := by exact_mod_cast hA
  have hB' : (B : ℝ) ≠ 0 := by exact_mod_cast hB
  rw [(h2 ρ).2, hf, intervalIntegral.integral_const_mul, integral_inv h0, Real.log_div hB' hA', Real.log_abs, Real.log_abs]

namespace Lin

theorem subs_power {k : ℚ} (hk : k ≠ 0) {m : ℤ} (hm : m ≠ 0) {A : ℚ} (hA : A ≠ 0 ∨ 0 ≤ m) (n : Nat) :
    subsE O (n + 4) (single v (rat A)) (scale k (varPow v m)) = .ok (rat (k * A ^ m)) := by
  have hs : ∀ j, subsE O (j + 1) (single v (rat A)) (sym v) = .ok (rat A) := fun j => by simp [subsE, single]
  have hr : ∀ j q, subsE O (j + 1) (single v (rat A)) (rat q) = .ok (rat q) := fun j q => by simp [subsE]
  have hp : ∀ j, subsE O (j + 2) (single v (rat A)) (varPow v m) = .ok (rat (A ^ m)) := fun j => by
    unfold varPow
    split_ifs with h1
    · have : m = 1 := by exact_mod_cast h1
      rw [this, zpow_one]; exact hs (j + 1)
    · rw [subsE]
      simp only [hs, hr, bind, Except.bind]
      exact rational_power_exact O j A m hA
  unfold scale
  rw [if_neg hk]
  split_ifs with h1
  · rw [h1, one_mul]; exact hp (n + 2)
  · rw [subsE]
    simp only [mapR, hp (n + 1), hr, bind, Except.bind, pure, Except.pure]
    exact prod_rats (squares_ctors (n + 1)) _ _

end Lin

/-- **C99** whole powers of the variable: the exact number `c/(m+1) * (B**(m+1) - A**(m+1))` is returned. -/
theorem bounded_power {m : ℤ} (hm : m ≠ -1) (hc : c ≠ 0) {A B : ℚ} (hA : A ≠ 0 ∨ 0 ≤ m) (hB : B ≠ 0 ∨ 0 ≤ m) (n k : Nat) (ν : Supply) (bf : Bool) :
    integrateTop O (n + 15) ν bf k (powTerm v c m) (.full v (rat A) (rat B)) = .ok (some (rat (c / (m + 1) * (B ^ (m + 1) - A ^ (m + 1))))) := by
  have hm1 : ((m : ℚ) + 1) ≠ 0 := by
    have : m + 1 ≠ 0 := by omega
    exact_mod_cast this
  have hk : c / ((m : ℚ) + 1) ≠ 0 := div_ne_zero hc hm1
  have hF := integrate_power (O := O) (v := v) (q := m) (by exact_mod_cast hm) hc n k ν bf false
  have e : powTerm v (c / ((m : ℚ) + 1)) ((m : ℚ) + 1) = scale (c / ((m : ℚ) + 1)) (varPow v ((m + 1 : ℤ) : ℚ)) := by
    unfold powTerm; rw [if_neg hk, if_neg hm1]; push_cast; rfl
  rw [← div_eq_mul_inv] at hF
  rw [e] at hF
  have hs : ∀ {q : ℚ}, q ≠ 0 ∨ 0 ≤ m → subsE O (n + 15) (single v (rat q)) (scale (c / ((m : ℚ) + 1)) (varPow v ((m + 1 : ℤ) : ℚ))) =
      .ok (rat (c / (m + 1) * q ^ (m + 1))) := fun hq => subs_power hk (by omega) (hq.imp id fun h => by omega) (n + 11)
  have hq : ∀ q, simplifyE O (n + 15) (rat q) = .ok (rat q) := fun q => simplify_quiet rfl rfl rfl
  simp only [integrateTop, integrateBounds, hF, boundsValue, hs hA, hs hB, opSub, hq, bind, Except.bind, pure, Except.pure]
  rw [mul_sub]

/-- **C99** if the interval does not meet a pole, that is the value of the integral. -/
theorem bounded_power_value {m : ℤ} (hm : m ≠ -1) (hc : c ≠ 0) {A B : ℚ} (hp : 0 ≤ m ∨ (0 : ℝ) ∉ Set.uIcc (A : ℝ) B) (n k : Nat) (ν : Supply) (bf : Bool)
    (ρ : Str → ℝ) : ∃ r, integrateTop O (n + 15) ν bf k (powTerm v c m) (.full v (rat A) (rat B)) = .ok (some (rat r)) ∧
      (r : ℝ) = ∫ t in (A : ℝ)..B, fnOf ρ v (powTerm v c m) t := by
  have hz : ∀ {q : ℚ}, (q : ℝ) ∈ Set.uIcc (A : ℝ) B → q ≠ 0 ∨ 0 ≤ m := fun {q} hq => by
    rcases hp with h | h
    · exact .inr h
    · refine .inl fun e => h ?_
      rw [e] at hq; simpa using hq
  refine ⟨_, bounded_power hm hc (hz Set.left_mem_uIcc) (hz Set.right_mem_uIcc) n k ν bf, ?_⟩
  have hf : fnOf ρ v (powTerm v c m) = fun t => (c : ℝ) * t ^ m := funext fun t => fn_power hc ρ t
  rw [hf, intervalIntegral.integral_const_mul, integral_zpow (hp.imp id fun h => ⟨hm, h⟩)]
  push_cast
  ring

/-! ## Cases -/

/-- The integral of `3 * e**(1 - 2*x)` from 0 to 1 is `-3/(2*e) + 3*e/2`. -/
example (ν : Supply) : integrateTop exactOracle 20 ν false 3 (prod [rat 3, pow euler (sum [prod [rat (-2), sym ['x']], rat 1])])
      (.full ['x'] (rat 0) (rat 1)) =
    .ok (some (sum [prod [rat (-3 / 2), pow euler (rat (-1))], prod [rat (3 / 2), euler]])) := by
  have h : LinearArg ['x'] (sum [prod [rat (-2), sym ['x']], rat 1]) := .both _ _ (by norm_num) (by norm_num) (by norm_num)
  have hL : ∀ t : ℝ, fnOf (fun _ => 0) ['x'] (sum [prod [rat (-2), sym ['x']], rat 1]) t = ((-2 : ℚ) : ℝ) * t + ((1 : ℚ) : ℝ) := by
    intro t; simp [fnOf, den, denS, denP]
  have hs := slope_of h hL
  have := integrate_exp exactOracle_exact hs (c := 3) (by norm_num) 5 3 ν false
  have e : scale 3 (pow euler (sum [prod [rat (-2), sym ['x']], rat 1])) = prod [rat 3, pow euler (sum [prod [rat (-2), sym ['x']], rat 1])] := rfl
  rw [e] at this
  simp only [integrateTop, integrateBounds, this, bind, Except.bind]
  decide +kernel

/-- The hypotheses for it. -/
example : ∃ r, integrateTop exactOracle 20 (fun _ => ['u']) false 3 (scale 3 (pow euler (sum [prod [rat (-2), sym ['x']], rat 1])))
      (.full ['x'] (rat 0) (rat 1)) = .ok (some r) ∧
    den (fun _ => 0) r = ∫ t in ((0 : ℚ) : ℝ)..((1 : ℚ) : ℝ), fnOf (fun _ => 0) ['x'] (scale 3 (pow euler (sum [prod [rat (-2), sym ['x']], rat 1]))) t := by
  obtain ⟨r, h1, -, h2⟩ := bounded_exp (a := -2) (b := 1) (c := 3) (ρ := fun _ => 0) exactOracle_exact 5 3 (fun _ => ['u']) false
    (.both (v := ['x']) (-2) 1 (by norm_num) (by norm_num) (by norm_num)) (by norm_num) 0 1 (fun t => by simp [fnOf, den, denS, denP])
  exact ⟨r, h1, h2⟩

/-- The integral of `2 * x**(-3)` from -2 to -1 is `-3/4`. -/
example (ν : Supply) : integrateTop exactOracle 20 ν true 3 (prod [rat 2, pow (sym ['x']) (rat (-3))]) (.full ['x'] (rat (-2)) (rat (-1))) =
      .ok (some (rat (-3 / 4))) ∧
    (((-3 / 4 : ℚ)) : ℝ) = ∫ t in ((-2 : ℚ) : ℝ)..((-1 : ℚ) : ℝ), fnOf (fun _ => 0) ['x'] (powTerm ['x'] 2 (-3 : ℤ)) t := by
  have e : powTerm ['x'] 2 ((-3 : ℤ) : ℚ) = prod [rat 2, pow (sym ['x']) (rat (-3))] := by norm_num [powTerm, scale, Lin.varPow]
  obtain ⟨r, h1, h2⟩ := bounded_power_value (O := exactOracle) (v := ['x']) (m := -3) (c := 2) (A := -2) (B := -1) (by norm_num) (by norm_num)
    (.inr (by rw [Set.uIcc_of_le (by norm_num)]; norm_num)) 5 3 ν true (fun _ => 0)
  have h3 := bounded_power (O := exactOracle) (v := ['x']) (m := -3) (c := 2) (A := -2) (B := -1) (by norm_num) (by norm_num) (.inl (by norm_num))
    (.inl (by norm_num)) 5 3 ν true
  have h4 := h1.symm.trans h3
  simp only [Except.ok.injEq, Option.some.injEq, rat.injEq] at h4
  have h5 : r = -3 / 4 := by rw [h4]; norm_num
  subst h5
  rw [e] at h1
  exact ⟨h1, h2⟩

/-- The integral of `3 * sin(2*x + 1)` from -1 to 1 is `3*cos(1)/2 - 3*cos(3)/2`. -/
example (ν : Supply) : ∃ r, integrateTop exactOracle 20 ν false 3 (prod [rat 3, trig .sin (sum [prod [rat 2, sym ['x']], rat 1])])
      (.full ['x'] (rat (-1)) (rat 1)) = .ok (some r) ∧ r = sum [prod [rat (3 / 2), trig .cos (rat 1)], prod [rat (-3 / 2), trig .cos (rat 3)]] ∧
    den (fun _ => 0) r = ∫ t in ((-1 : ℚ) : ℝ)..((1 : ℚ) : ℝ), 3 * Real.sin (2 * t + 1) := by
  have h : LinearArg ['x'] (sum [prod [rat 2, sym ['x']], rat 1]) := .both _ _ (by norm_num) (by norm_num) (by norm_num)
  have hL : ∀ t : ℝ, fnOf (fun _ => 0) ['x'] (sum [prod [rat 2, sym ['x']], rat 1]) t = ((2 : ℚ) : ℝ) * t + ((1 : ℚ) : ℝ) := by
    intro t; simp [fnOf, den, denS, denP]
  obtain ⟨r, h1, -, h2⟩ := bounded_sin (a := 2) (b := 1) (c := 3) exactOracle_exact 5 3 ν false h (by decide +kernel) (by norm_num) (-1) 1 hL
  have e : scale 3 (trig .sin (sum [prod [rat 2, sym ['x']], rat 1])) = prod [rat 3, trig .sin (sum [prod [rat 2, sym ['x']], rat 1])] := rfl
  have hF := integrate_outer exactOracle_exact .sin (slope_of h hL) ⟨h, .sin h (by decide +kernel), .cos h (by decide +kernel)⟩ (c := 3) (by norm_num) 5 3 ν false false
  rw [e] at hF h1 h2
  have h3 : integrateTop exactOracle 20 ν false 3 (prod [rat 3, trig .sin (sum [prod [rat 2, sym ['x']], rat 1])]) (.full ['x'] (rat (-1)) (rat 1)) =
      .ok (some (sum [prod [rat (3 / 2), trig .cos (rat 1)], prod [rat (-3 / 2), trig .cos (rat 3)]])) := by
    simp only [integrateTop, integrateBounds, hF, bind, Except.bind]
    set_option maxRecDepth 10000 in decide +kernel
  refine ⟨r, h1, ?_, ?_⟩
  · have := h1.symm.trans h3
    simpa using this
  · rw [h2]
    have : ∀ t : ℝ, fnOf (fun _ => 0) ['x'] (prod [rat 3, trig .sin (sum [prod [rat 2, sym ['x']], rat 1])]) t = 3 * Real.sin (2 * t + 1) := fun t => by
      simp [fnOf, den, denS, denP, TrigFn.real]
    simp only [this]

/-- The integral of `3/x` from 2 to 5 is `3*log(5) - 3*log(2)`. -/
example (ν : Supply) : integrateTop exactOracle 20 ν true 3 (prod [rat 3, pow (sym ['x']) (rat (-1))]) (.full ['x'] (rat 2) (rat 5)) =
      .ok (some (sum [prod [rat 3, log (rat 5) euler], prod [rat (-3), log (rat 2) euler]])) ∧
    den (fun _ => 0) (sum [prod [rat 3, log (rat 5) euler], prod [rat (-3), log (rat 2) euler]]) =
      ∫ t in ((2 : ℚ) : ℝ)..((5 : ℚ) : ℝ), fnOf (fun _ => 0) ['x'] (powTerm ['x'] 3 (-1)) t := by
  have e : powTerm ['x'] 3 (-1) = prod [rat 3, pow (sym ['x']) (rat (-1))] := by norm_num [powTerm, scale, Lin.varPow]
  have hF := integrate_inverse (O := exactOracle) (v := ['x']) (c := 3) (by norm_num) 5 3 ν true false
  have e3 : scale 3 (pow (sym ['x']) (rat (-1))) = prod [rat 3, pow (sym ['x']) (rat (-1))] := rfl
  rw [e3] at hF
  have h1 : integrateTop exactOracle 20 ν true 3 (prod [rat 3, pow (sym ['x']) (rat (-1))]) (.full ['x'] (rat 2) (rat 5)) =
      .ok (some (sum [prod [rat 3, log (rat 5) euler], prod [rat (-3), log (rat 2) euler]])) := by
    simp only [integrateTop, integrateBounds, hF, bind, Except.bind]
    set_option maxRecDepth 10000 in decide +kernel
  refine ⟨h1, ?_⟩
  obtain ⟨r, h2, -, h3⟩ := bounded_inverse_value (O := exactOracle) (v := ['x']) (c := 3) (A := 2) (B := 5) exactOracle_exact 5 3 ν true (by norm_num)
    (by rw [Set.uIcc_of_le (by norm_num)]; norm_num) (fun _ => 0)
  rw [e] at h2
  have := h2.symm.trans h1
  simp only [Except.ok.injEq, Option.some.injEq] at this
  rw [← this, h3]

/-- Over a pole an answer is returned as well: `1/x` from -1 to 1 gives 0, but it is not integrable. -/
theorem bounded_pole (ν : Supply) : integrateTop exactOracle 20 ν true 3 (pow (sym ['x']) (rat (-1))) (.full ['x'] (rat (-1)) (rat 1)) = .ok (some (rat 0)) ∧
    ¬ IntervalIntegrable (fnOf (fun _ => 0) ['x'] (pow (sym ['x']) (rat (-1)))) volume (-1) 1 := by
  constructor
  · have hF := integrate_inverse (O := exactOracle) (v := ['x']) (c := 1) (by norm_num) 5 3 ν true false
    have e : scale 1 (pow (sym ['x']) (rat (-1))) = pow (sym ['x']) (rat (-1)) := rfl
    rw [e] at hF
    simp only [integrateTop, integrateBounds, hF, bind, Except.bind]
    set_option maxRecDepth 10000 in decide +kernel
  · have hf : fnOf (fun _ => 0) ['x'] (pow (sym ['x']) (rat (-1))) = fun t => t⁻¹ := funext fun t => by
      have := fn_power (v := ['x']) (m := -1) (c := 1) (by norm_num) (fun _ => 0) t
      have e : powTerm ['x'] 1 ((-1 : ℤ) : ℚ) = pow (sym ['x']) (rat (-1)) := by norm_num [powTerm, scale, Lin.varPow]
      rw [e] at this
      rw [this, zpow_neg_one]; simp
    rw [hf, intervalIntegrable_inv_iff]
    rw [Set.uIcc_of_le (by norm_num)]
    norm_num

end Simpy
