import Verif.Proofs.DiffSound
import Verif.Proofs.ExactOracle
import Verif.Proofs.Built
import Verif.Proofs.Check
import Verif.Spec.Diff
import Mathlib.Analysis.Calculus.Deriv.Abs

/-!
# C14, C15: `diff`

`diffE O n v e` is `e.diff(v)` with `n` stack levels left.
-/

namespace Simpy
open Expr

variable {O : Oracle}

theorem SmoothL_iff {v : Str} : ∀ {ts : List Expr}, SmoothL v ts = true ↔ ∀ t ∈ ts, Smooth v t = true
  | [] => by simp [SmoothL]
  | t :: r => by simp [SmoothL, SmoothL_iff (ts := r)]

theorem Smooth.diffOk {ρ : Str → ℝ} {v : Str} : ∀ (n : Nat) {e : Expr}, Smooth v e = true → DiffOk O ρ v n e
  | 0, _, _ => trivial
  | n + 1, e, h => by
    cases e with
    | sum ts => exact fun t ht => Smooth.diffOk n (SmoothL_iff.1 h t ht)
    | prod ts => exact fun t ht => Smooth.diffOk n (SmoothL_iff.1 h t ht)
    | pow b x =>
      simp only [Smooth, Bool.and_eq_true] at h
      exact ⟨Smooth.diffOk n h.1, Smooth.diffOk n h.2⟩
    | log i b =>
      simp only [Smooth, Bool.and_eq_true, Bool.or_eq_true, beq_iff_eq, Bool.not_eq_true'] at h
      refine ⟨Smooth.diffOk n h.1, h.2.imp_right fun k => ?_⟩
      simp only [← contains_iff, k]; simp
    | absv i =>
      simp only [Smooth, Bool.and_eq_true, Bool.not_eq_true'] at h
      refine ⟨Smooth.diffOk n h.1, .inl ?_⟩
      simp only [← contains_iff, h.2]; simp
    | trig f i =>
      cases f <;> simp only [Smooth, Bool.and_eq_true, Bool.not_eq_true', Bool.false_eq_true] at h
      case atan => exact Smooth.diffOk n h
      all_goals exact ⟨Smooth.diffOk n h.1, trigSide_of_noInv O ρ n h.2⟩
    | _ => trivial

/-- **C14** for every smooth expression a user can build, at every regular point: what `e.diff(v)` returns evaluates to
the derivative of the function of `v` that `e` denotes (and is itself defined there). -/
theorem diff_correct (hO : O.Exact) (n : Nat) {ρ : Str → ℝ} {v : Str} {e d : Expr} (he : Built O e)
    (hs : Smooth v e = true) (hr : Regular ρ e) (h : diffE O n v e = .ok d) :
    HasDerivAt (fnOf ρ v e) (den ρ d) (ρ v) ∧ Regular ρ d :=
  have := diff_sound hO n (he.wf hO) hr (Smooth.diffOk n hs) h
  ⟨this.deriv, this.dom⟩

/-- **C14** for all expressions, under the run conditions `DiffOk`. Missing: logarithms to another base, `|e|` where `e` is
negative, and the cases where a radicand `1 - w**2` is split into negative factors; there the code is wrong, see
`diff_log_fails`, `diff_abs_fails`. -/
theorem diff_correct_partial (hO : O.Exact) (n : Nat) {ρ : Str → ℝ} {v : Str} {e d : Expr} (he : Built O e)
    (hs : DiffOk O ρ v n e) (hr : Regular ρ e) (h : diffE O n v e = .ok d) :
    HasDerivAt (fnOf ρ v e) (den ρ d) (ρ v) ∧ Regular ρ d :=
  have := diff_sound hO n (he.wf hO) hr hs h
  ⟨this.deriv, this.dom⟩

/-- **C15** the derivative with respect to a symbol that does not occur is the number 0 itself, for every expression that
is regular somewhere. Missing: expressions that are regular nowhere, such as `z*0**y`, for which it is false
(`diff_constant_fails`). -/
theorem diff_constant_partial (hO : O.Exact) (n : Nat) {ρ : Str → ℝ} {v : Str} {e d : Expr} (he : Built O e)
    (hs : Smooth v e = true ∨ DiffOk O ρ v n e) (hr : Regular ρ e) (hv : contains v e = false)
    (h : diffE O n v e = .ok d) : d = rat 0 :=
  (diff_sound hO n (he.wf hO) hr (hs.elim (Smooth.diffOk n) id) h).zero (by rw [← contains_iff, hv]; simp)

section examples
set_option maxRecDepth 10000

private abbrev x : Expr := sym ['x']
private abbrev y : Expr := sym ['y']
private abbrev z : Expr := sym ['z']

/-- `(x**2 * sin(3*x)).diff("x")`: a product, a power and a chain rule. -/
example (ρ : Str → ℝ) :
    HasDerivAt (fnOf ρ ['x'] (prod [trig .sin (prod [rat 3, x]), pow x (rat 2)]))
      (den ρ (sum [prod [rat 3, trig .cos (prod [rat 3, x]), pow x (rat 2)], prod [rat 2, x, trig .sin (prod [rat 3, x])]]))
      (ρ ['x']) :=
  (diff_correct exactOracle_exact 30 (built_of_self (by decide +kernel)) (by decide +kernel)
    (by simp [Regular, DomS, DomSL, TrigFn.ok, TrigFn.inner, intExp, den]) (by decide +kernel)).1

/-- `(e**(x*y)).diff("x")` is `y*e**(x*y)`. -/
example : diffE exactOracle 30 ['x'] (pow euler (prod [x, y])) = .ok (prod [y, pow euler (prod [x, y])]) := by
  decide +kernel

/-- `csc(x).diff("x")` is `-cos(x)/sin(x)**2`, by `diff_correct_partial`. -/
example (ρ : Str → ℝ) (hρ : Real.sin (ρ ['x']) ≠ 0) :
    HasDerivAt (fnOf ρ ['x'] (trig .csc x))
      (den ρ (prod [rat (-1), trig .cos x, pow (trig .sin x) (rat (-2))])) (ρ ['x']) := by
  refine (diff_correct_partial exactOracle_exact 30 (built_of_self (by decide +kernel)) ?_ ?_ (by decide +kernel)).1
  · refine ⟨by decide, fun s q hs hq => ?_⟩
    have h1 : trigCtor exactOracle 29 .sin x = .ok (trig .sin x) := by decide +kernel
    rw [h1] at hs; injection hs with hs; subst hs
    have h2 : opDiv (ctors exactOracle 29) (rat 1) (trig .sin x) = .ok (pow (trig .sin x) (rat (-1))) := by
      decide +kernel
    rw [h2] at hq; injection hq with hq; subst hq
    exact Smooth.diffOk _ (by decide)
  · simp [Regular, DomS, TrigFn.ok, TrigFn.inner, den, hρ]

/-- The derivative of `y*ln(z)` by `x` is 0. -/
example (ρ : Str → ℝ) (hρ : 0 < ρ ['z']) (d : Expr) (h : diffE exactOracle 30 ['x'] (prod [y, log z euler]) = .ok d) :
    d = rat 0 := by
  refine diff_constant_partial exactOracle_exact 30 (ρ := ρ) (built_of_self (by decide +kernel)) (.inl (by decide)) ?_
    (by decide) h
  simp [Regular, DomS, DomSL, den, HN, hρ, hρ.le, Real.exp_pos]

/-- `log(x, 2).diff("x")` is `1/x`, which is not the derivative: the base is ignored. -/
theorem diff_log_fails : ∃ (e d : Expr) (ρ : Str → ℝ), Built exactOracle e ∧ Regular ρ e ∧
    diffE exactOracle 30 ['x'] e = .ok d ∧ ¬ HasDerivAt (fnOf ρ ['x'] e) (den ρ d) (ρ ['x']) := by
  refine ⟨log x (rat 2), pow x (rat (-1)), fun _ => 1, built_of_self (by decide +kernel), ?_, by decide +kernel, ?_⟩
  · simp [Regular, DomS, den, HN]
  · intro h
    have h2 : HasDerivAt (fnOf (fun _ => 1) ['x'] (log x (rat 2))) (1 / Real.log 2) 1 := by
      have e : fnOf (fun _ => 1) ['x'] (log x (rat 2)) = fun t => Real.log t / Real.log 2 := by
        funext t; simp [fnOf, den]
      rw [e]
      have := (Real.hasDerivAt_log (x := 1) one_ne_zero).div_const (Real.log 2)
      simpa using this
    have h3 := h.unique h2
    have : den (fun _ => 1) (pow x (rat (-1))) = 1 := by simp [den]
    rw [this] at h3
    have h4 : Real.log 2 = 1 := by
      have hl : Real.log 2 ≠ 0 := (Real.log_pos (by norm_num)).ne'
      field_simp at h3; exact h3
    have := Real.log_lt_sub_one_of_pos (x := 2) (by norm_num) (by norm_num)
    linarith

/-- `Abs(x).diff("x")` is `1`, which is wrong for negative `x`. -/
theorem diff_abs_fails : ∃ (e d : Expr) (ρ : Str → ℝ), Built exactOracle e ∧ Regular ρ e ∧
    diffE exactOracle 30 ['x'] e = .ok d ∧ ¬ HasDerivAt (fnOf ρ ['x'] e) (den ρ d) (ρ ['x']) := by
  refine ⟨absv x, rat 1, fun _ => -1, built_of_self (by decide +kernel), ?_, by decide +kernel, ?_⟩
  · simp [Regular, DomS, den]
  · intro h
    have e : fnOf (fun _ => -1) ['x'] (absv x) = fun t => |t| := by
      funext t; simp [fnOf, den]
    rw [e] at h
    have h3 := h.unique (hasDerivAt_abs_neg (x := -1) (by norm_num))
    norm_num at h3

/-- `(z*0**y).diff("x")` is not 0. -/
theorem diff_constant_fails : ∃ e d : Expr, Built exactOracle e ∧ contains ['x'] e = false ∧
    diffE exactOracle 30 ['x'] e = .ok d ∧ d ≠ rat 0 :=
  ⟨prod [z, pow (rat 0) y], sum [prod [y, z, pow (rat 0) y], pow (rat 0) (sum [y, rat 1])],
    built_of_self (by decide +kernel), by decide, by decide +kernel, by simp⟩

end examples
end Simpy
