import Verif.Proofs.Parked
import Verif.Proofs.PartsSound
import Verif.Proofs.BackCheck
import Verif.Proofs.Check
import Verif.Props.Integral

/-!
# C98: the parked transforms are right

`compoundAngle` and `sinUSub` are `check` and `forward` of the transforms in debug/_dead_transforms.py; in the words of C36.
-/

namespace Simpy
open Expr Node

variable {O : Oracle} {n m : Nat} {ρ : Str → ℝ} {v u : Str} {A : Str → Prop} {e g q S r : Expr}

/-- **C98** CompoundAngle, for integrands with integer powers and without logarithms and inverse trigonometric functions: the new integrand has the
same value, so that its antiderivatives, which are handed up as they are, are antiderivatives of the integrand. -/
theorem compound_angle_easy (hO : O.Exact) (he : Integrand ρ A e) (hz : Easy e) (h : compoundAngle O n e = .ok (some g)) :
    den ρ g = den ρ e ∧ Regular ρ g ∧ ((posed ρ v A g).Solves S → (posed ρ v A e).Solves S) := by
  obtain ⟨-, h1⟩ := compoundAngle_some h
  have k : Val true ρ g (den ρ e) := replace_easy hO (fun k e u hP w d h => compoundPerf_V hO (easyB_iff.1 hP).2.2 w d h) compoundPerf_noInv
    (fun _ _ => rfl) he.wf he.reg hz h1
  exact ⟨k.2.2, k.2.1, fun hS => reduces_back hO 0 (i := 0) (k := 1) (rewrite_ok (tr := .expand) k.2.2 rfl (by simp) (by simp) 0 1) (by simp) hS
    (by simp [usubOf]) rfl⟩

/-- **C98** CompoundAngle for other integrands without inverse trigonometric functions, where `replace` keeps to principal branches (`RunTame`). -/
theorem compound_angle_sound_partial (hO : O.Exact) (he : Integrand ρ A e) (hn : containsCls isInvTrig e = false)
    (ht : RunTame O (compoundPerf O) n e = true) (h : compoundAngle O n e = .ok (some g)) :
    den ρ g = den ρ e ∧ Regular ρ g ∧ ((posed ρ v A g).Solves S → (posed ρ v A e).Solves S) := by
  obtain ⟨-, h1⟩ := compoundAngle_some h
  have k : Val true ρ g (den ρ e) := replace_on hO (P := fun _ e => !containsCls isInvTrig e)
    (fun k e u hP w d h => compoundPerf_V hO (by simpa using hP) w d h) he.wf he.reg (noInv_visits n hn) ht h1
  exact ⟨k.2.2, k.2.1, fun hS => reduces_back hO 0 (i := 0) (k := 1) (rewrite_ok (tr := .expand) k.2.2 rfl (by simp) (by simp) 0 1) (by simp) hS
    (by simp [usubOf]) rfl⟩

/-- **C98** SinUSub, where `u = q` has a nonzero derivative and the two `replace` calls keep to principal branches. -/
theorem sin_usub_sound_partial (hO : O.Exact) (he : Integrand ρ A e) (hv : A v) (hu : ¬A u)
    (h : sinUSub O n v u e = .ok (some (q, g)))
    (hok : DiffOk O ρ v n q) (hq0 : deriv (fnOf ρ v q) (ρ v) ≠ 0)
    (ht : RunTame O (replacePerf O q (sym u)) n e = true) (hS : (posedAfter ρ v u A q g).Solves S)
    (ht' : RunTame O (replacePerf O (sym u) q) m S = true) (hb : sinUSubBack O m u q S = .ok r) :
    (posed ρ v A e).Solves r := by
  obtain ⟨ts, i, d, r', rfl, rfl, h1, h3, h4, h5, h6⟩ := sinUSub_some h
  have hq := he.of_prod _ (sinLoop_some (by simp) (by simp) (fun _ h => h) h1).1
  have hd := (diff_sound hO n hq.wf hq.reg hok h3).deriv
  have key := (swap_div hO (tr := .genericUSub _) he hq hv hu hok h3
    (by have : deriv (fnOf ρ v (trig .sin i)) (ρ v) = den ρ d := hd.deriv
        rwa [this] at hq0) ht h4 h5 h6 rfl 0 1).1
  exact reduces_back hO m (i := 0) (k := 1) key (by simp) hS
    (fun q' hq' => by cases hq'; exact substOk_of_run hO hS.1.wf key.1 ht') hb

/-- **C98** SinUSub applies to products that contain the sine and the cosine of the same expression, which is the variable or gives something free
of it when divided by it; the new integrand is free of the variable. -/
theorem sin_usub_applies (hO : O.Exact) (he : Integrand ρ A e) (h : sinUSub O n v u e = .ok (some (q, g))) :
    ∃ ts i, e = prod ts ∧ q = trig .sin i ∧ trig .sin i ∈ ts ∧ trig .cos i ∈ ts ∧ v ∉ syms g ∧
      (i = sym v ∨ ∃ c, opDiv (ctors O n) i (sym v) = .ok c ∧ v ∉ syms c) := by
  obtain ⟨ts, i, d, r', rfl, rfl, h1, -, -, -, h6⟩ := sinUSub_some h
  obtain ⟨h2, h3, c, h4, h5⟩ := sinLoop_some (by simp) (by simp) (fun _ h => h) h1
  have hi : NoFlt i := (he.of_prod _ h2).reg.noFlt
  have hc : NoFlt c := (he.of_prod _ h4).reg.noFlt
  obtain rfl : i = c := h5.elim (fun h => (beq_iff hO hi hc).1 h) fun h => ((beq_iff hO hc hi).1 h).symm
  exact ⟨ts, i, rfl, rfl, h2, h4, h6, constTimesVar_some hO hi h3⟩

/-! ## Examples -/

private abbrev x : Expr := sym ['x']
private abbrev y : Expr := sym ['u']
private abbrev X : Str → Prop := fun s => s = ['x']

/-- ∫ sin(x + 1) dx = ∫ sin(1) cos(x) + cos(1) sin(x) dx -/
example (ρ : Str → ℝ) (S : Expr)
    (hS : (posed ρ ['x'] X (sum [prod [trig .sin (rat 1), trig .cos x], prod [trig .cos (rat 1), trig .sin x]])).Solves S) :
    (posed ρ ['x'] X (trig .sin (sum [x, rat 1]))).Solves S :=
  (compound_angle_easy exactOracle_exact (n := 30)
    ⟨by simp [WF, WFL], by simp [Regular, DomS, DomSL, TrigFn.ok, TrigFn.inner], by simp [syms, symsL]⟩
    ⟨by decide +kernel, by decide +kernel, by decide +kernel⟩ (by decide +kernel)).2.2 hS

/-- ∫ sqrt(cos(x + 1)) dx -/
example (ρ : Str → ℝ) (S : Expr) (h0 : 0 < Real.cos (ρ ['x'] + 1)) (hS : (posed ρ ['x'] X (pow (sum [prod [trig .cos (rat 1), trig .cos x],
      prod [rat (-1), trig .sin (rat 1), trig .sin x]]) (rat (1 / 2)))).Solves S) :
    (posed ρ ['x'] X (pow (trig .cos (sum [x, rat 1])) (rat (1 / 2)))).Solves S :=
  (compound_angle_sound_partial exactOracle_exact (n := 30)
    ⟨by simp [WF, WFL, baseOk, intExp],
      by simp [Regular, DomS, DomSL, TrigFn.ok, TrigFn.inner, den, denS, TrigFn.real, HN, intExp, h0, h0.le, h0.ne'],
      by simp [syms, symsL]⟩
    (by decide +kernel) (by decide +kernel) (by decide +kernel)).2.2 hS

/-- ∫ sin(2x) cos(2x) dx = sin(2x)² / 4, by u = sin(2x). -/
example (ρ : Str → ℝ) (h0 : Real.cos (2 * ρ ['x']) ≠ 0) :
    (posed ρ ['x'] X (prod [trig .cos (prod [rat 2, x]), trig .sin (prod [rat 2, x])])).Solves
      (prod [rat (1 / 4), pow (trig .sin (prod [rat 2, x])) (rat 2)]) := by
  have sq : ∀ t : ℝ, pw t 2 = t ^ 2 := fun t => by have := pw_int t 2; norm_num at this ⊢; exact this
  have hd : HasDerivAt (fnOf ρ ['x'] (trig .sin (prod [rat 2, x]))) (Real.cos (2 * ρ ['x']) * 2) (ρ ['x']) := by
    have h1 : HasDerivAt (fun t : ℝ => 2 * t) 2 (ρ ['x']) := by simpa using (hasDerivAt_id (ρ ['x'])).const_mul 2
    have := h1.sin
    refine this.congr_of_eventuallyEq (.of_forall fun t => ?_)
    simp [fnOf, den, denP, TrigFn.real]
  refine sin_usub_sound_partial exactOracle_exact (n := 30) (m := 30) (u := ['u']) (q := trig .sin (prod [rat 2, x]))
    (g := prod [rat (1 / 2), y]) (S := prod [rat (1 / 4), pow y (rat 2)])
    ⟨by simp [WF, WFL, isAcc, List.filter], by simp [Regular, DomS, DomSL, TrigFn.ok, TrigFn.inner], by simp [syms, symsL]⟩
    rfl (by simp) (by decide +kernel) (Smooth.diffOk 30 (by decide +kernel)) (by rw [hd.deriv]; simpa using h0)
    (by decide +kernel) ⟨⟨by simp [WF, WFL, isAcc, List.filter, baseOk], ?_, ?_⟩, ?_⟩ (by decide +kernel) (by decide +kernel)
  · simp [Regular, DomS, DomSL, intExp]
  · have := ((hasDerivAt_id (TrigFn.sin.real (den ρ (prod [rat 2, x])))).fun_pow 2).const_mul (1 / 4)
    refine (this.congr_deriv ?_).congr_of_eventuallyEq (.of_forall fun t => ?_) <;>
      simp [posedAfter, posed, pointAfter, den, denP, denS, sq, fnOf, TrigFn.real]
    ring
  · simp [syms, symsL, posedAfter, posed, scopeAfter]

end Simpy
