import Verif.Proofs.LinSimp
import Verif.Proofs.MonoArith
import Verif.Proofs.TotalTree
import Mathlib.Analysis.SpecialFunctions.ExpDeriv
import Mathlib.Analysis.SpecialFunctions.Trigonometric.Deriv

/-! # Lemmas: the substitution of a linear argument -/

namespace Simpy
namespace Lin
open Expr Mono1

variable {O : Oracle} {v w : Str} {L : Expr} {f g : Expr → Expr} {q a b : ℚ}

/-- The exponential function, sine and cosine, with their integrals `q * g`. -/
inductive Outer : (Expr → Expr) → ℚ → (Expr → Expr) → Prop
  | exp : Outer (pow euler) 1 (pow euler)
  | sin : Outer (trig .sin) (-1) (trig .cos)
  | cos : Outer (trig .cos) 1 (trig .sin)

/-- `L = a*x + b`. -/
inductive Linear (v : Str) : ℚ → ℚ → Expr → Prop
  | times (a : ℚ) : a ≠ 0 → a ≠ 1 → Linear v a 0 (prod [rat a, sym v])
  | plus (b : ℚ) : b ≠ 0 → Linear v 1 b (sum [sym v, rat b])
  | both (a b : ℚ) : a ≠ 0 → a ≠ 1 → b ≠ 0 → Linear v a b (sum [prod [rat a, sym v], rat b])

theorem Linear.arg (h : Linear v a b L) : LinearArg v L := by
  cases h with
  | times _ h0 h1 => exact .times _ h0 h1
  | plus _ h0 => exact .plus _ h0
  | both _ _ h0 h1 h2 => exact .both _ _ h0 h1 h2

theorem Linear.ne (h : Linear v a b L) : a ≠ 0 := by
  cases h with
  | times _ h0 h1 => exact h0
  | plus _ h0 => exact one_ne_zero
  | both _ _ h0 h1 h2 => exact h0

theorem Linear.of (h : LinearArg v L) : L = sym v ∨ ∃ a b, Linear v a b L := by
  cases h with
  | var => exact .inl rfl
  | times a h0 h1 => exact .inr ⟨_, _, .times a h0 h1⟩
  | plus b h0 => exact .inr ⟨_, _, .plus b h0⟩
  | both a b h0 h1 h2 => exact .inr ⟨_, _, .both a b h0 h1 h2⟩

theorem Linear.den (h : Linear v a b L) (ρ : Str → ℝ) : den ρ L = a * ρ v + b := by
  cases h <;> simp [Simpy.den, denS, denP]

theorem Linear.fn (h : Linear v a b L) (ρ : Str → ℝ) (t : ℝ) : Simpy.den (upd ρ v t) L = a * t + b := by
  rw [h.den]; simp

theorem Linear.notSym (h : Linear v a b L) (w : Str) : beq O L (sym w) = false ∧ beq O (sym w) L = false := by
  cases h <;> exact ⟨rfl, rfl⟩

theorem Linear.noRename (h : Linear v a b L) (x y w : Str) : eqWithVar O x y L (sym w) = false := by
  cases h <;> simp [eqWithVar, sameClass]

/-! ## The check -/

theorem div_var (m : Nat) (ha : a ≠ 0) : opDiv (ctors O (m + 6)) (scale a (sym v)) (sym v) = .ok (rat a) := by
  have := div_mq (O := O) (v := v) (m + 1) (i := 1) (j := 1) ha one_ne_zero
  simpa [mq, scale, Lin.varPow] using this

theorem Linear.shape (h : Linear v a b L) (n : Nat) : linearShape O (n + 6) v L = .ok (some (L, none)) := by
  cases h with
  | times _ h0 h1 =>
    have := div_var (O := O) (v := v) n h0
    simp only [scale, h0, h1, if_false] at this
    simp [linearShape, this, Expr.contains, bind, Except.bind, pure, Except.pure]
  | plus _ h0 =>
    have := div_var (O := O) (v := v) (a := 1) n one_ne_zero
    simp only [scale, one_ne_zero, if_false, if_true] at this
    simp [linearShape, allR, linTerm, this, Expr.contains, bind, Except.bind, pure, Except.pure]
  | both _ _ h0 h1 h2 =>
    have := div_var (O := O) (v := v) n h0
    simp only [scale, h0, h1, if_false] at this
    simp [linearShape, allR, linTerm, this, Expr.contains, Expr.containsL, bind, Except.bind, pure, Except.pure]

theorem contains_arg (h : LinearArg v L) : L.contains v = true := by
  cases h <;> simp [Expr.contains, Expr.containsL]

theorem Linear.check (h : Linear v a b L) (n : Nat) : linCheck O (n + 6) v L (none, none) = .ok (true, some L, none) := by
  have hp : linPre O (n + 6) v L (none, none) = .ok (some (true, some L, none)) := by
    simp [linPre, contains_arg h.arg, h.shape, linVerdict, bind, Except.bind, pure, Except.pure]
  cases h <;> simp only [linCheck, hp]

theorem check_outer (hf : Outer f q g) (h : Linear v a b L) (n : Nat) :
    linCheck O (n + 6) v (f L) (none, none) = .ok (true, some L, none) := by
  have hc := h.check (O := O) n
  have he : linCheck O (n + 6) v euler (none, none) = .ok (true, none, none) := rfl
  cases hf <;> simp [linCheck, linPre, Expr.contains, contains_arg h.arg, linearShape, linVerdict, bind, Except.bind, pure, Except.pure, hc, he]

theorem Linear.diff (h : Linear v a b L) (n : Nat) : diffE O (n + 6) v L = .ok (rat a) := by
  have hs : ∀ m, diffE O (m + 1) v (sym v) = .ok (rat 1) := fun m => by simp [diffE]
  have hr : ∀ m c, diffE O (m + 1) v (rat c) = .ok (rat 0) := fun m c => by simp [diffE]
  have hm : ∀ m a, a ≠ 0 → a ≠ 1 → diffE O (m + 5) v (prod [rat a, sym v]) = .ok (rat a) := by
    intro m a h0 h1
    have h2 : (ctors O (m + 4)).prod [rat 0, sym v] = .ok (rat 0) := by
      have : (ctors O (m + 4)).prod [rat 0, sym v] = .ok (scale 0 (sym v)) := prod_rat_unit .var 0
      simpa [scale] using this
    have h3 : (ctors O (m + 4)).prod [rat 1, rat a] = .ok (rat a) := by
      have := prod_mq (O := O) (v := v) (m + 2) (i := 0) (j := 0) one_ne_zero h0
      simpa [mq] using this
    have h4 : (ctors O (m + 4)).sum [rat 0, rat a] = .ok (rat a) := by
      show sumCtor O (ctors O (m + 3)) [rat 0, rat a] = _
      have hl : combineSumLoop O 2 [rat 0, rat a] = .ok ([], [rat 0, rat a]) := rfl
      have hf : flatSL [rat 0, rat a] = [rat 0, rat a] := rfl
      simp [sumCtor, hf, combineSum, hl, accumulateSum, value, foldNum, numAdd, const, beq, h0, bind, Except.bind, pure, Except.pure]
    rw [diffE]
    simp only [prodDiffTerms, hs, hr, bind, Except.bind, pure, Except.pure, List.nil_append, List.append_nil, h2, h3, h4]
  have hsum : ∀ m a, a ≠ 0 → (ctors O (m + 1)).sum [rat a, rat 0] = .ok (rat a) := by
    intro m a h0
    show sumCtor O (ctors O m) [rat a, rat 0] = _
    have hl : combineSumLoop O 2 [rat a, rat 0] = .ok ([], [rat a, rat 0]) := rfl
    have hf : flatSL [rat a, rat 0] = [rat a, rat 0] := rfl
    simp [sumCtor, hf, combineSum, hl, accumulateSum, value, foldNum, numAdd, const, beq, h0, bind, Except.bind, pure, Except.pure]
  cases h with
  | times _ h0 h1 => exact hm (n + 1) a h0 h1
  | plus _ h0 =>
    rw [diffE]
    simp only [mapR, hs, hr, bind, Except.bind, hsum _ 1 one_ne_zero]
  | both _ _ h0 h1 h2 =>
    rw [diffE]
    simp only [mapR, hm _ a h0 h1, hr, bind, Except.bind, hsum _ a h0]

/-! ## Replacing the argument -/

/-- The function of the argument exists. -/
def Fits (v : Str) (f g : Expr → Expr) (L : Expr) : Prop := LinearArg v L ∧ Piece v (f L) ∧ Piece v (g L)

theorem Outer.fits_var (hf : Outer f q g) : Fits v f g (sym v) := by
  cases hf with
  | exp => exact ⟨.var, .exp .var, .exp .var⟩
  | sin => exact ⟨.var, .sin .var rfl, .cos .var rfl⟩
  | cos => exact ⟨.var, .cos .var rfl, .sin .var rfl⟩

/-- Replacing the whole argument. -/
theorem replace_outer (hf : Outer f q g) {A B : Expr} (hA : LinearArg w A) (hB : Fits v f g B) (n : Nat) :
    replaceOld O (n + 3) (f A) A B = .ok (f B) ∧ replaceOld O (n + 3) (g A) A B = .ok (g B) := by
  have hA' : replaceE O (replacePerf O A B) (n + 2) A = .ok B := by
    rw [replaceE.eq_def]; simp only [replacePerf, hA.self, if_true, bind, Except.bind]
  have he : replaceE O (replacePerf O A B) (n + 2) euler = .ok euler := by
    rw [replaceE.eq_def]
    have : beq O euler A = false := by cases hA <;> rfl
    simp only [replacePerf, this, Bool.false_eq_true, if_false, bind, Except.bind]
  have hpow : ∀ C D, beq O (pow C D) A = false := fun _ _ => by cases hA <;> rfl
  have htrig : ∀ s C, beq O (trig s C) A = false := fun _ _ => by cases hA <;> rfl
  obtain ⟨hL, h1, h2⟩ := hB
  unfold replaceOld
  cases hf with
  | exp =>
    have : replaceE O (replacePerf O A B) (n + 3) (pow euler A) = .ok (pow euler B) := by
      rw [replaceE]
      simp only [replacePerf, hpow, Bool.false_eq_true, if_false, bind, Except.bind] at hA' he ⊢
      simp only [hA', he]
      exact hL.pow_euler _
    exact ⟨this, this⟩
  | sin =>
    cases h1 with
    | sin h hs =>
      constructor
      · rw [replaceE]
        simp only [replacePerf, htrig, Bool.false_eq_true, if_false, bind, Except.bind] at hA' ⊢
        simp only [hA']
        exact hL.trig_ctor (.inl rfl) hs _
      · rw [replaceE]
        simp only [replacePerf, htrig, Bool.false_eq_true, if_false, bind, Except.bind] at hA' ⊢
        simp only [hA']
        exact hL.trig_ctor (.inr rfl) hs _
  | cos =>
    cases h1 with
    | cos h hs =>
      constructor
      · rw [replaceE]
        simp only [replacePerf, htrig, Bool.false_eq_true, if_false, bind, Except.bind] at hA' ⊢
        simp only [hA']
        exact hL.trig_ctor (.inr rfl) hs _
      · rw [replaceE]
        simp only [replacePerf, htrig, Bool.false_eq_true, if_false, bind, Except.bind] at hA' ⊢
        simp only [hA']
        exact hL.trig_ctor (.inl rfl) hs _

theorem replace_back (hf : Outer f q g) (hB : Fits v f g L) (c : ℚ) (hc : c ≠ 0) (n : Nat) :
    replaceOld O (n + 4) (scale c (g (sym w))) (sym w) L = .ok (scale c (g L)) := by
  have h1 := (replace_outer (O := O) hf (LinearArg.var (v := w)) hB n).2
  have h2 := (replace_outer (O := O) hf (LinearArg.var (v := w)) hB (n + 1)).2
  unfold scale
  simp only [hc, if_false]
  split
  · exact h2
  · have hr : replaceE O (replacePerf O (sym w) L) (n + 3) (rat c) = .ok (rat c) := rfl
    have h1' : replaceE O (replacePerf O (sym w) L) (n + 3) (g (sym w)) = .ok (g L) := h1
    have hp : replacePerf O (sym w) L (n + 3) (prod [rat c, g (sym w)]) = .ok .pass := rfl
    have := prod_rat_unit (O := O) (C := ctors O (n + 2)) hB.2.2 c
    simp only [scale, hc, if_false, *] at this
    unfold replaceOld
    rw [replaceE]
    simp only [hp, mapR, hr, h1', bind, Except.bind]
    exact this

/-- **The substitution**: the new integrand is `1/a * f(u)`. -/
theorem linearUSub_outer (hO : O.Exact) (hf : Outer f q g) (h : Linear v a b L) (n : Nat) :
    linearUSub O (n + 6) v w (f L) = .ok (some (L, scale a⁻¹ (f (sym w)))) := by
  have hcnt : ¬ count O (sym v) (f L) < 1 := by
    cases hf <;> cases h <;> simp [count, generalCount, generalCountL, sameClass, beq]
  have hr := (replace_outer (O := O) hf h.arg (hf.fits_var (v := w)) (n + 3)).1
  have hd : opDiv (ctors O (n + 6)) (f (sym w)) (rat a) = .ok (scale a⁻¹ (f (sym w))) := by
    have hi : (ctors O (n + 6)).pow (rat a) (rat (-1)) = .ok (rat (1 / a)) := inv_rat (n + 5) h.ne
    have hp : (ctors O (n + 6)).prod [f (sym w), rat (1 / a)] = .ok (scale (1 / a) (f (sym w))) :=
      prod_unit_rat hO (hf.fits_var (v := w)).2.1 (1 / a)
    have : opDiv (ctors O (n + 6)) (f (sym w)) (rat a) =
        ((ctors O (n + 6)).pow (rat a) (rat (-1)) >>= fun i => (ctors O (n + 6)).prod [f (sym w), i]) := by
      cases hf <;> rfl
    rw [this]
    rw [one_div] at hi hp
    simp only [bind, Except.bind, hi, hp]
  unfold linearUSub
  simp only [hcnt, if_false, check_outer hf h n, h.diff n, linReplace, hr, hd, bind, Except.bind, if_true, pure, Except.pure]

/-! ## The derivative -/

theorem den_exp (ρ : Str → ℝ) (x : Expr) : den ρ (pow euler x) = Real.exp (den ρ x) := by
  show pw (Real.exp 1) (den ρ x) = _
  rw [pw_of_nonneg (Real.exp_pos 1).le, Real.exp_one_rpow]

theorem outer_sol (hf : Outer f q g) (h : Linear v a b L) (hF : Fits v f g L) (ρ : Str → ℝ) :
    SolAt ρ v (scale (a⁻¹ * q) (g L)) (den ρ (f L)) := by
  refine ⟨term_wf (scale_term hF.2.2 _), ?_, ?_⟩
  · have hd : DomS true ρ (g L) := by
      have := h.arg.dom true ρ
      cases hf <;> simp [DomS, this, TrigFn.ok, TrigFn.inner, HN, den, (Real.exp_pos 1).le]
    show DomS true ρ _
    unfold scale
    split
    · simp [DomS]
    · split
      · exact hd
      · simp [DomS, DomSL, hd]
  · rw [fnOf_scale]
    have ha : (a : ℝ) ≠ 0 := by exact_mod_cast h.ne
    have hlin : HasDerivAt (fun t : ℝ => (a : ℝ) * t + b) a (ρ v) := by
      simpa using ((hasDerivAt_id (ρ v)).const_mul (a : ℝ)).add_const (b : ℝ)
    cases hf with
    | exp =>
      have e : fnOf ρ v (pow euler L) = fun t => Real.exp (a * t + b) := by
        funext t; simp [fnOf, den_exp, h.fn]
      rw [e, den_exp, h.den]
      have := (hlin.exp).const_mul ((a⁻¹ * 1 : ℚ) : ℝ)
      exact this.congr_deriv (by push_cast; field_simp)
    | sin =>
      have e : fnOf ρ v (trig .cos L) = fun t => Real.cos (a * t + b) := by
        funext t; simp [fnOf, den, TrigFn.real, h.fn]
      have e2 : den ρ (trig .sin L) = Real.sin (a * ρ v + b) := by simp [den, TrigFn.real, h.den]
      rw [e, e2]
      have := (hlin.cos).const_mul ((a⁻¹ * -1 : ℚ) : ℝ)
      exact this.congr_deriv (by push_cast; field_simp)
    | cos =>
      have e : fnOf ρ v (trig .sin L) = fun t => Real.sin (a * t + b) := by
        funext t; simp [fnOf, den, TrigFn.real, h.fn]
      have e2 : den ρ (trig .cos L) = Real.cos (a * ρ v + b) := by simp [den, TrigFn.real, h.den]
      rw [e, e2]
      have := (hlin.sin).const_mul ((a⁻¹ * 1 : ℚ) : ℝ)
      exact this.congr_deriv (by push_cast; field_simp)

end Lin
end Simpy
