import Verif.Proofs.ExactOracle
import Verif.Proofs.Built
import Verif.Proofs.Check
import Verif.Proofs.Closed
import Verif.Proofs.Syms

/-!
# C38 - C41: trigonometric functions and logarithms

`f.real` is the real function of the class `f`, `f.ok` its domain (Spec/Eval.lean).
-/

namespace Simpy
open Expr

/-- **C39** `sin(e)`, `cos(e)`, `tan(e)`, `sec(e)`, `csc(e)`, `cot(e)` for every expression `e` without inverse
trig functions: parity, special values and removal of periods all preserve the value. -/
theorem trig_value {O : Oracle} (hO : O.Exact) (n : Nat) {ρ : Str → ℝ} {f : TrigFn} {i r : Expr}
    (hf : f.isInverse = false) (hi : Built O i) (hno : containsCls isInvTrig i = false) (di : Dom ρ i)
    (hok : f.ok (den ρ i)) (h : trigCtor O n f i = .ok r) : den ρ r = f.real (den ρ i) ∧ Dom ρ r :=
  trigCtor_V hO n hf (hi.wf hO) di hok (trigSide_of_noInv O ρ n hno) (fun _ ⟨g, w, hg, hi'⟩ => by
    simp [hg, containsCls, isInvTrig, hi'] at hno) h

/-- **C39** for every expression `e`, when the radicands `1 - w**2`, `1 + w**2` that appear for `e = acos(w)` etc. are
principal (`TrigSide`). Missing: the code splits such a radicand into factors even when they are negative, see
`trig_value_fails`. -/
theorem trig_value_partial {O : Oracle} (hO : O.Exact) (n : Nat) {ρ : Str → ℝ} {f : TrigFn} {i r : Expr}
    (hf : f.isInverse = false) (hi : Built O i) (di : Dom ρ i) (hok : f.ok (den ρ i))
    (hside : TrigSide O ρ n i) (hcot : f = .cot → (∃ g w, i = trig g w ∧ g.isInverse = true) → Real.cos (den ρ i) ≠ 0)
    (h : trigCtor O n f i = .ok r) : den ρ r = f.real (den ρ i) ∧ Dom ρ r :=
  trigCtor_V hO n hf (hi.wf hO) di hok hside hcot h

/-- **C38** a trig function of `k*pi`, for every rational `k` at which it is defined, returns an expression whose value
is exactly the value of the function there. -/
theorem trig_special_value {O : Oracle} (hO : O.Exact) (m n : Nat) (k : ℚ) {ρ : Str → ℝ} {f : TrigFn}
    {i r : Expr} (hf : f.isInverse = false) (hi : opMul (ctors O m) (rat k) pi = .ok i)
    (hok : f.ok (k * Real.pi)) (h : trigCtor O n f i = .ok r) : den ρ r = f.real (k * Real.pi) := by
  have hi' : (ctors O m).prod [rat k, pi] = .ok i := hi
  have hb : Built O i := .prod m (by simp [Built.rat, Built.pi]) hi'
  have hn : containsCls isInvTrig i = false :=
    (ctors_pres closed_noInv O m).prod _ _ (by simp [containsCls, isInvTrig]) hi'
  have hv := (ctors_sound hO m).prod (s := false) ρ [rat k, pi] i (by simp [WF]) (by simp [Dom, DomS]) hi'
  have e : den ρ i = k * Real.pi := by rw [hv.1]; simp [den]
  have := (trig_value hO n hf hb hn hv.2 (by rw [e]; exact hok) h).1
  rw [this, e]

/-- **C40** `asin(e)`, `acos(e)`, `atan(e)` denote the principal inverse, unless `e` is literally a trig function that
the code cancels. Missing: exactly those cancellations, which are wrong (`asin_sin_fails`). -/
theorem inverse_trig_value_partial {O : Oracle} (n : Nat) {ρ : Str → ℝ} {f : TrigFn} {i r : Expr}
    (hf : f.isInverse = true) (di : Dom ρ i) (hok : f.ok (den ρ i))
    (hno : ∀ g w, i = trig g w → g.isInverse = false → g.func ≠ f.func ∧ ∀ h, g.recip = some h → h.func ≠ f.func)
    (h : trigCtor O n f i = .ok r) : den ρ r = f.real (den ρ i) ∧ Dom ρ r :=
  (trigCtor_inv_V n hf di hok (by simp) hno h).2

/-- **C40** `asin(sin(w))`, `acos(cos(w))`, `atan(tan(w))` return `w`, which is right when `w` is in the range of the inverse
function. -/
theorem inverse_trig_cancel_partial {O : Oracle} (n : Nat) {ρ : Str → ℝ} {f g : TrigFn} {w r : Expr}
    (hfg : (f = .asin ∧ g = .sin ∧ -(Real.pi / 2) ≤ den ρ w ∧ den ρ w ≤ Real.pi / 2) ∨
      (f = .acos ∧ g = .cos ∧ 0 ≤ den ρ w ∧ den ρ w ≤ Real.pi) ∨
      (f = .atan ∧ g = .tan ∧ -(Real.pi / 2) < den ρ w ∧ den ρ w < Real.pi / 2))
    (h : trigCtor O n f (trig g w) = .ok r) : den ρ r = f.real (den ρ (trig g w)) := by
  have hr : r = w := by
    cases n with
    | zero => simp [trigCtor] at h
    | succ n =>
      rcases hfg with ⟨rfl, rfl, -⟩ | ⟨rfl, rfl, -⟩ | ⟨rfl, rfl, -⟩ <;>
      · simp [trigCtor, trigNew, beq, TrigFn.isInverse, trigRest, trigOfTrig, TrigFn.func, Bind.bind,
          Except.bind, Pure.pure, Except.pure] at h
        exact h.symm
  subst hr
  rcases hfg with ⟨rfl, rfl, h1, h2⟩ | ⟨rfl, rfl, h1, h2⟩ | ⟨rfl, rfl, h1, h2⟩
  · simp only [den, TrigFn.real]; exact (Real.arcsin_sin h1 h2).symm
  · simp only [den, TrigFn.real]; exact (Real.arccos_cos h1 h2).symm
  · simp only [den, TrigFn.real]; rw [← Real.tan_eq_sin_div_cos]; exact (Real.arctan_tan h1 h2).symm

/-- **C41** `log(a, b)` evaluates to `ln(a)/ln(b)` wherever that is defined (textbook domain). -/
theorem log_value {O : Oracle} (hO : O.Exact) {ρ : Str → ℝ} {i b r : Expr} (di : DomF ρ i) (db : DomF ρ b)
    (hi : 0 < den ρ i) (hb : 0 < den ρ b) (hb1 : den ρ b ≠ 1) (h : logCtor O i b = .ok r) :
    den ρ r = Real.log (den ρ i) / Real.log (den ρ b) ∧ DomF ρ r :=
  have := logCtor_V (st := false) hO.isPi hO.isE ⟨di, db, hi, hb, hb1⟩ h
  ⟨this.1, this.2.1⟩

section examples
set_option maxRecDepth 10000

private def x : Expr := sym ['x']
private def y : Expr := sym ['y']

/-- `tan(7*pi/6)` is `1/sqrt(3)`. -/
example (ρ : Str → ℝ) (hok : TrigFn.tan.ok ((7 / 6 : ℚ) * Real.pi)) :
    pw ((3 : ℚ) : ℝ) ((-1 / 2 : ℚ) : ℝ) = TrigFn.tan.real ((7 / 6 : ℚ) * Real.pi) := by
  have := trig_special_value exactOracle_exact 30 30 (7 / 6) (ρ := ρ) (f := .tan) (i := prod [rat (7 / 6), pi])
    (r := pow (rat 3) (rat (-1 / 2))) rfl (by decide +kernel) hok (by decide +kernel)
  simpa only [den] using this

/-- `sin(-3*x)` is `-sin(3*x)`, and `trig_value` applies to it. -/
example (ρ : Str → ℝ) : den ρ (prod [rat (-1), trig .sin (prod [rat 3, x])]) = Real.sin (den ρ (prod [rat (-3), x])) :=
  (trig_value exactOracle_exact 30 (f := .sin) rfl (built_of_self (by decide +kernel)) (by decide +kernel)
    (by simp [Dom, DomS, DomSL, x]) trivial (by decide +kernel)).1

/-- `cos(x + 4*pi)` is `cos(x)`. -/
example : trigCtor exactOracle 30 .cos (sum [x, prod [rat 4, pi]]) = .ok (trig .cos x) := by decide +kernel

/-- `log(x**y, x)` is `y`. -/
example : logCtor exactOracle (pow x y) x = .ok y := by decide +kernel

/-- `atan(x + 1)` is kept. -/
example (ρ : Str → ℝ) : den ρ (trig .atan (sum [x, rat 1])) = Real.arctan (ρ ['x'] + (1 + 0)) := by
  have := (inverse_trig_value_partial 30 (ρ := ρ) (f := .atan) (i := sum [x, rat 1]) (r := trig .atan (sum [x, rat 1]))
    rfl (by simp [Dom, DomS, DomSL, x]) trivial (by simp) (by decide +kernel : trigCtor exactOracle 30 _ _ = _)).1
  rw [this]; simp [TrigFn.real, den, denS, x]

/-- `asin(sin(x))` returns `x`: wrong at `x = pi`. -/
theorem asin_sin_fails : ∃ (i r : Expr) (ρ : Str → ℝ), Built exactOracle i ∧ Dom ρ i ∧
    TrigFn.asin.ok (den ρ i) ∧ trigCtor exactOracle 30 .asin i = .ok r ∧ den ρ r ≠ Real.arcsin (den ρ i) := by
  refine ⟨trig .sin x, x, fun _ => Real.pi, built_of_self (by decide +kernel), by simp [Dom, DomS, TrigFn.ok, x],
    by simp [TrigFn.ok, den, TrigFn.real, x], by decide +kernel, ?_⟩
  simp [den, x, TrigFn.real, Real.pi_ne_zero]

/-- `asin(0)`, `acos(0)`, `atan(0)` raise ValueError, for every amount of stack. -/
theorem inverse_trig_zero_raises (O : Oracle) (n : Nat) (f : TrigFn) (hf : f.isInverse = true) :
    trigCtor O (n + 1) f (rat 0) = .error .value := by
  cases f <;> simp [TrigFn.isInverse] at hf <;> simp [trigCtor, trigNew, beq, specialValue]

/-- `sin(acos(sqrt(1 - x*y)))` returns `sqrt(x)*sqrt(y)`: at `x = y = -1` the argument is defined (the sine is 1), the
result is not. -/
theorem trig_value_fails : ∃ (i r : Expr) (ρ : Str → ℝ), Built exactOracle i ∧ Dom ρ i ∧
    trigCtor exactOracle 30 .sin i = .ok r ∧ ¬ DomF ρ r := by
  refine ⟨trig .acos (pow (sum [prod [rat (-1), x, y], rat 1]) (rat (1 / 2))),
    prod [pow x (rat (1 / 2)), pow y (rat (1 / 2))], fun _ => -1, built_of_self (by decide +kernel), ?_,
    by decide +kernel, ?_⟩
  · have e0 : den (fun _ => -1) (sum [prod [rat (-1), x, y], rat 1]) = 0 := by
      simp [den, denS, denP, x, y]
    have e1 : pw 0 (((1 / 2 : ℚ)) : ℝ) = 0 := by
      rw [pw_of_nonneg le_rfl, Real.zero_rpow]; norm_num
    refine ⟨⟨by simp [Dom, DomS, DomSL, x, y], by simp [Dom, DomS], .inr (by simp [den]), fun _ => ?_, by simp⟩, ?_⟩
    · simp only [HN]; rw [e0]
    · simp only [TrigFn.ok]
      have : den (fun _ => -1) (pow (sum [prod [rat (-1), x, y], rat 1]) (rat (1 / 2))) = 0 := by
        have e2 : den (fun _ => -1) (rat (1 / 2)) = ((1 / 2 : ℚ) : ℝ) := by simp only [den]
        have : den (fun _ => -1) (pow (sum [prod [rat (-1), x, y], rat 1]) (rat (1 / 2))) =
            pw (den (fun _ => -1) (sum [prod [rat (-1), x, y], rat 1])) (den (fun _ => -1) (rat (1 / 2))) := by
          simp only [den]
        rw [this, e0, e2, e1]
      rw [this]; norm_num
  · simp only [DomF, DomFL, den, x]
    rintro ⟨⟨-, -, -, h | ⟨q, hq, ho⟩⟩, -⟩
    · norm_num at h
    · have : q = 1 / 2 := by exact_mod_cast hq
      subst this
      revert ho; decide +kernel

end examples
end Simpy
