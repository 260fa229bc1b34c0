import Verif.Proofs.TableSound
import Verif.Proofs.ExactOracle
import Verif.Proofs.Check

/-!
# C30: the integral table

`checkTable O n v e` is `check_integral_table(e, v)` with `n` stack levels left.
-/

namespace Simpy
open Expr

variable {O : Oracle}

/-- **C30** What `check_integral_table(e, v)` returns is an antiderivative of `e` with respect to `v`, at every regular point
of `e` at which the textbook formula makes sense (`TableOk`), and is regular there. -/
theorem integral_table_correct (hO : O.Exact) (n : Nat) {ρ : Str → ℝ} {v : Str} {e F : Expr} (he : Built O e)
    (hr : Regular ρ e) (hs : TableOk ρ v e) (h : checkTable O n v e = .ok (some F)) :
    HasDerivAt (fnOf ρ v F) (den ρ e) (ρ v) ∧ Regular ρ F :=
  have := table_sound hO (he.wf hO) hr hs h
  ⟨this.1, this.2.1⟩

/-- **C30** the side condition disappears if exponents and bases are rational numbers and `sec(v)` is excluded. -/
theorem integral_table_rational (hO : O.Exact) (n : Nat) {ρ : Str → ℝ} {v : Str} {e F : Expr} (he : Built O e)
    (hr : Regular ρ e) (hx : ∀ x, e = pow (sym v) x → ∃ q, x = rat q) (hb : ∀ b, e = pow b (sym v) → ∃ q, b = rat q ∧ q ≠ 1)
    (hs : e ≠ trig .sec (sym v)) (h : checkTable O n v e = .ok (some F)) :
    HasDerivAt (fnOf ρ v F) (den ρ e) (ρ v) ∧ Regular ρ F := by
  refine integral_table_correct hO n he hr ⟨fun x hx' hne => ?_, fun b hb' => ?_, fun hs' => absurd hs' hs⟩ h
  · obtain ⟨q, rfl⟩ := hx x hx'
    rw [den_rat]
    intro hq
    exact hne (congrArg rat (by exact_mod_cast hq))
  · obtain ⟨q, rfl, hq⟩ := hb b hb'
    rw [den_rat]
    intro hq'
    exact hq (by exact_mod_cast hq')

section examples
set_option maxRecDepth 10000

private abbrev x : Expr := sym ['x']
private abbrev y : Expr := sym ['y']

/-- `1/x` has the antiderivative `log(|x|)`, also for negative `x`. -/
example (ρ : Str → ℝ) (h0 : ρ ['x'] < 0) :
    HasDerivAt (fnOf ρ ['x'] (log (absv x) euler)) (den ρ (pow x (rat (-1)))) (ρ ['x']) :=
  (integral_table_rational exactOracle_exact 30 (built_of_self (by decide +kernel))
    (by simp [Regular, DomS, intExp, den, h0.ne]) (fun _ h => ⟨-1, by cases h; rfl⟩) (fun _ h => by cases h) (by simp)
    (by decide +kernel)).1

/-- `x**y` with a symbolic exponent, at a point with `x > 0` and `y ≠ -1`. -/
example (ρ : Str → ℝ) (h0 : 0 < ρ ['x']) (h1 : ρ ['y'] ≠ -1) :
    HasDerivAt (fnOf ρ ['x'] (prod [pow (sum [y, rat 1]) (rat (-1)), pow x (sum [y, rat 1])]))
      (den ρ (pow x y)) (ρ ['x']) :=
  (integral_table_correct exactOracle_exact 30 (built_of_self (by decide +kernel))
    (by simp [Regular, DomS, intExp, HN, den, h0.ne', h0.le])
    ⟨fun _ h _ => by cases h; simpa [den] using h1, fun b h => by simp at h, fun h => by simp at h⟩
    (by decide +kernel)).1

/-- `sin(t)`. -/
example (ρ : Str → ℝ) : HasDerivAt (fnOf ρ ['t'] (prod [rat (-1), trig .cos (sym ['t'])]))
    (den ρ (trig .sin (sym ['t']))) (ρ ['t']) :=
  (integral_table_rational exactOracle_exact 30 (built_of_self (by decide +kernel))
    (by simp [Regular, DomS, TrigFn.ok, TrigFn.inner]) (fun _ h => by cases h) (fun _ h => by cases h) (by simp)
    (by decide +kernel)).1

/-- `2**x`. -/
example (ρ : Str → ℝ) : HasDerivAt (fnOf ρ ['x'] (prod [pow (log (rat 2) euler) (rat (-1)), pow (rat 2) x]))
    (den ρ (pow (rat 2) x)) (ρ ['x']) :=
  (integral_table_rational exactOracle_exact 30 (built_of_self (by decide +kernel))
    (by simp [Regular, DomS, intExp, HN]) (fun _ h => by cases h) (fun _ h => ⟨2, by cases h; simp⟩) (by simp)
    (by decide +kernel)).1

/-- `sec(x)` at `x = 0`. -/
example : HasDerivAt (fnOf (fun _ => 0) ['x'] (log (sum [trig .tan x, trig .sec x]) euler))
    (den (fun _ => 0) (trig .sec x)) 0 :=
  (integral_table_correct exactOracle_exact 30 (built_of_self (by decide +kernel))
    (by simp [Regular, DomS, TrigFn.ok, TrigFn.inner, den]) ⟨fun _ h => by simp at h, fun _ h => by simp at h, fun _ => by simp⟩
    (by decide +kernel)).1

end examples
end Simpy
