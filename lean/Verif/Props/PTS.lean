import Verif.Proofs.PTSSound
import Verif.Proofs.ExactOracle
import Verif.Proofs.Check

/-!
# C44: product to sum

`productToSumUnit O n e` is `product_to_sum_unit(e)` (`none` for `None`) with `n` stack levels left, `ptsPerf O n e` is
`product_to_sum(e)`.
-/

namespace Simpy
open Expr

variable {O : Oracle}

/-- **C44**, all runs: the value is preserved, provided that the run passes `ptsOk` (products of three or more factors with a
power among them are products of powers, a product of sums expands to a sum; see `product_to_sum_fails`), and that there are no
inverse trig functions. -/
theorem product_to_sum_value_partial (hO : O.Exact) (n : Nat) {ρ : Str → ℝ} {e r : Expr} (he : Built O e) (hd : Dom ρ e)
    (hi : containsCls isInvTrig e = false) (hok : ptsOk O n e none = true) (h : productToSumUnit O n e = .ok (some r)) :
    den ρ r = den ρ e ∧ Dom ρ r := by
  unfold productToSumUnit at h
  obtain ⟨o, ho, h⟩ := bind_ok.1 h
  cases o with
  | none => cases h
  | some us =>
    obtain ⟨s, hs, h⟩ := bind_ok.1 h
    have h := pure_ok.1 h
    cases h
    have p := ptsUnit_V hO n (st := false) (mult := none) ⟨he.wf hO, hd, hi⟩ (by simp) hok ho
    obtain ⟨p1, e1⟩ := PV.sumL hO p hs
    exact ⟨by rw [e1]; simp [multVal], p1.2.1⟩

/-- A number or symbol-free factor, a sine, or a cosine. -/
def plainFactor (t : Expr) : Bool := isSinCos t || !varies t

/-- **C44**, products of any number of sines, cosines and constants: no condition on the run. -/
theorem product_to_sum_plain (hO : O.Exact) (n : Nat) {ρ : Str → ℝ} {ts : List Expr} {r : Expr} (he : Built O (prod ts))
    (hd : Dom ρ (prod ts)) (hi : containsCls isInvTrig (prod ts) = false) (hp : ∀ t ∈ ts, plainFactor t = true)
    (h : productToSumUnit O n (prod ts) = .ok (some r)) : den ρ r = den ρ (prod ts) ∧ Dom ρ r := by
  refine product_to_sum_value_partial hO n he hd hi ?_ h
  cases n with
  | zero => rfl
  | succ n =>
    have hf : ∀ t ∈ ts.filter varies, isSinCos t = true := by
      intro t ht
      obtain ⟨h1, h2⟩ := List.mem_filter.1 ht
      have := hp t h1
      simpa [plainFactor, h2] using this
    unfold ptsOk
    dsimp only
    rw [constFactor]
    rcases hs : mkProdSkip (ts.filter varies) with er | s
    · rfl
    rcases hc : mkProdSkip (ts.filter (fun t => !varies t)) with er | c
    · rfl
    have shape : (∃ t, s = t ∧ (t = rat 1 ∨ isSinCos t = true)) ∨ ∃ us, s = prod us ∧ ∀ t ∈ us, isSinCos t = true := by
      match hus : ts.filter varies, hs with
      | [], hs => cases hs; exact .inl ⟨_, rfl, .inl rfl⟩
      | [t], hs =>
        simp only [mkProdSkip] at hs
        split at hs
        · cases hs
        · cases hs; exact .inl ⟨_, rfl, .inr (hf _ (by simp [hus]))⟩
      | a :: b :: us, hs => cases hs; exact .inr ⟨_, rfl, by rw [← hus]; exact hf⟩
    simp only [bind, Except.bind, pure, Except.pure]
    rcases shape with ⟨t, rfl, rfl | ht⟩ | ⟨us, rfl, hus⟩
    · rfl
    · obtain ⟨f, i, -, rfl⟩ := isSinCos_inv ht
      rfl
    · have hn : us.any (fun t => !isSinCos t) = false := by
        rw [List.any_eq_false]; intro t ht; simp [hus t ht]
      match us, hus, hn with
      | [a, b], hus, hn =>
        dsimp only
        rw [if_pos (by simp [hus a (by simp), hus b (by simp)])]
      | [], hus, hn => simp
      | [a], hus, hn => simp [hus a (by simp)]
      | a :: b :: c :: us, hus, hn => dsimp only; rw [hn]; simp

/-- **C44** for `product_to_sum` on a sum: the value is preserved when the terms pass `ptsOk`. -/
theorem product_to_sum_sum_value_partial (hO : O.Exact) (n : Nat) {ρ : Str → ℝ} {ts : List Expr} {r : Expr}
    (he : Built O (sum ts)) (hd : Dom ρ (sum ts)) (hi : containsCls isInvTrig (sum ts) = false)
    (hok : ts.all (fun t => ptsOk O n t none) = true) (h : ptsPerf O n (sum ts) = .ok (.hit r)) :
    den ρ r = den ρ (sum ts) ∧ Dom ρ r := by
  have w := he.wf hO
  unfold ptsPerf at h
  obtain ⟨o, ho, h⟩ := bind_ok.1 h
  cases o with
  | none => cases pure_ok.1 h
  | some us =>
    obtain ⟨s, hs, h⟩ := bind_ok.1 h
    have h := pure_ok.1 h
    split at h
    swap
    · cases h
    cases h
    have pt : ∀ t ∈ ts, PV false ρ t := fun t ht => ⟨WF_sum.1 w t ht, Dom_sum.1 hd t ht, closed_noInv.sum.1 hi t ht⟩
    have p := ptsList_V hO (x := (ts.map (den ρ)).sum) (mult := none) ⟨pt, rfl⟩ (by simp) (by
      intro t ht vs hv
      simpa [multVal] using ptsUnit_V hO n (pt t ht) (by simp) (List.all_eq_true.1 hok t ht) hv) ho
    obtain ⟨p1, e1⟩ := PV.sumL hO p hs
    exact ⟨by rw [e1, den_sum]; simp [multVal], p1.2.1⟩

section
set_option maxRecDepth 10000

private def x : Expr := sym ['x']
private def y : Expr := sym ['y']
private def z : Expr := sym ['z']

private def three : List Expr := [rat 2, trig .cos y, trig .cos z, trig .sin x]

/-- `2 cos(y) cos(z) sin(x)`. -/
example : Built exactOracle (prod three) ∧ Dom (fun _ => 1) (prod three) ∧ containsCls isInvTrig (prod three) = false ∧
    (∀ t ∈ three, plainFactor t = true) ∧
    productToSumUnit exactOracle 30 (prod three) = .ok (some (sum [prod [trig .sin x, trig .cos (sum [z, y])],
      prod [trig .sin x, trig .cos (sum [y, prod [rat (-1), z]])]])) := by
  refine ⟨built_of_self (by decide +kernel), ?_, by decide +kernel, by decide +kernel, by decide +kernel⟩
  simp [three, x, y, z, Dom, DomS, DomSL, TrigFn.ok]

/-- `cos(y) sin(x)^4`. -/
private def quart : Expr := prod [trig .cos y, pow (trig .sin x) (rat 4)]

/-- The case `cos(y) sin(x)^4`: five levels of intermediate sums. -/
example : Built exactOracle quart ∧ Dom (fun _ => 1) quart ∧ containsCls isInvTrig quart = false ∧
    ptsOk exactOracle 30 quart none = true ∧
    productToSumUnit exactOracle 30 quart = .ok (some (sum [prod [rat (1/16), trig .cos (sum [y, prod [rat 4, x]])],
      prod [rat (1/16), trig .cos (sum [prod [rat 4, x], prod [rat (-1), y]])],
      prod [rat (-1/4), trig .cos (sum [y, prod [rat 2, x]])],
      prod [rat (-1/4), trig .cos (sum [prod [rat 2, x], prod [rat (-1), y]])], prod [rat (3/8), trig .cos y]])) := by
  refine ⟨built_of_self (by decide +kernel), ?_, by decide +kernel, by decide +kernel, by decide +kernel⟩
  simp [quart, x, y, Dom, DomS, DomSL, TrigFn.ok, intExp, den]

private def cancel : List Expr := [pow (trig .sin x) (rat 2), prod [rat (1/2), trig .cos (prod [rat 2, x])], y]

/-- `sin(x)^2 + cos(2x)/2 + y`. -/
example : Built exactOracle (sum cancel) ∧ Dom (fun _ => 1) (sum cancel) ∧ containsCls isInvTrig (sum cancel) = false ∧
    cancel.all (fun t => ptsOk exactOracle 30 t none) = true ∧
    ptsPerf exactOracle 30 (sum cancel) = .ok (.hit (sum [y, rat (1/2)])) := by
  refine ⟨built_of_self (by decide +kernel), ?_, by decide +kernel, by decide +kernel, by decide +kernel⟩
  simp [cancel, x, y, Dom, DomS, DomSL, TrigFn.ok, intExp, den]

/-- `cos(z) cos(y)^2 sin(x)^2`. -/
private def dropped : Expr := prod [trig .cos z, pow (trig .cos y) (rat 2), pow (trig .sin x) (rat 2)]

/-- `sin(x)^2 cos(y)^2` as a sum. -/
private def droppedR : Expr := sum [prod [rat (-1/8), trig .cos (sum [prod [rat 2, y], prod [rat 2, x]])],
  prod [rat (-1/8), trig .cos (sum [prod [rat 2, x], prod [rat (-2), y]])],
  prod [rat (1/4), trig .cos (prod [rat 2, y])], prod [rat (-1/4), trig .cos (prod [rat 2, x])], rat (1/4)]

/-- The property fails for products of three or more factors with both powers and plain functions: the plain ones are dropped.
`cos(z) cos(y)^2 sin(x)^2` becomes a sum for `cos(y)^2 sin(x)^2`; at `x = π/2, y = 0, z = π` the values are -1 and 1. -/
theorem product_to_sum_fails : ∃ e r, ∃ ρ : Str → ℝ, Built exactOracle e ∧ Dom ρ e ∧ containsCls isInvTrig e = false ∧
    productToSumUnit exactOracle 30 e = .ok (some r) ∧ den ρ r ≠ den ρ e := by
  refine ⟨dropped, droppedR, fun s => if s = ['x'] then Real.pi / 2 else if s = ['y'] then 0 else Real.pi,
    built_of_self (by decide +kernel), ?_, by decide +kernel, by decide +kernel, ?_⟩
  · simp [dropped, x, y, z, Dom, DomS, DomSL, TrigFn.ok, intExp, den]
  · have h : (2 : ℝ) * (Real.pi / 2) = Real.pi := by ring
    simp [dropped, droppedR, x, y, z, den, denS, denP, TrigFn.real, h]
    norm_num

end

end Simpy
