import Verif.Proofs.RewriteKeeps
import Verif.Proofs.SolSound
import Verif.Proofs.BackCheck
import Verif.Proofs.ExactOracle
import Verif.Proofs.Check
import Verif.Props.Expand
import Verif.Proofs.EvalfSound

/-!
# C36, continued: the transforms that rewrite the integrand

As in `Props/Transforms`: if `forward` makes the child integrand `g` out of the integrand `e` and `S` is an antiderivative of `g`
at the point `ρ`, then the solution `r` that `backward` computes from `S` is an antiderivative of `e` there.
-/

namespace Simpy
open Expr Node

variable {O : Oracle} {n m : Nat} {ρ : Str → ℝ} {v : Str} {A : Str → Prop} {e g S r : Expr}

/-- **C36** CompleteTheSquare, where every visited quadratic polynomial has rational coefficients and no real root. Missing: other
quadratic polynomials, which are rewritten with roots of negative numbers. -/
theorem complete_the_square_sound_partial (hO : O.Exact) (he : Integrand ρ A e)
    (hv : VisitsP (squarePerf O v) (SquareOk O v) n e) (ht : RunTame O (squarePerf O v) n e = true)
    (h : completeTheSquare O n v e = .ok (some g)) (hS : (posed ρ v A g).Solves S)
    (hb : backStep O m .completeTheSquare v S = .ok r) : (posed ρ v A e).Solves r :=
  reduces_back hO m (i := 0) (k := 1) (rewrite_ok (completeTheSquare_V hO he.wf he.reg hv ht h).2.2 rfl (by simp) (by simp) 0 1)
    (by simp) hS (by simp [usubOf]) hb

/-- **C36** PolynomialDivision, for quotients of polynomials with rational coefficients. Missing: other coefficients
(`polynomial_division_fails`). -/
theorem polynomial_division_sound_partial (hO : O.Exact) {k : Nat} {ts : List Expr} {a b a' b' : Expr}
    (he : Integrand ρ A (prod ts)) (hz : ∀ t ∈ ts, Easy t) (hab : numDen O (ctors O n) ts = .ok (a, b))
    (hxa : expandOr (expandableE O n) (expandE O n) a = .ok a') (hra : ratPoly v a' = true)
    (hxb : expandOr (expandableE O n) (expandE O n) b = .ok b') (hrb : ratPoly v b' = true)
    (hlead : ∀ dl, toConstPoly O n v b = .ok dl → dl.getLast? ≠ some (rat 0))
    (h : polyDiv O n k v (prod ts) = .ok (some g)) (hS : (posed ρ v A g).Solves S)
    (hb : backStep O m .polynomialDivision v S = .ok r) : (posed ρ v A (prod ts)).Solves r :=
  reduces_back hO m (i := 0) (k := 1)
    (rewrite_ok (polyDiv_V hO he.wf he.reg hz hab hxa hra hxb hrb hlead h).2.2 rfl (by simp) (by simp) 0 1)
    (by simp) hS (by simp [usubOf]) hb

/-- **C36** PartialFractions, for denominators with two factors that are polynomials with rational coefficients. -/
theorem partial_fractions_sound_partial (hO : O.Exact) {ts : List Expr} {a b a' d1 d2 : Expr}
    (he : Integrand ρ A (prod ts)) (hz : ∀ t ∈ ts, Easy t) (hab : numDen O (ctors O n) ts = .ok (a, b))
    (hxa : expandOr (expandableE O n) (expandE O n) a = .ok a') (hra : plainTerms a' = true)
    (hdf : denomFactors (ctors O n) b = .ok (some [d1, d2])) (h1 : ratPoly v d1 = true) (h2 : ratPoly v d2 = true)
    (hc : ∀ us c, b = sum us → factorCommon (ctors O n) us = .ok c → Regular ρ c ∧ den ρ c ≠ 0)
    (h : partialFractions O n v (prod ts) = .ok (some g)) (hS : (posed ρ v A g).Solves S)
    (hb : backStep O m .partialFractions v S = .ok r) : (posed ρ v A (prod ts)).Solves r :=
  reduces_back hO m (i := 0) (k := 1)
    (rewrite_ok (partialFractions_V hO he.wf he.reg hz hab hxa hra hdf h1 h2 hc h).2.2 rfl (by simp) (by simp) 0 1)
    (by simp) hS (by simp [usubOf]) hb

/-- **C36** ProductToSum, on integrands without inverse trig functions, where no product of three trig functions is mistaken. -/
theorem product_to_sum_sound_partial (hO : O.Exact) (he : Integrand ρ A e) (hn : containsCls isInvTrig e = false)
    (hp : ptsOk O n e none = true) (h : productToSumUnit O n e = .ok (some g)) (hS : (posed ρ v A g).Solves S)
    (hb : backStep O m .productToSum v S = .ok r) : (posed ρ v A e).Solves r := by
  have k : Keeps ρ e g := rewrite_keeps hO (v := v) (ν := fun _ => []) (old := []) (tr := .productToSum)
    (c := .mk g v none .unset none false []) he ⟨rfl, rfl, h⟩ (.productToSum hn hp)
  exact reduces_back hO m (i := 0) (k := 1) (rewrite_ok k.value rfl (by simp) (by simp) 0 1) (by simp) hS (by simp [usubOf]) hb

/-- **C36** the simplification after InverseTrigUSub, where only true identities are applied (`pythOk`). -/
theorem simplify_step_sound_partial (hO : O.Exact) (he : Integrand ρ A e) (h1 : Visits (pythPerf O) (pythOk O) n e = true)
    (h2 : RunTame O (pythPerf O) n e = true) (h : pythagoreanSimplification O n e = .ok g)
    (hS : (posed ρ v A g).Solves S) (hb : backStep O m .simplify v S = .ok r) : (posed ρ v A e).Solves r :=
  reduces_back hO m (i := 0) (k := 1)
    (rewrite_ok (replace_on hO (pythPerf_on hO true ρ) he.wf he.reg h1 h2 h).2.2 rfl (by simp) (by simp) 0 1)
    (by simp) hS (by simp [usubOf]) hb

/-! ## Examples -/

private abbrev x : Expr := sym ['x']
private abbrev X : Str → Prop := fun s => s = ['x']
private abbrev quad : Expr := sum [pow x (rat 2), prod [rat 2, x], rat 5]

set_option maxRecDepth 10000 in
private theorem quad_pass : squarePerf exactOracle ['x'] 19 (pow quad (rat (-1))) = .ok .pass ∧
    squarePerf exactOracle ['x'] 18 quad ≠ .ok .pass := ⟨by decide +kernel, by decide +kernel⟩

private theorem quad_ok (k : Nat) (ts : R (List Expr)) (h : toConstPoly exactOracle k ['x'] quad = ts)
    (h2 : ts = .ok [rat 5, rat 2, rat 1]) (h3 : expandOr (expandableE exactOracle k) (expandE exactOracle k) quad = .ok quad) :
    SquareOk exactOracle ['x'] k quad := by
  intro a0 a1 a2 h'
  rw [h, h2] at h'
  cases h'
  exact ⟨⟨by decide +kernel, by decide +kernel, by decide +kernel⟩, quad, 5, 2, 1, h3, by decide +kernel, rfl, by norm_num⟩

set_option maxRecDepth 10000 in
/-- ∫ 1/(x² + 2x + 5) dx as ∫ 1/4 · 1/((x + 1)²/4 + 1) dx. -/
example (ρ : Str → ℝ) (S : Expr)
    (hS : (posed ρ ['x'] X (prod [rat (1 / 4), pow (sum [prod [rat (1 / 4), pow (sum [x, rat 1]) (rat 2)], rat 1]) (rat (-1))])).Solves S) :
    (posed ρ ['x'] X (pow quad (rat (-1)))).Solves S := by
  have pos : (0 : ℝ) < ρ ['x'] ^ 2 + (2 * ρ ['x'] + 5) := by nlinarith [sq_nonneg (ρ ['x'] + 1)]
  have e1 : toConstPoly exactOracle 19 ['x'] (pow quad (rat (-1))) = .error .assertion := by decide +kernel
  have e2 : toConstPoly exactOracle 18 ['x'] (rat (-1)) = .ok [rat (-1)] := by decide +kernel
  refine complete_the_square_sound_partial exactOracle_exact (n := 20) (m := 20)
    ⟨by simp [WF, WFL, baseOk, isAcc, List.filter], ?_, by simp [syms, symsL]⟩ ⟨?_, ?_⟩ (by decide +kernel) (by decide +kernel) hS rfl
  · simp [Regular, DomS, DomSL, den, denS, denP, intExp]
    have e : pw (ρ ['x']) 2 = ρ ['x'] ^ 2 := by exact_mod_cast pw_nat (ρ ['x']) 2
    rw [e]; exact .inl pos.ne'
  · intro a0 a1 a2 h
    rw [e1] at h; cases h
  · intro _ t ht
    simp only [Expr.children, List.mem_cons, List.not_mem_nil, or_false] at ht
    rcases ht with rfl | rfl
    · refine ⟨quad_ok 18 _ rfl (by decide +kernel) (by decide +kernel), fun h => absurd h quad_pass.2⟩
    · refine ⟨?_, by simp [Expr.children]⟩
      intro a0 a1 a2 h
      rw [e2] at h; cases h

set_option maxRecDepth 10000 in
/-- ∫ (x³ + 1)/(x + 2) dx as ∫ x² - 2x + 4 - 7/(x + 2) dx. -/
example (ρ : Str → ℝ) (h : ρ ['x'] + 2 ≠ 0) (S : Expr)
    (hS : (posed ρ ['x'] X (sum [prod [rat (-7), pow (sum [x, rat 2]) (rat (-1))], pow x (rat 2), prod [rat (-2), x], rat 4])).Solves S) :
    (posed ρ ['x'] X (prod [pow (sum [x, rat 2]) (rat (-1)), sum [pow x (rat 3), rat 1]])).Solves S :=
  polynomial_division_sound_partial exactOracle_exact (n := 30) (m := 30) (k := 10) (a := sum [pow x (rat 3), rat 1]) (b := sum [x, rat 2])
    (a' := sum [pow x (rat 3), rat 1]) (b' := sum [x, rat 2])
    ⟨by simp [WF, WFL, baseOk, isAcc, List.filter], by simp [Regular, DomS, DomSL, den, denS, intExp, h], by simp [syms, symsL]⟩
    (by intro t ht; simp only [List.mem_cons, List.not_mem_nil, or_false] at ht; rcases ht with rfl | rfl <;> exact ⟨by decide +kernel, by decide +kernel, by decide +kernel⟩)
    (by decide +kernel) (by decide +kernel) (by decide +kernel) (by decide +kernel) (by decide +kernel) (by
      have e : toConstPoly exactOracle 30 ['x'] (sum [x, rat 2]) = .ok [rat 2, rat 1] := by decide +kernel
      intro dl hdl
      rw [e] at hdl
      cases hdl
      decide) (by decide +kernel) hS rfl

set_option maxRecDepth 10000 in
/-- ∫ (x + 3)/((x + 1)(x + 2)) dx as ∫ 2/(x + 1) - 1/(x + 2) dx. -/
example (ρ : Str → ℝ) (h1 : ρ ['x'] + 1 ≠ 0) (h2 : ρ ['x'] + 2 ≠ 0) (S : Expr)
    (hS : (posed ρ ['x'] X
      (sum [prod [rat 2, pow (sum [x, rat 1]) (rat (-1))], prod [rat (-1), pow (sum [x, rat 2]) (rat (-1))]])).Solves S) :
    (posed ρ ['x'] X (prod [sum [x, rat 3], pow (sum [x, rat 1]) (rat (-1)), pow (sum [x, rat 2]) (rat (-1))])).Solves S :=
  partial_fractions_sound_partial exactOracle_exact (n := 30) (m := 30) (a := sum [x, rat 3]) (a' := sum [x, rat 3])
    (b := prod [sum [x, rat 1], sum [x, rat 2]]) (d1 := sum [x, rat 1]) (d2 := sum [x, rat 2])
    ⟨by simp [WF, WFL, baseOk, isAcc, List.filter], by simp [Regular, DomS, DomSL, den, denS, intExp, h1, h2], by simp [syms, symsL]⟩
    (by intro t ht; simp only [List.mem_cons, List.not_mem_nil, or_false] at ht; rcases ht with rfl | rfl | rfl <;> exact ⟨by decide +kernel, by decide +kernel, by decide +kernel⟩)
    (by decide +kernel) (by decide +kernel) (by decide +kernel) (by decide +kernel) (by decide +kernel) (by decide +kernel)
    (by intro us c hb; cases hb) (by decide +kernel) hS rfl

set_option maxRecDepth 10000 in
/-- ∫ sin(x) cos(3x) dx as ∫ sin(4x)/2 - sin(2x)/2 dx. -/
example (ρ : Str → ℝ) (S : Expr)
    (hS : (posed ρ ['x'] X
      (sum [prod [rat (1 / 2), trig .sin (prod [rat 4, x])], prod [rat (-1 / 2), trig .sin (prod [rat 2, x])]])).Solves S) :
    (posed ρ ['x'] X (prod [trig .sin x, trig .cos (prod [rat 3, x])])).Solves S :=
  product_to_sum_sound_partial exactOracle_exact (n := 20) (m := 20)
    ⟨by simp [WF, WFL, baseOk, isAcc, List.filter], by simp [Regular, DomS, DomSL, TrigFn.ok, TrigFn.inner], by simp [syms, symsL]⟩
    (by decide +kernel) (by decide +kernel) (by decide +kernel) hS rfl

set_option maxRecDepth 10000 in
/-- ∫ x (1 + tan(x)²) dx as ∫ x sec(x)² dx. -/
example (ρ : Str → ℝ) (hc : Real.cos (ρ ['x']) ≠ 0) (S : Expr)
    (hS : (posed ρ ['x'] X (prod [x, pow (trig .sec x) (rat 2)])).Solves S) :
    (posed ρ ['x'] X (prod [x, sum [rat 1, pow (trig .tan x) (rat 2)]])).Solves S :=
  simplify_step_sound_partial exactOracle_exact (n := 20) (m := 20)
    ⟨by simp [WF, WFL, baseOk, isAcc, List.filter],
      by simp [Regular, DomS, DomSL, TrigFn.ok, TrigFn.inner, den, denS, intExp, hc], by simp [syms, symsL]⟩
    (by decide +kernel) (by decide +kernel) (by decide +kernel) hS rfl

end Simpy
