import Verif.Proofs.TotalEval
import Verif.Proofs.ExactOracle
import Verif.Proofs.NodeEq
import Verif.Props.Definite
import Verif.Props.Scope

/-!
# C66: polynomials are always integrated

The other theorems about integration say that an answer, if there is one, is right. These say that there is one: for polynomials
with rational coefficients in one variable, `integrate` neither gives up nor raises, whatever the strategy, the time limit and
the random names.
-/

namespace Simpy
open Expr

variable {O : Oracle} {v : Str} {e : Expr}

/-- **C66** `integrate` of a polynomial returns a polynomial whose derivative is, everywhere, the integrand. -/
theorem polynomials_are_integrated (hO : O.Exact) (n k : Nat) (ν : Supply) (bf final : Bool) (h : IsPolynomial v e) :
    ∃ F, Node.integrate O (n + 8) ν bf k final v e = .ok (some F) ∧ IsPolynomial v F ∧
      ∀ ρ : Str → ℝ, HasDerivAt (fnOf ρ v F) (den ρ e) (ρ v) := by
  obtain ⟨t0, t1, F, h1, h2, h3, h4, h5, h6, h7, h8⟩ := Node.run_poly (ν := ν) hO h n false
  refine ⟨F, ?_, h7, h8⟩
  have hc : Node.cycle O (n + 8) ν bf t0 [] = .ok (t1, .solved) := by
    simp only [Node.cycle, Node.at?, h2, bind, Except.bind, Node.replaceAt, h5, pure, Except.pure]
  have hl : Node.searchLoop O (n + 8) ν bf k t0 [] = .ok t1 := by
    cases k with
    | zero => simp only [Node.searchLoop, hc, bind, Except.bind, pure, Except.pure]
    | succ k => simp [Node.searchLoop, hc, bind, Except.bind, pure, Except.pure, Node.isFinished, h3]
  have hs : Node.search O (n + 8) ν bf k v e = .ok t1 := by
    simp only [Node.search, Node.startTree, simplify_poly h (n + 4), bind, Except.bind, h1]
    exact hl
  simp only [Node.integrate, hs, bind, Except.bind, h3, Bool.not_true, Bool.false_eq_true, if_false, h6,
    simplify_poly h7 (n + 4), pure, Except.pure]
  cases final <;> rfl

/-- **C66** the same without heuristics (the integration that integration by parts relies on). -/
theorem polynomials_need_no_heuristics (hO : O.Exact) (n : Nat) (ν : Supply) (h : IsPolynomial v e) :
    ∃ F, Node.withoutHeuristics O (n + 8) ν v e = .ok (some F) ∧ IsPolynomial v F ∧
      ∀ ρ : Str → ℝ, HasDerivAt (fnOf ρ v F) (den ρ e) (ρ v) := by
  obtain ⟨t0, t1, F, h1, h2, h3, h4, h5, h6, h7, h8⟩ := Node.run_poly (ν := ν) hO h n true
  refine ⟨F, ?_, h7, h8⟩
  simp only [Node.withoutHeuristics, h1, h2, h4, h6, bind, Except.bind, pure, Except.pure, Bool.false_eq_true, if_false]

/-- **C66** through the public function, with the variable given. -/
theorem polynomials_are_integrated_var (hO : O.Exact) (n k : Nat) (ν : Supply) (bf : Bool) (h : IsPolynomial v e) :
    ∃ F, integrateTop O (n + 8) ν bf k e (.var v) = .ok (some F) ∧ IsPolynomial v F ∧
      ∀ ρ : Str → ℝ, HasDerivAt (fnOf ρ v F) (den ρ e) (ρ v) :=
  polynomials_are_integrated hO n k ν bf true h

/-- **C66** without bounds, if the polynomial is not a constant. -/
theorem polynomials_are_integrated_nothing (hO : O.Exact) (n k : Nat) (ν : Supply) (bf : Bool) (h : IsPolynomial v e)
    (hv : v ∈ syms e) : ∃ F, integrateTop O (n + 8) ν bf k e .nothing = .ok (some F) ∧ IsPolynomial v F ∧
      ∀ ρ : Str → ℝ, HasDerivAt (fnOf ρ v F) (den ρ e) (ρ v) := by
  obtain ⟨F, h1, h2⟩ := polynomials_are_integrated hO n k ν bf true h
  refine ⟨F, ?_, h2⟩
  simp only [integrateTop, defaultVar_poly h hv, bind, Except.bind, h1]

/-- **C66** a definite integral of a polynomial between numbers is a number, and it is the integral. -/
theorem polynomial_definite (hO : O.Exact) (n k : Nat) (ν : Supply) (bf : Bool) (h : IsPolynomial v e) (a b : ℚ) :
    ∃ q : ℚ, integrateTop O (n + 8) ν bf k e (.full v (rat a) (rat b)) = .ok (some (rat q)) ∧
      ∀ ρ : Str → ℝ, (q : ℝ) = ∫ t in (a : ℝ)..b, fnOf ρ v e t := by
  obtain ⟨F, hF, hp, hd⟩ := polynomials_are_integrated hO n k ν bf false h
  obtain ⟨qa, ha, ha'⟩ := subs_poly (O := O) hp (n + 3) a
  obtain ⟨qb, hb, hb'⟩ := subs_poly (O := O) hp (n + 3) b
  refine ⟨qb - qa, ?_, fun ρ => ?_⟩
  · have hs : simplifyE O (n + 8) (rat (qb - qa)) = .ok (rat (qb - qa)) := simplify_poly (v := v) (.inl (.const _)) (n + 4)
    simp only [integrateTop, integrateBounds, hF, boundsValue, ha, hb, opSub, hs, bind, Except.bind, pure, Except.pure]
  · rw [intervalIntegral.integral_eq_sub_of_hasDerivAt (f := fnOf ρ v F) (fun t _ => ?_) ((continuous_poly h ρ).intervalIntegrable _ _), ha', hb']
    · push_cast; ring
    · have := hd (Function.update ρ v t)
      have e1 : fnOf (Function.update ρ v t) v F = fnOf ρ v F := by funext s; simp [fnOf]
      rw [e1] at this
      simpa [fnOf] using this

/-- **C66** every list of rational coefficients, lowest degree first, is written as a polynomial: `c0 + c1 * x + c2 * x ** 2 + ...`,
built with the operators, is a polynomial in the sense of these theorems, and it has the right value. -/
theorem coefficients_make_polynomials (hO : O.Exact) (n : Nat) (cs : List ℚ) :
    ∃ e, polyToExpr O (ctors O (n + 6)) v (cs.map rat) = .ok e ∧ IsPolynomial v e ∧
      ∀ ρ : Str → ℝ, den ρ e = (cs.zipIdx.map fun p => (p.1 : ℝ) * ρ v ^ p.2).sum := by
  obtain ⟨e, h1, h2, h3⟩ := coef_loop (v := v) hO n cs 0 (rat 0) (.inl (.const 0))
  exact ⟨e, h1, h2, fun ρ => by rw [h3]; simp [den]⟩

/-- **C66** sums of polynomials are polynomials: the constructor returns, and the value is the sum. -/
theorem polynomials_are_added (hO : O.Exact) (n : Nat) {a b : Expr} (ha : IsPolynomial v a) (hb : IsPolynomial v b) :
    ∃ S, opAdd (ctors O (n + 6)) a b = .ok S ∧ IsPolynomial v S ∧ ∀ ρ : Str → ℝ, den ρ S = den ρ a + den ρ b :=
  add_poly hO ha hb n

/-! ## Cases -/

/-- `3*x^2 + x - 5` is such a polynomial. -/
example : IsPolynomial ['x'] (sum [prod [rat 3, pow (sym ['x']) (rat 2)], sym ['x'], rat (-5)]) :=
  .inr ⟨_, rfl, by simp, by
    intro t ht
    simp at ht
    rcases ht with rfl | rfl | rfl
    · exact .scaled 3 (by simpa using VarPower.power 2 le_rfl)
    · exact .unit .var
    · exact .const _⟩

section
set_option maxRecDepth 10000

/-- Its integral. -/
example : Node.integrate exactOracle 20 names false 5 true ['x'] (sum [prod [rat 3, pow (sym ['x']) (rat 2)], sym ['x'], rat (-5)]) =
    .ok (some (sum [pow (sym ['x']) (rat 3), prod [rat (1 / 2), pow (sym ['x']) (rat 2)], prod [rat (-5), sym ['x']]])) := by
  decide +kernel

/-- Its integral from 0 to 1. -/
example : integrateTop exactOracle 20 names false 5 (sum [prod [rat 3, pow (sym ['x']) (rat 2)], sym ['x'], rat (-5)])
    (.full ['x'] (rat 0) (rat 1)) = .ok (some (rat (-7 / 2))) := by
  decide +kernel

/-- Its coefficients. -/
example : polyToExpr exactOracle (ctors exactOracle 20) ['x'] [rat (-5), rat 1, rat 3] =
    .ok (sum [prod [rat 3, pow (sym ['x']) (rat 2)], sym ['x'], rat (-5)]) := by
  decide +kernel
end

end Simpy
