import Verif.Proofs.LinRun
import Verif.Proofs.ExactOracle
import Verif.Proofs.TotalEval
import Verif.Proofs.NodeEq
import Verif.Props.Definite
import Verif.Props.Scope

/-!
# C72: linear combinations of table functions are always integrated

C66 for more integrands: sums of rational multiples of powers of the variable with any rational exponent (so also `1/x` and
`sqrt(x)`), and of `e^L`, `sin(L)` and `cos(L)` with `L = a*x + b`, which may be different for every term. The answer is found whatever the strategy, the time limit and the random names,
and it is right at every regular point.

Sines and cosines together with negative powers are left out (`Separate`): `simplify` puts such a sum over one denominator.
-/

namespace Simpy
open Expr

variable {O : Oracle} {v : Str} {e : Expr}

/-- **C72** `integrate` of a linear combination of table functions returns an antiderivative. -/
theorem combinations_are_integrated (hO : O.Exact) (n k : Nat) (ν : Supply) (bf final : Bool) (hv : v ≠ [])
    (h : IsCombination v e) (hs : Separate e) : ∃ F, Node.integrate O (n + 15) ν bf k final v e = .ok (some F) ∧
      ∀ ρ : Str → ℝ, Regular ρ e → Regular ρ F ∧ HasDerivAt (fnOf ρ v F) (den ρ e) (ρ v) := by
  obtain ⟨P, hc, hp⟩ := Lin.pcomb_of h hs
  have hsimp : (∀ u, TableFn v u ∧ P u → Lin.NoTrig u) ∨ ∀ u, TableFn v u ∧ P u → Lin.NoRecip u :=
    hc.simp.imp (fun h u hu => h u hu.2) (fun h u hu => h u hu.2)
  obtain ⟨e', hs1, hp', hsame⟩ := Lin.simplify_comb hO hv hsimp hp n
  obtain ⟨t0, t1, F, l, h1, h2, h3, h4, h5, h6, h7, h8⟩ := Lin.Tree.run_comb (ν := ν) hO hv hc hp' (n + 4) false
  obtain ⟨G, hs2, hpG, hsame2⟩ := Lin.simplify_comb hO hv hc.simp h7 n
  have hcy : Node.cycle O (n + 15) ν bf t0 [] = .ok (t1, .solved) := by
    simp only [Node.cycle, Node.at?, h2, bind, Except.bind, Node.replaceAt, h5, pure, Except.pure]
  have hl : Node.searchLoop O (n + 15) ν bf k t0 [] = .ok t1 := by
    cases k with
    | zero => simp only [Node.searchLoop, hcy, bind, Except.bind, pure, Except.pure]
    | succ k => simp [Node.searchLoop, hcy, bind, Except.bind, pure, Except.pure, Node.isFinished, h3]
  have hsr : Node.search O (n + 15) ν bf k v e = .ok t1 := by
    simp only [Node.search, Node.startTree, hs1, bind, Except.bind, h1]
    exact hl
  have sol : ∀ ρ : Str → ℝ, Regular ρ e → SolAt ρ v F (den ρ e) := by
    intro ρ d
    obtain ⟨d', hv'⟩ := hsame.2 ρ d
    rw [← hv']
    exact h8 ρ d'
  refine ⟨if final then G else F, ?_, fun ρ d => ?_⟩
  · simp only [Node.integrate, hsr, bind, Except.bind, h3, Bool.not_true, Bool.false_eq_true, if_false, h6, hs2, pure, Except.pure]
    cases final <;> rfl
  · have : SolAt ρ v (if final then G else F) (den ρ e) := by
      cases final
      · exact sol ρ d
      · exact Lin.sol_same (sol ρ d) hsame2
    exact ⟨this.reg, this.deriv⟩

/-- **C72** the same without heuristics (the integration that integration by parts relies on). -/
theorem combinations_need_no_heuristics (hO : O.Exact) (n : Nat) (ν : Supply) (hv : v ≠ [])
    (h : IsCombination v e) (hs : Separate e) : ∃ F, Node.withoutHeuristics O (n + 15) ν v e = .ok (some F) ∧
      ∀ ρ : Str → ℝ, Regular ρ e → Regular ρ F ∧ HasDerivAt (fnOf ρ v F) (den ρ e) (ρ v) := by
  obtain ⟨P, hc, hp⟩ := Lin.pcomb_of h hs
  obtain ⟨t0, t1, F, l, h1, h2, h3, h4, h5, h6, h7, h8⟩ := Lin.Tree.run_comb (ν := ν) hO hv hc hp (n + 4) true
  refine ⟨F, ?_, fun ρ d => ⟨(h8 ρ d).reg, (h8 ρ d).deriv⟩⟩
  simp only [Node.withoutHeuristics, h1, h2, h4, h6, bind, Except.bind, pure, Except.pure, Bool.false_eq_true, if_false]

/-- **C72** through the public function, with the variable given. -/
theorem combinations_are_integrated_var (hO : O.Exact) (n k : Nat) (ν : Supply) (bf : Bool) (hv : v ≠ [])
    (h : IsCombination v e) (hs : Separate e) : ∃ F, integrateTop O (n + 15) ν bf k e (.var v) = .ok (some F) ∧
      ∀ ρ : Str → ℝ, Regular ρ e → Regular ρ F ∧ HasDerivAt (fnOf ρ v F) (den ρ e) (ρ v) :=
  combinations_are_integrated hO n k ν bf true hv h hs

/-- **C72** without a variable given, if the integrand is not a constant. -/
theorem combinations_are_integrated_nothing (hO : O.Exact) (n k : Nat) (ν : Supply) (bf : Bool) (hv : v ≠ [])
    (h : IsCombination v e) (hs : Separate e) (hm : v ∈ syms e) : ∃ F, integrateTop O (n + 15) ν bf k e .nothing = .ok (some F) ∧
      ∀ ρ : Str → ℝ, Regular ρ e → Regular ρ F ∧ HasDerivAt (fnOf ρ v F) (den ρ e) (ρ v) := by
  obtain ⟨F, h1, h2⟩ := combinations_are_integrated hO n k ν bf true hv h hs
  refine ⟨F, ?_, h2⟩
  simp only [integrateTop, Lin.defaultVar_comb h hm, bind, Except.bind, h1]

/-! ## Cases -/

/-- `3*sqrt(x) - 2/x + e^x`. -/
def combA : Expr := sum [prod [rat 3, pow (sym ['x']) (rat (1 / 2))], prod [rat (-2), pow (sym ['x']) (rat (-1))], pow euler (sym ['x'])]

/-- `x^2/2 - sin(x) + 5*cos(x) + 1`. -/
def combB : Expr := sum [prod [rat (1 / 2), pow (sym ['x']) (rat 2)], prod [rat (-1), trig .sin (sym ['x'])],
  prod [rat 5, trig .cos (sym ['x'])], rat 1]

/-- `2*e^(3*x) - sin(2*x + 1) + cos(1 - x/2)/3 + x`. -/
def combC : Expr := sum [prod [rat 2, pow euler (prod [rat 3, sym ['x']])], prod [rat (-1), trig .sin (sum [prod [rat 2, sym ['x']], rat 1])],
  prod [rat (1 / 3), trig .cos (sum [prod [rat (-1 / 2), sym ['x']], rat 1])], sym ['x']]

example : IsCombination ['x'] combA ∧ Separate combA := by
  refine ⟨.inr ⟨_, rfl, by simp, ?_⟩, .inl rfl⟩
  intro t ht
  simp at ht
  rcases ht with rfl | rfl | rfl
  · exact .scaled 3 (.power _ (by norm_num) (by norm_num))
  · exact .scaled _ (.power _ (by norm_num) (by norm_num))
  · exact .unit (.exp .var)

example : IsCombination ['x'] combB ∧ Separate combB := by
  refine ⟨.inr ⟨_, rfl, by simp, ?_⟩, .inr ?_⟩
  · intro t ht
    simp at ht
    rcases ht with rfl | rfl | rfl | rfl
    · exact .scaled _ (.power _ (by norm_num) (by norm_num))
    · exact .scaled _ (.sin .var rfl)
    · exact .scaled _ (.cos .var rfl)
    · exact .const _
  · decide +kernel

example : IsCombination ['x'] combC ∧ Separate combC := by
  refine ⟨.inr ⟨_, rfl, by simp, ?_⟩, .inr ?_⟩
  · intro t ht
    simp at ht
    rcases ht with rfl | rfl | rfl | rfl
    · exact .scaled _ (.exp (.times 3 (by norm_num) (by norm_num)))
    · exact .scaled _ (.sin (.both 2 1 (by norm_num) (by norm_num) (by norm_num)) (by decide +kernel))
    · exact .scaled _ (.cos (.both (-1 / 2) 1 (by norm_num) (by norm_num) (by norm_num)) (by decide +kernel))
    · exact .unit .var
  · decide +kernel

/-- The points to the right of 0 are regular for the first, and all points for the others. -/
example (ρ : Str → ℝ) (h : 0 < ρ ['x']) : Regular ρ combA := by
  have : ¬ ρ ['x'] = 0 := h.ne'
  simp [Regular, combA, DomS, DomSL, den, intExp, HN, h.le, this, (Real.exp_pos 1).le]

example (ρ : Str → ℝ) : Regular ρ combB := by
  simp [Regular, combB, DomS, DomSL, den, intExp, TrigFn.ok, TrigFn.inner]

example (ρ : Str → ℝ) : Regular ρ combC := by
  simp [Regular, combC, DomS, DomSL, den, intExp, HN, TrigFn.ok, TrigFn.inner, (Real.exp_pos 1).le]

section
set_option maxRecDepth 10000

/-- Their integrals. -/
example : Node.integrate exactOracle 20 names false 5 true ['x'] combA =
    .ok (some (sum [prod [rat (-2), log (absv (sym ['x'])) euler], prod [rat 2, pow (sym ['x']) (rat (3 / 2))], pow euler (sym ['x'])])) := by
  decide +kernel

example : Node.integrate exactOracle 20 names false 5 true ['x'] combB =
    .ok (some (sum [prod [rat (1 / 6), pow (sym ['x']) (rat 3)], trig .cos (sym ['x']), prod [rat 5, trig .sin (sym ['x'])], sym ['x']])) := by
  decide +kernel

example : Node.integrate exactOracle 25 names false 5 true ['x'] combC =
    .ok (some (sum [prod [rat (1 / 2), trig .cos (sum [prod [rat 2, sym ['x']], rat 1])],
      prod [rat (-2 / 3), trig .sin (sum [prod [rat (-1 / 2), sym ['x']], rat 1])], prod [rat (1 / 2), pow (sym ['x']) (rat 2)],
      prod [rat (2 / 3), pow euler (prod [rat 3, sym ['x']])]])) := by
  decide +kernel
end

end Simpy
