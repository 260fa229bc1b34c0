import Verif.Props.Values
import Verif.Props.Canon
import Verif.Props.Poly
import Verif.Props.Simplify
import Verif.Spec.Built

/-!
# Where properties that are proved with side conditions fail

Each theorem is a run of the modelled code on expressions that a user can build and that violates the property.
-/

namespace Simpy
open Expr

section
set_option maxRecDepth 10000

private abbrev a : Expr := sym ['a']
private abbrev b : Expr := sym ['b']
private abbrev x : Expr := sym ['x']
private abbrev y : Expr := sym ['y']
private abbrev z : Expr := sym ['z']

private abbrev x2 : Expr := sum [x, rat 2]

/-- **C10 is false for products with symbolic exponents** `e**(3*(x+2)) * e**(-2*(x+2)) * e**(-x)` is `e**2`; with the last two
factors exchanged it is `e**(x + 2 - x)`. -/
theorem prod_comm_fails : ∃ (ts ts' : List Expr) (r r' : Expr), ts.Perm ts' ∧ (∀ t ∈ ts, Built exactOracle t) ∧
    (∀ (ρ : Str → ℝ), ∀ t ∈ ts, Dom ρ t) ∧
    (ctors exactOracle 30).prod ts = .ok r ∧ (ctors exactOracle 30).prod ts' = .ok r' ∧ r ≠ r' := by
  refine ⟨[pow euler (prod [rat 3, x2]), pow euler (prod [rat (-2), x2]), pow euler (prod [rat (-1), x])],
    [pow euler (prod [rat 3, x2]), pow euler (prod [rat (-1), x]), pow euler (prod [rat (-2), x2])],
    pow euler (rat 2), pow euler (sum [x2, prod [rat (-1), x]]), ?_, ?_, ?_, by decide +kernel, by decide +kernel, by decide⟩
  · decide
  · exact builtL_of_self (by decide +kernel)
  · intro ρ t ht
    simp only [List.mem_cons, List.not_mem_nil, or_false] at ht
    rcases ht with rfl | rfl | rfl <;> simp [Dom, DomS, DomSL, den, HN, (Real.exp_pos 1).le]

/-- **C04 is false outside the principal domain** `(x**2) ** (3/2)` is `x**3`, which is -1 at `x = -1`. -/
theorem operators_value_fails : ∃ (a b r : Expr) (ρ : Str → ℝ), Built exactOracle a ∧ Built exactOracle b ∧ DomR ρ (pow a b) ∧
    opPow exactOracle (ctors exactOracle 30) a b = .ok r ∧ DomR ρ r ∧ den ρ r ≠ pw (den ρ a) (den ρ b) := by
  refine ⟨pow x (rat 2), rat (3 / 2), pow x (rat 3), fun _ => -1, built_of_self (by decide +kernel), .rat _, ?_,
    by decide +kernel, ?_, ?_⟩
  · have e : pw (-1) (2 : ℝ) = 1 := by
      have := pw_int (-1) 2; push_cast at this; rw [this]; norm_num
    simp [DomR, den, intExp, e]
  · simp [DomR, den, intExp]
  · have e2 : pw (-1) (2 : ℝ) = 1 := by
      have := pw_int (-1) 2; push_cast at this; rw [this]; norm_num
    have e3 : pw (-1) (3 : ℝ) = -1 := by
      have := pw_int (-1) 3; push_cast at this; rw [this]; norm_num
    simp only [den]; push_cast
    rw [e2, e3, one_pw]; norm_num

private abbrev lxy : Expr := log (prod [x, y]) euler

private theorem half_not_odd {q : ℚ} (h : (q : ℝ) = 1 / 2) : ¬ Odd q.den := by
  have : q = 1 / 2 := by
    have h' : (q : ℝ) = ((1 / 2 : ℚ) : ℝ) := by rw [h]; norm_num
    exact_mod_cast h'
  subst this
  decide +kernel

/-- **C45 is false outside the principal domain** `e**(ln(x*y)/2 - 2) + 1/e**2` becomes `(sqrt(x)*sqrt(y) + 1)/e**2`, which is
not defined at `x = y = -1`. -/
theorem one_fraction_value_fails : ∃ (e r : Expr) (ρ : Str → ℝ), Built exactOracle e ∧ DomR ρ e ∧
    oneFraction exactOracle (ctors exactOracle 30) true e = .ok (some r) ∧ ¬ DomF ρ r ∧ ¬ DomR ρ r := by
  refine ⟨sum [pow euler (sum [prod [rat (1 / 2), lxy], rat (-2)]), pow euler (rat (-2))],
    prod [pow euler (rat (-2)), sum [prod [pow x (rat (1 / 2)), pow y (rat (1 / 2))], rat 1]], fun _ => -1,
    built_of_self (by decide +kernel), ?_, by decide +kernel, ?_, ?_⟩
  · simp [DomR, DomRL, den, denP, (Real.exp_pos 1).le, Real.exp_pos]
  · simp only [DomF, DomFL, den, not_and]
    rintro - ⟨⟨⟨-, -, -, h | ⟨q, hq, ho⟩⟩, -⟩, -⟩
    · norm_num at h
    · exact absurd ho (half_not_odd (by rw [hq]; norm_num))
  · simp [DomR, DomRL, den, intExp]

private abbrev B1 : Expr := sum [pow z (rat 5), prod [rat (-1), x2]]
private abbrev B2 : Expr := sum [pow z (rat 5), prod [rat (-1), x], rat 2]

private theorem built_B1 : Built exactOracle B1 := by
  refine .sum 30 (ts := [prod [rat 2, x2], pow z (rat 5), prod [rat (-3), x2]]) ?_ (by decide +kernel)
  exact builtL_of_self (by decide +kernel)

/-- **C47 is false in general** The sums `z**5 - (x+2)` (made by `2*(x+2) + z**5 - 3*(x+2)`) and `z**5 - x + 2` have the same
text, so `factor()` of `b*(z**5 - x + 2) + a*(z**5 - (x+2))` takes the latter out of both terms. Where it is 0 the answer is
undefined, and the sum is not. -/
theorem factor_value_fails : ∃ (ts : List Expr) (r : Expr) (ρ : Str → ℝ), Built exactOracle (sum ts) ∧ intPows (sum ts) = true ∧
    Dom ρ (sum ts) ∧ factorSum (ctors exactOracle 30) ts = .ok r ∧ den ρ r ≠ den ρ (sum ts) ∧ ¬ DomF ρ r := by
  refine ⟨[prod [b, B2], prod [a, B1]], prod [B2, sum [prod [a, B1, pow B2 (rat (-1))], b]],
    fun s => if s = ['x'] then 2 else if s = ['a'] then 1 else 0, ?_, by decide +kernel, ?_, by decide +kernel, ?_, ?_⟩
  · have h2 : Built exactOracle B2 := built_of_self (by decide +kernel)
    have p1 : Built exactOracle (prod [a, B1]) := .prod 30 (ts := [a, B1])
      (by simp only [List.mem_cons, List.not_mem_nil, or_false]; rintro t (rfl | rfl); exacts [.sym _, built_B1]) (by decide +kernel)
    have p2 : Built exactOracle (prod [b, B2]) := .prod 30 (ts := [b, B2])
      (by simp only [List.mem_cons, List.not_mem_nil, or_false]; rintro t (rfl | rfl); exacts [.sym _, h2]) (by decide +kernel)
    exact .sum 30 (ts := [prod [b, B2], prod [a, B1]])
      (by simp only [List.mem_cons, List.not_mem_nil, or_false]; rintro t (rfl | rfl); exacts [p2, p1]) (by decide +kernel)
  · simp [Dom, DomS, DomSL, den, intExp, HN]
  · have e5 : pw 0 (5 : ℝ) = 0 := by
      have := pw_int 0 5; push_cast at this; rw [this]; norm_num
    simp [den, denS, denP, e5]
    norm_num
  · have e5 : pw 0 (5 : ℝ) = 0 := by
      have := pw_int 0 5; push_cast at this; rw [this]; norm_num
    simp [DomF, DomFL, den, denS, denP, e5]

private abbrev twice : Expr := pow (sum [prod [x, pow (trig .sin y) (rat (-1))], prod [x, trig .csc y]]) (rat (1 / 2))

private theorem dom_twice : Dom (fun s => if s = ['x'] then -1 else -(Real.pi / 2)) twice := by
  simp [Dom, DomS, DomSL, den, denS, denP, intExp, HN, TrigFn.ok, TrigFn.real]

/-- **C49 is false in general** `sqrt(x/sin(y) + x*csc(y))` becomes `sqrt(2)*sqrt(x)*sqrt(csc(y))`, which is not defined at
`x = -1`, `y = -pi/2`, where the former is `sqrt(2)`. -/
theorem reciprocate_trigs_value_fails : ∃ (e r : Expr) (ρ : Str → ℝ), Built exactOracle e ∧ Dom ρ e ∧
    reciprocateTrigs exactOracle 30 e = .ok r ∧ ¬ DomF ρ r := by
  refine ⟨twice, prod [pow (rat 2) (rat (1 / 2)), pow x (rat (1 / 2)), pow (trig .csc y) (rat (1 / 2))], _,
    built_of_self (by decide +kernel), dom_twice, by decide +kernel, ?_⟩
  simp only [DomF, DomFL, den, not_and]
  rintro - ⟨-, -, -, h | ⟨q, hq, ho⟩⟩
  · norm_num at h
  · exact absurd ho (half_not_odd (by rw [hq]; norm_num))

/-- The same for the rewriting into sines and cosines. -/
theorem to_sin_cos_value_fails : ∃ (e r : Expr) (ρ : Str → ℝ), Built exactOracle e ∧ Dom ρ e ∧
    replaceClass exactOracle (toSinCos exactOracle) 30 e = .ok r ∧ ¬ DomF ρ r := by
  refine ⟨twice, prod [pow (rat 2) (rat (1 / 2)), pow x (rat (1 / 2)), pow (trig .sin y) (rat (-1 / 2))], _,
    built_of_self (by decide +kernel), dom_twice, by decide +kernel, ?_⟩
  simp only [DomF, DomFL, den, not_and]
  rintro - ⟨-, -, -, h | ⟨q, hq, ho⟩⟩
  · norm_num at h
  · exact absurd ho (half_not_odd (by rw [hq]; norm_num))

end
end Simpy
