import Verif.Proofs.ReprReads
import Verif.Proofs.ClearPoly
import Verif.Proofs.ExactOracle
import Verif.Proofs.Check

/-!
# C67: what `repr` prints says what the expression is

`(ctors O n).repr e` is `repr(e)` with `n` stack levels left; `read s` is what the text `s` says in ordinary notation
(`Verif.Spec.Read`, which does not depend on how expressions are printed).
-/

namespace Simpy
open Expr

variable {O : Oracle}

/-- **C67 (part)** If nothing is printed without parentheses at a place where it needs them (`clear`), the text that `repr` returns
can be read in ordinary notation and what it says has the value of the expression, wherever the expression is defined.

Missing from the full property: expressions that are not `clear`, for which it is false (see below). -/
theorem repr_reads_partial (hO : O.Exact) {n : Nat} {e : Expr} {s : Str} {ρ : Str → ℝ} (he : Built O e) (hd : Dom ρ e)
    (hg : ∀ x ∈ syms e, goodName x = true) (hc : clear O n e = true) (h : (ctors O n).repr e = .ok s) :
    ∃ T, read s = some T ∧ T.val ρ = den ρ e := by
  obtain ⟨T, h1, h2⟩ := back hO n (wf_kid (he.wf hO)) (fun _ => he.wf hO) hd hg hc h
  exact ⟨T, h1.rsum.whole, h2⟩

/-- **C67 (part)** Two expressions that are printed alike have the same value wherever both are defined. -/
theorem same_text_same_value_partial (hO : O.Exact) {n m : Nat} {a b : Expr} {s : Str} {ρ : Str → ℝ} (ha : Built O a) (hb : Built O b)
    (da : Dom ρ a) (db : Dom ρ b) (ga : ∀ x ∈ syms a, goodName x = true) (gb : ∀ x ∈ syms b, goodName x = true)
    (ca : clear O n a = true) (cb : clear O m b = true) (hs : (ctors O n).repr a = .ok s) (ht : (ctors O m).repr b = .ok s) :
    den ρ a = den ρ b := by
  obtain ⟨T, h1, h2⟩ := repr_reads_partial hO ha da ga ca hs
  obtain ⟨T', h3, h4⟩ := repr_reads_partial hO hb db gb cb ht
  rw [h1] at h3; cases h3
  rw [← h2, h4]

/-- **C67 for polynomials** A polynomial with rational coefficients is always printed, and the text reads as its value. -/
theorem polynomials_read (hO : O.Exact) {v : Str} {e : Expr} (he : Built O e) (hp : IsPolynomial v e) (hv : goodName v = true) (n : Nat) :
    ∃ s T, (ctors O (n + 6)).repr e = .ok s ∧ read s = some T ∧ ∀ ρ, T.val ρ = den ρ e := by
  obtain ⟨hc, s, hs⟩ := clear_poly (O := O) hp n
  have hg : ∀ x ∈ syms e, goodName x = true := fun x hx => by rw [syms_of_poly hp x hx]; exact hv
  obtain ⟨T, h1, _⟩ := repr_reads_partial (ρ := fun _ => 0) hO he (dom_poly hp) hg hc hs
  refine ⟨s, T, hs, h1, fun ρ => ?_⟩
  obtain ⟨T', h3, h4⟩ := repr_reads_partial (ρ := ρ) hO he (dom_poly hp) hg hc hs
  rw [h1] at h3; cases h3
  exact h4

/-- **C67 for polynomials** Two polynomials that are printed alike are equal as functions. -/
theorem polynomial_texts (hO : O.Exact) {v w : Str} {a b : Expr} (ha : Built O a) (hb : Built O b) (pa : IsPolynomial v a)
    (pb : IsPolynomial w b) (hv : goodName v = true) (hw : goodName w = true) (n : Nat)
    (h : (ctors O (n + 6)).repr a = (ctors O (n + 6)).repr b) : ∀ ρ, den ρ a = den ρ b := by
  obtain ⟨s, T, h1, h2, h3⟩ := polynomials_read hO ha pa hv n
  obtain ⟨s', T', h1', h2', h3'⟩ := polynomials_read hO hb pb hw n
  rw [h1, h1'] at h; cases h
  rw [h2] at h2'; cases h2'
  exact fun ρ => by rw [← h3, h3']

section
set_option maxRecDepth 10000
private abbrev x : Expr := sym ['x']
private abbrev y : Expr := sym ['y']
private abbrev z : Expr := sym ['z']

/-- A quotient of products with a difference, a root, a logarithm and a power in it. -/
private abbrev big : Expr :=
  sum [prod [rat (3 / 2), pow (trig .sin x) (rat (-1)), pow (sum [x, prod [rat (-1), y]]) (rat 2)],
    prod [rat (-1), log (absv x) euler], pow y (rat (1 / 2))]

example : Built exactOracle big := built_of_self (by decide +kernel)
example : (syms big).all goodName = true ∧ clear exactOracle 30 big = true ∧
    (ctors exactOracle 30).repr big = .ok "3*(x - y)^2/(2*sin(x)) - ln(|x|) + sqrt(y)".toList := by
  refine ⟨by decide +kernel, by decide +kernel, by decide +kernel⟩

private abbrev poly : Expr := sum [prod [rat (-3 / 4), pow x (rat (3 : ℕ))], x, rat (-1 / 2)]
example : Built exactOracle poly := built_of_self (by decide +kernel)
example : IsPolynomial ['x'] poly := .inr ⟨_, rfl, by simp, by
  intro t ht
  simp only [List.mem_cons, List.not_mem_nil, or_false] at ht
  rcases ht with rfl | rfl | rfl
  · exact .scaled _ (.power 3 (by omega))
  · exact .unit .var
  · exact .const _⟩
example : goodName ['x'] = true ∧ (ctors exactOracle 30).repr poly = .ok "-3*x^3/4 + x - 1/2".toList := by decide +kernel

/-- The reader does what it should. -/
example : read "3*(x - y)^2/(2*sin(x)) - ln(|x|) + sqrt(y)".toList = some (.add (.sub
    (.div (.mul (.num 3) (.pow (.sub (.name ['x']) (.name ['y'])) (.num 2))) (.mul (.num 2) (.fn "sin".toList (.name ['x']))))
    (.fn "ln".toList (.bars (.name ['x'])))) (.fn "sqrt".toList (.name ['y']))) := by decide +kernel

example : read "-x^2^y/z*2".toList = some (.neg (.mul (.div (.pow (.name ['x']) (.pow (.num 2) (.name ['y']))) (.name ['z'])) (.num 2))) ∧
    read "x +".toList = none ∧ read "sin x".toList = none ∧ read "(x".toList = none := by decide +kernel

/-- **C67 is false in general** `x ** (1 / y)` is printed as `x^1/y`, which says `x` divided by `y`. -/
theorem repr_reads_fails : ∃ (e : Expr) (s : Str) (T : Reading) (ρ : Str → ℝ), Built exactOracle e ∧ Dom ρ e ∧
    (∀ x ∈ syms e, goodName x = true) ∧ (ctors exactOracle 30).repr e = .ok s ∧ read s = some T ∧ T.val ρ ≠ den ρ e := by
  refine ⟨pow x (pow y (rat (-1))), "x^1/y".toList, .div (.pow (.name ['x']) (.num 1)) (.name ['y']),
    fun s => if s = ['y'] then 2 else 1, built_of_self (by decide +kernel), ?_, by decide +kernel, by decide +kernel,
    by decide +kernel, ?_⟩
  · simp [Dom, DomS, den, intExp, HN]
  · simp [Reading.val, den]

/-- `sin((x + y) * (x + z))` is printed without the parentheses of `sin`. -/
theorem repr_reads_fails_sin : ∃ (e : Expr) (s : Str) (T : Reading) (ρ : Str → ℝ), Built exactOracle e ∧ Dom ρ e ∧
    (∀ x ∈ syms e, goodName x = true) ∧ (ctors exactOracle 30).repr e = .ok s ∧ read s = some T ∧ T.val ρ ≠ den ρ e := by
  refine ⟨trig .sin (prod [sum [y, x], sum [z, x]]), "sin(y + x)*(z + x)".toList,
    .mul (.fn "sin".toList (.add (.name ['y']) (.name ['x']))) (.add (.name ['z']) (.name ['x'])),
    fun s => if s = ['y'] then Real.pi else if s = ['z'] then 1 / 2 else 0, built_of_self (by decide +kernel), ?_, by decide +kernel,
    by decide +kernel, by decide +kernel, ?_⟩
  · simp [Dom, DomS, DomSL, TrigFn.ok]
  · have : Real.pi * 2⁻¹ = Real.pi / 2 := by ring
    simp [Reading.val, den, denP, denS, fnVal, TrigFn.real, this]

/-- `2*(x + 2) + z**5 - 3*(x + 2)` is printed as `z^5 - x + 2`. -/
theorem repr_reads_fails_minus : ∃ (e : Expr) (s : Str) (T : Reading) (ρ : Str → ℝ), Built exactOracle e ∧ Dom ρ e ∧
    (∀ x ∈ syms e, goodName x = true) ∧ (ctors exactOracle 30).repr e = .ok s ∧ read s = some T ∧ T.val ρ ≠ den ρ e := by
  refine ⟨sum [pow z (rat 5), prod [rat (-1), sum [x, rat 2]]], "z^5 - x + 2".toList,
    .add (.sub (.pow (.name ['z']) (.num 5)) (.name ['x'])) (.num 2), fun _ => 0, ?_, ?_, by decide +kernel, by decide +kernel,
    by decide +kernel, ?_⟩
  · refine .sum 30 (ts := [prod [rat 2, sum [x, rat 2]], pow z (rat 5), prod [rat (-3), sum [x, rat 2]]]) ?_ (by decide +kernel)
    intro t ht
    simp only [List.mem_cons, List.not_mem_nil, or_false] at ht
    rcases ht with rfl | rfl | rfl <;> exact built_of_self (by decide +kernel)
  · simp [Dom, DomS, DomSL, den, intExp, HN]
  · simp [Reading.val, den, denP, denS]
    norm_num

/-- The first with two numbers: `2 ** (1 / sqrt(2))` is printed as `2^1/sqrt(2)`. -/
example : (ctors exactOracle 30).repr (pow (rat 2) (pow (pow (rat 2) (rat (1 / 2))) (rat (-1)))) = .ok "2^1/sqrt(2)".toList := by
  decide +kernel

end
end Simpy
