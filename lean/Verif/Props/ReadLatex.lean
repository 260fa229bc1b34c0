import Verif.Proofs.LatexReads
import Verif.Proofs.TexPoly
import Verif.Proofs.ExactOracle
import Verif.Proofs.Check

/-!
# C69: what `latex` prints says what the expression is

`latexE O n e` is `e.latex()` with `n` stack levels left; `readTex s` is what the formula `s` says (`Verif.Spec.ReadLatex`, which does
not depend on how expressions are printed).
-/

namespace Simpy
open Expr

variable {O : Oracle}

/-- **C69 (part)** If no sum is printed directly after a minus sign (`texClear`), the formula that `latex` returns can be read, and
what it says has the value of the expression, wherever the expression is defined.

Missing from the full property: expressions that are not `texClear`, for which it is false (see below). -/
theorem latex_reads_partial (hO : O.Exact) {n : Nat} {e : Expr} {s : Str} {ρ : Str → ℝ} (he : Built O e) (hd : Dom ρ e)
    (hg : ∀ x ∈ syms e, goodTexName x = true) (hc : texClear O n e = true) (h : latexE O n e = .ok s) :
    ∃ T, readTex s = some T ∧ T.val ρ = den ρ e := by
  obtain ⟨T, h1, h2⟩ := Tex.back hO n (wf_kid (he.wf hO)) (fun _ => he.wf hO) hd hg hc h
  exact ⟨T, h1.rsum.whole, h2⟩

/-- **C69 (part)** Two expressions that have the same LaTeX have the same value wherever both are defined. -/
theorem same_latex_same_value_partial (hO : O.Exact) {n m : Nat} {a b : Expr} {s : Str} {ρ : Str → ℝ} (ha : Built O a) (hb : Built O b)
    (da : Dom ρ a) (db : Dom ρ b) (ga : ∀ x ∈ syms a, goodTexName x = true) (gb : ∀ x ∈ syms b, goodTexName x = true)
    (ca : texClear O n a = true) (cb : texClear O m b = true) (hs : latexE O n a = .ok s) (ht : latexE O m b = .ok s) :
    den ρ a = den ρ b := by
  obtain ⟨T, h1, h2⟩ := latex_reads_partial hO ha da ga ca hs
  obtain ⟨T', h3, h4⟩ := latex_reads_partial hO hb db gb cb ht
  rw [h1] at h3; cases h3
  rw [← h2, h4]

/-- **C69 for polynomials** A polynomial with rational coefficients always has a LaTeX form, and that reads as its value. -/
theorem polynomials_read_latex (hO : O.Exact) {v : Str} {e : Expr} (he : Built O e) (hp : IsPolynomial v e) (hv : goodTexName v = true)
    (n : Nat) : ∃ s T, latexE O (n + 6) e = .ok s ∧ readTex s = some T ∧ ∀ ρ, T.val ρ = den ρ e := by
  obtain ⟨hc, s, hs⟩ := Tex.clear_poly (O := O) hp n
  have hg : ∀ x ∈ syms e, goodTexName x = true := fun x hx => by rw [syms_of_poly hp x hx]; exact hv
  obtain ⟨T, h1, _⟩ := latex_reads_partial (ρ := fun _ => 0) hO he (dom_poly hp) hg hc hs
  refine ⟨s, T, hs, h1, fun ρ => ?_⟩
  obtain ⟨T', h3, h4⟩ := latex_reads_partial (ρ := ρ) hO he (dom_poly hp) hg hc hs
  rw [h1] at h3; cases h3
  exact h4

/-- **C69 for polynomials** Two polynomials that have the same LaTeX are equal as functions. -/
theorem polynomial_latex (hO : O.Exact) {v w : Str} {a b : Expr} (ha : Built O a) (hb : Built O b) (pa : IsPolynomial v a)
    (pb : IsPolynomial w b) (hv : goodTexName v = true) (hw : goodTexName w = true) (n : Nat)
    (h : latexE O (n + 6) a = latexE O (n + 6) b) : ∀ ρ, den ρ a = den ρ b := by
  obtain ⟨s, T, h1, h2, h3⟩ := polynomials_read_latex hO ha pa hv n
  obtain ⟨s', T', h1', h2', h3'⟩ := polynomials_read_latex hO hb pb hw n
  rw [h1, h1'] at h; cases h
  rw [h2] at h2'; cases h2'
  exact fun ρ => by rw [← h3, h3']

section
set_option maxRecDepth 10000
private abbrev x : Expr := sym ['x']
private abbrev y : Expr := sym ['y']
private abbrev z : Expr := sym ['z']

/-- A quotient of products with a difference, a root, a logarithm, an inverse function and a power in it. -/
private abbrev big : Expr :=
  sum [prod [rat (3 / 2), pow (trig .sin x) (rat (-1)), pow (sum [x, prod [rat (-1), y]]) (rat 2)],
    prod [rat (-1), log (absv x) euler], pow (trig .asin x) (rat (-1 / 2)), pow y (rat (1 / 2))]

example : Built exactOracle big := built_of_self (by decide +kernel)
example : (syms big).all goodTexName = true ∧ texClear exactOracle 30 big = true ∧ latexE exactOracle 30 big =
    .ok "\\frac {3 \\cdot (x - y)^2}{2 \\cdot \\sin (x)} - \\ln (|x|) + {\\sqrt{\\sin^{-1} (x)}}^{-1} + \\sqrt{y}".toList := by
  refine ⟨by decide +kernel, by decide +kernel, by decide +kernel⟩

/-- `\left` and `\right` where there is a power. -/
example : texClear exactOracle 30 (trig .cos (sum [pow x (rat 2), rat 1])) = true ∧
    latexE exactOracle 30 (trig .cos (sum [pow x (rat 2), rat 1])) = .ok "\\cos \\left( x^2 + 1 \\right)".toList := by decide +kernel

/-- `x ** (1 / y)`, which `repr` does not print right (`repr_reads_fails`), is all right in LaTeX. -/
example : texClear exactOracle 30 (pow x (pow y (rat (-1)))) = true ∧
    latexE exactOracle 30 (pow x (pow y (rat (-1)))) = .ok "x^{y^{-1}}".toList := by decide +kernel

private abbrev poly : Expr := sum [prod [rat (-3 / 4), pow x (rat (13 : ℕ))], x, rat (-1 / 2)]
example : Built exactOracle poly := built_of_self (by decide +kernel)
example : IsPolynomial ['x'] poly := .inr ⟨_, rfl, by simp, by
  intro t ht
  simp only [List.mem_cons, List.not_mem_nil, or_false] at ht
  rcases ht with rfl | rfl | rfl
  · exact .scaled _ (.power 13 (by omega))
  · exact .unit .var
  · exact .const _⟩
example : goodTexName ['x'] = true ∧ latexE exactOracle 30 poly = .ok "-\\frac {3 \\cdot x^{13}}4 + x - \\frac 12".toList := by decide +kernel

/-- The reader does what it should. -/
example : readTex "\\frac 3{2 \\cdot \\sin (x)^2} - \\ln \\left| x^{12} \\right|".toList = some (.sub
    (.div (.num 3) (.mul (.num 2) (.pow (.fn "sin".toList (.name ['x'])) (.num 2))))
    (.fn "ln".toList (.bars (.pow (.name ['x']) (.num 12))))) := by decide +kernel

example : readTex "-\\tan^{-1} x + \\log_2 {x + 1}^y".toList = some (.add (.neg (.fn "atan".toList (.name ['x'])))
      (.pow (.logBase (.num 2) (.add (.name ['x']) (.num 1))) (.name ['y']))) ∧
    readTex "x^2^3".toList = none ∧ readTex "x^23".toList = none ∧ readTex "\\frac xyz".toList = none ∧ readTex "x +".toList = none ∧
    readTex "\\left( x )".toList = none ∧ readTex "\\sec^{-1} x".toList = none := by decide +kernel

/-- **C69 is false in general** `2*(x + 2) + z**5 - 3*(x + 2)` is printed as `z^5 - x + 2`: there should be parentheses. -/
theorem latex_reads_fails : ∃ (e : Expr) (s : Str) (T : Reading) (ρ : Str → ℝ), Built exactOracle e ∧ Dom ρ e ∧
    (∀ x ∈ syms e, goodTexName x = true) ∧ latexE exactOracle 30 e = .ok s ∧ readTex s = some T ∧ T.val ρ ≠ den ρ e := by
  refine ⟨sum [pow z (rat 5), prod [rat (-1), sum [x, rat 2]]], "z^5 - x + 2".toList,
    .add (.sub (.pow (.name ['z']) (.num 5)) (.name ['x'])) (.num 2), fun _ => 0, ?_, ?_, by decide +kernel, by decide +kernel,
    by decide +kernel, ?_⟩
  · refine .sum 30 (ts := [prod [rat 2, sum [x, rat 2]], pow z (rat 5), prod [rat (-3), sum [x, rat 2]]]) ?_ (by decide +kernel)
    intro t ht
    simp only [List.mem_cons, List.not_mem_nil, or_false] at ht
    rcases ht with rfl | rfl | rfl <;> exact built_of_self (by decide +kernel)
  · simp [Dom, DomS, DomSL, den, intExp, HN]
  · simp [Reading.val, den, denP, denS]
    norm_num

end
end Simpy
