import Verif.Proofs.NFSimp
import Verif.Proofs.NFTex
import Verif.Props.Read
import Verif.Props.ReadLatex
import Verif.Proofs.ExactOracle
import Verif.Proofs.Check

/-!
# C78, C79, C80: `expand` multiplies polynomials out, the result does not depend on how the polynomial was written; `simplify`

`expandableE O n e` is `e.expandable()` and `expandE O n e` is `e.expand()` with `n` stack levels left.
-/

namespace Simpy
open Expr

variable {O : Oracle}

/-- `r` is what a user gets who multiplies `e` out: `e.expand()` if `e.expandable()`, and `e` itself otherwise. -/
def Expanded (O : Oracle) (n : Nat) (e r : Expr) : Prop :=
  (expandableE O n e = .ok true ∧ expandE O n e = .ok r) ∨ (expandableE O n e = .ok false ∧ r = e)

theorem expanded_iff {n : Nat} {e r : Expr} : Expanded O n e r ↔ expandOr (expandableE O n) (expandE O n) e = .ok r := by
  unfold Expanded expandOr
  cases h : expandableE O n e with
  | error x => simp [bind, Except.bind]
  | ok b => cases b <;> simp [bind, Except.bind, pure, Except.pure, eq_comm]

theorem expanded_normal (hO : O.Exact) {e r : Expr} (he : PolyExpr O e) {n : Nat} (h : Expanded O n e r) : r = NF.polyE O (toMv e) := by
  have up : ∀ k, Expanded O (n + k) e r := by
    intro k
    induction k with
    | zero => exact h
    | succ k ih =>
      rcases ih with ⟨h1, h2⟩ | ⟨h1, h2⟩
      · exact .inl ⟨expandableE_le_succ O _ e _ h1, expandE_le_succ O _ e _ h2⟩
      · exact .inr ⟨expandableE_le_succ O _ e _ h1, h2⟩
  have := expanded_iff.1 (up (height e + 8))
  rw [NF.expand_poly hO he (by omega)] at this
  exact (Except.ok.inj this).symm

/-- **C78** Expanding a polynomial expression returns (as soon as the stack is deep enough for the expression), and what it returns is
multiplied out — a number, a power product of symbols with or without a number in front, or a sum of such terms, no two of them alike —
has the same value everywhere, and is not expandable any more. Not covered: polynomials with a sum directly inside a sum, or with an odd
power of something whose coefficients are all negative; see `expand_nested_fails` and `expand_negative_fails`. -/
theorem expand_multiplies_out_partial (hO : O.Exact) {e : Expr} (he : PolyExpr O e) {n : Nat} (hn : height e + 8 ≤ n) :
    ∃ r, Expanded O n e r ∧ MultipliedOut O r ∧ (∀ ρ, den ρ r = den ρ e) ∧ expandableE O n r = .ok false := by
  refine ⟨NF.polyE O (toMv e), expanded_iff.2 (NF.expand_poly hO he hn), NF.out_polyE hO _, fun ρ => ?_, ?_⟩
  · rw [NF.ev_polyE, NF.den_toMv ρ he]
  · obtain ⟨n, rfl⟩ : ∃ m, n = m + 4 := ⟨n - 4, by omega⟩
    exact NF.able_polyE n _

/-- **C79** Two polynomial expressions have the same values exactly if expanding them returns the same expression, with the same terms in
the same order, however they were written and however deep the stack was. -/
theorem expand_canonical_partial (hO : O.Exact) {e e' r r' : Expr} (he : PolyExpr O e) (he' : PolyExpr O e') {n n' : Nat}
    (h : Expanded O n e r) (h' : Expanded O n' e' r') : (∀ ρ, den ρ e = den ρ e') ↔ r = r' := by
  rw [expanded_normal hO he h, expanded_normal hO he' h']
  constructor
  · intro hd
    have : toMv e = toMv e' := NF.ev_inj fun ρ => by rw [← NF.den_toMv ρ he, ← NF.den_toMv ρ he', hd ρ]
    rw [this]
  · intro hr ρ
    rw [NF.den_toMv ρ he, NF.den_toMv ρ he', ← NF.ev_polyE (O := O), ← NF.ev_polyE (O := O), hr]

/-- **C79**, for 0: a polynomial expression is 0 everywhere exactly if expanding it returns `0`. -/
theorem expand_zero_partial (hO : O.Exact) {e r : Expr} (he : PolyExpr O e) {n : Nat} (h : Expanded O n e r) :
    (∀ ρ, den ρ e = 0) ↔ r = rat 0 := by
  have h0 : Expanded O 1 (rat 0) (rat 0) := .inr ⟨rfl, rfl⟩
  rw [← expand_canonical_partial hO he (.rat 0) h h0]
  simp [den]

/-- **C80** `simplify` returns on every polynomial expression: the expression itself or, if it has fewer occurrences of symbols, the
expression multiplied out. Simplifying again changes nothing. -/
theorem simplify_polynomial_partial (hO : O.Exact) {e : Expr} (he : PolyExpr O e) {n : Nat} (hn : height e + 8 ≤ n) :
    ∃ m r, Expanded O n e m ∧ simplifyE O n e = .ok r ∧ (r = if (syms m).length < (syms e).length then m else e) ∧
      simplifyE O n r = .ok r :=
  ⟨_, _, expanded_iff.2 (NF.expand_poly hO he hn), NF.simplify_poly hO he hn, rfl,
    NF.simplify_twice hO he hn (NF.simplify_poly hO he hn)⟩

/-- **C80** A polynomial expression is 0 everywhere exactly if `simplify` returns `0`. -/
theorem simplify_zero_partial (hO : O.Exact) {e : Expr} (he : PolyExpr O e) {n : Nat} (hn : height e + 8 ≤ n) :
    (∀ ρ, den ρ e = 0) ↔ simplifyE O n e = .ok (rat 0) := by
  have hx := expanded_iff.2 (NF.expand_poly hO he hn)
  rw [expand_zero_partial hO he hx, NF.simplify_poly hO he hn]
  constructor
  · intro h0
    by_cases hs : syms e = []
    · obtain ⟨q, rfl⟩ := NF.no_syms hO he hs
      rw [toMv, NF.polyE_C] at h0
      simp [h0, toMv, NF.polyE_C]
    · rw [h0, if_pos (by simp [syms, List.length_pos_iff, hs])]
  · intro h
    have h := Except.ok.inj h
    split at h
    · exact h
    · subst h; rw [toMv, NF.polyE_C]

/-- **C67** for expanded polynomials in any number of symbols: `repr` of what `expand` returns can be read in ordinary notation, and what it
says has the value of the polynomial. -/
theorem expanded_reads (hO : O.Exact) {e r : Expr} (he : PolyExpr O e) {n : Nat} (h : Expanded O n e r) (m : Nat) :
    ∃ s T, (ctors O (m + 6)).repr r = .ok s ∧ read s = some T ∧ ∀ ρ, T.val ρ = den ρ e := by
  obtain rfl := expanded_normal hO he h
  have hg := NF.good_toMv he
  obtain ⟨hc, s, hs⟩ := NF.cr_polyE (O := O) m (toMv e)
  have key := fun ρ => repr_reads_partial (ρ := ρ) hO (NF.built_polyE hO hg) (NF.dom_polyE ρ _) (NF.syms_polyE hg) hc hs
  obtain ⟨T, h1, _⟩ := key fun _ => 0
  refine ⟨s, T, hs, h1, fun ρ => ?_⟩
  obtain ⟨T', h3, h4⟩ := key ρ
  rw [h1] at h3; cases h3
  rw [h4, NF.ev_polyE, NF.den_toMv ρ he]

/-- **C79**, for the printed text: two polynomial expressions have the same values exactly if their expansions are printed alike. -/
theorem expanded_texts_partial (hO : O.Exact) {e e' r r' : Expr} (he : PolyExpr O e) (he' : PolyExpr O e') {n n' : Nat}
    (h : Expanded O n e r) (h' : Expanded O n' e' r') (m : Nat) :
    (∀ ρ, den ρ e = den ρ e') ↔ (ctors O (m + 6)).repr r = (ctors O (m + 6)).repr r' := by
  constructor
  · intro hd; rw [(expand_canonical_partial hO he he' h h').1 hd]
  · intro hr ρ
    obtain ⟨s, T, h1, h2, h3⟩ := expanded_reads hO he h m
    obtain ⟨s', T', h1', h2', h3'⟩ := expanded_reads hO he' h' m
    rw [h1, h1'] at hr; cases hr
    rw [h2] at h2'; cases h2'
    rw [← h3, h3']

/-- **C69** for expanded polynomials in any number of symbols: what `expand` returns has a LaTeX form, which can be read, and what it says
has the value of the polynomial. -/
theorem expanded_reads_latex (hO : O.Exact) {e r : Expr} (he : PolyExpr O e) {n : Nat} (h : Expanded O n e r)
    (hr : ∀ x ∈ syms r, goodTexName x = true) (m : Nat) :
    ∃ s T, latexE O (m + 6) r = .ok s ∧ readTex s = some T ∧ ∀ ρ, T.val ρ = den ρ e := by
  obtain rfl := expanded_normal hO he h
  have hg := NF.good_toMv he
  obtain ⟨hc, s, hs⟩ := NF.tr_polyE (O := O) m (toMv e)
  have key := fun ρ => latex_reads_partial (ρ := ρ) hO (NF.built_polyE hO hg) (NF.dom_polyE ρ _) hr hc hs
  obtain ⟨T, h1, _⟩ := key fun _ => 0
  refine ⟨s, T, hs, h1, fun ρ => ?_⟩
  obtain ⟨T', h3, h4⟩ := key ρ
  rw [h1] at h3; cases h3
  rw [h4, NF.ev_polyE, NF.den_toMv ρ he]

/-- **C79**, for LaTeX: two polynomial expressions have the same values exactly if their expansions have the same LaTeX. -/
theorem expanded_latex_partial (hO : O.Exact) {e e' r r' : Expr} (he : PolyExpr O e) (he' : PolyExpr O e') {n n' : Nat}
    (h : Expanded O n e r) (h' : Expanded O n' e' r') (hr : ∀ x ∈ syms r, goodTexName x = true)
    (hr' : ∀ x ∈ syms r', goodTexName x = true) (m : Nat) :
    (∀ ρ, den ρ e = den ρ e') ↔ latexE O (m + 6) r = latexE O (m + 6) r' := by
  constructor
  · intro hd; rw [(expand_canonical_partial hO he he' h h').1 hd]
  · intro hs ρ
    obtain ⟨s, T, h1, h2, h3⟩ := expanded_reads_latex hO he h hr m
    obtain ⟨s', T', h1', h2', h3'⟩ := expanded_reads_latex hO he' h' hr' m
    rw [h1, h1'] at hs; cases hs
    rw [h2] at h2'; cases h2'
    rw [← h3, h3']

section examples
set_option maxRecDepth 10000
private abbrev x : Expr := sym ['x']
private abbrev y : Expr := sym ['y']
private abbrev z : Expr := sym ['z']

private theorem px : PolyExpr exactOracle x := .sym _ (by decide)
private theorem py : PolyExpr exactOracle y := .sym _ (by decide)

/-- `y + x` -/
private theorem pxy : PolyExpr exactOracle (sum [y, x]) := .sum 20 (by simp [px, py]) (by decide +kernel)
/-- `x - 2*y` -/
private theorem pxy' : PolyExpr exactOracle (sum [x, prod [rat (-2), y]]) := by
  refine .sum 20 ?_ (by decide +kernel)
  have : PolyExpr exactOracle (prod [rat (-2), y]) := .prod 20 (by simp [py, PolyExpr.rat]) (by simp [isProd]) (by decide +kernel)
  simp [px, this]

/-- `(y + x)**3` is covered: the base has a positive coefficient. -/
private theorem pcube : PolyExpr exactOracle (pow (sum [y, x]) (rat 3)) := by
  have : PolyExpr exactOracle (pow (sum [y, x]) (rat ((3 : ℕ) : ℚ))) := by
    refine .pow 20 3 pxy (by norm_num) (by decide +kernel) fun _ _ => ⟨Finsupp.single ['x'] 1, ?_⟩
    have h : toMv (sum [y, x]) = MvPolynomial.X ['y'] + MvPolynomial.X ['x'] := by simp [toMv, toMvS]
    rw [h, MvPolynomial.coeff_add, MvPolynomial.coeff_X, MvPolynomial.coeff_X', if_neg]
    · norm_num
    · intro h
      have := DFunLike.congr_fun h ['y']
      simp at this
  simpa using this

/-- `(x - 2*y)*(y + x)**3` is covered. -/
private theorem pall : PolyExpr exactOracle (prod [sum [x, prod [rat (-2), y]], pow (sum [y, x]) (rat 3)]) :=
  .prod 20 (by simp [pcube, pxy']) (by simp [isProd]) (by decide +kernel)

/-- `x**3*y - 5*x*y**3 - 3*x**2*y**2 + x**4 - 2*y**4` -/
private abbrev out : Expr := sum [prod [y, pow x (rat 3)], prod [rat (-5), x, pow y (rat 3)],
  prod [rat (-3), pow x (rat 2), pow y (rat 2)], pow x (rat 4), prod [rat (-2), pow y (rat 4)]]

/-- Multiplying it out returns, with any stack of at least 12 levels, an expression that is multiplied out; with 20 levels it is `out`. -/
example : (∀ n, 12 ≤ n → ∃ r, Expanded exactOracle n (prod [sum [x, prod [rat (-2), y]], pow (sum [y, x]) (rat 3)]) r ∧ MultipliedOut exactOracle r) ∧
    Expanded exactOracle 20 (prod [sum [x, prod [rat (-2), y]], pow (sum [y, x]) (rat 3)]) out := by
  refine ⟨fun n hn => ?_, .inl ⟨by decide +kernel, by decide +kernel⟩⟩
  obtain ⟨r, h1, h2, _⟩ := expand_multiplies_out_partial exactOracle_exact pall (n := n) (by
    have : height (prod [sum [x, prod [rat (-2), y]], pow (sum [y, x]) (rat 3)]) ≤ 4 := by decide
    omega)
  exact ⟨r, h1, h2⟩

/-- `(x**2 - x*y - 2*y**2)*(y + x)**2` -/
private theorem pother : PolyExpr exactOracle (prod [sum [pow x (rat 2), prod [rat (-2), pow y (rat 2)], prod [rat (-1), x, y]], pow (sum [y, x]) (rat 2)]) := by
  have sq : ∀ {b : Expr}, PolyExpr exactOracle b → (ctors exactOracle 20).pow b (rat 2) = .ok (pow b (rat 2)) →
      PolyExpr exactOracle (pow b (rat 2)) := fun hb h =>
    .pow 20 2 hb le_rfl h fun h => absurd h (by decide)
  have h1 : PolyExpr exactOracle (prod [rat (-1), x, y]) := .prod 20 (by simp [px, py, PolyExpr.rat]) (by simp [isProd]) (by decide +kernel)
  have h2 : PolyExpr exactOracle (prod [rat (-2), pow y (rat 2)]) :=
    .prod 20 (by simp [sq py (by decide +kernel), PolyExpr.rat]) (by simp [isProd]) (by decide +kernel)
  have h3 : PolyExpr exactOracle (sum [pow x (rat 2), prod [rat (-2), pow y (rat 2)], prod [rat (-1), x, y]]) :=
    .sum 20 (by simp [h1, h2, sq px (by decide +kernel)]) (by decide +kernel)
  exact .prod 20 (by simp [h3, sq pxy (by decide +kernel)]) (by simp [isProd]) (by decide +kernel)

example : (ctors exactOracle 20).repr out = .ok "y*x^3 - 5*x*y^3 - 3*x^2*y^2 + x^4 - 2*y^4".toList := by decide +kernel

example : (syms out).all goodTexName = true ∧ latexE exactOracle 20 out =
    .ok "y \\cdot x^3 - 5 \\cdot x \\cdot y^3 - 3 \\cdot x^2 \\cdot y^2 + x^4 - 2 \\cdot y^4".toList := by decide +kernel

/-- Another way to write the same polynomial, `(x**2 - x*y - 2*y**2)*(y + x)**2`, is therefore expanded to the same expression. -/
example : ∀ r n, Expanded exactOracle n (prod [sum [pow x (rat 2), prod [rat (-2), pow y (rat 2)], prod [rat (-1), x, y]], pow (sum [y, x]) (rat 2)]) r →
    r = out := by
  intro r n h
  have h' : Expanded exactOracle 20 (prod [sum [x, prod [rat (-2), y]], pow (sum [y, x]) (rat 3)]) out := .inl ⟨by decide +kernel, by decide +kernel⟩
  refine (expand_canonical_partial exactOracle_exact pother pall h h').1 fun ρ => ?_
  have p2 := fun b : ℝ => pw_int b 2
  have p3 := fun b : ℝ => pw_int b 3
  simp only [Int.cast_ofNat] at p2 p3
  simp [den, denS, denP, p2, p3]
  ring

/-- `simplify` keeps `(x - 2*y)*(y + x)**3`, which has fewer symbols than its expansion. -/
example : simplifyE exactOracle 20 (prod [sum [x, prod [rat (-2), y]], pow (sum [y, x]) (rat 3)]) =
    .ok (prod [sum [x, prod [rat (-2), y]], pow (sum [y, x]) (rat 3)]) := by
  obtain ⟨m, r, h1, h2, h3, -⟩ := simplify_polynomial_partial exactOracle_exact pall (n := 20) (by decide)
  have h1' : Expanded exactOracle 20 (prod [sum [x, prod [rat (-2), y]], pow (sum [y, x]) (rat 3)]) out := .inl ⟨by decide +kernel, by decide +kernel⟩
  obtain rfl : m = out := (expand_canonical_partial exactOracle_exact pall pall h1 h1').1 fun _ => rfl
  rw [h2, h3, if_neg (by decide)]

/-- `(y + x)**2 - y**2 - x**2 - 2*x*y` is covered, and `simplify` returns 0 with any stack of at least 13 levels. -/
example : ∀ n, 13 ≤ n → simplifyE exactOracle n (sum [pow (sum [y, x]) (rat 2), prod [rat (-1), pow y (rat 2)], prod [rat (-1), pow x (rat 2)],
    prod [rat (-2), x, y]]) = .ok (rat 0) := by
  have sq : ∀ {b : Expr}, PolyExpr exactOracle b → (ctors exactOracle 20).pow b (rat 2) = .ok (pow b (rat 2)) →
      PolyExpr exactOracle (pow b (rat 2)) := fun hb h =>
    .pow 20 2 hb le_rfl h fun h => absurd h (by decide)
  have h1 : PolyExpr exactOracle (prod [rat (-1), pow y (rat 2)]) :=
    .prod 20 (by simp [sq py (by decide +kernel), PolyExpr.rat]) (by simp [isProd]) (by decide +kernel)
  have h2 : PolyExpr exactOracle (prod [rat (-1), pow x (rat 2)]) :=
    .prod 20 (by simp [sq px (by decide +kernel), PolyExpr.rat]) (by simp [isProd]) (by decide +kernel)
  have h3 : PolyExpr exactOracle (prod [rat (-2), x, y]) := .prod 20 (by simp [px, py, PolyExpr.rat]) (by simp [isProd]) (by decide +kernel)
  have h4 : PolyExpr exactOracle (sum [pow (sum [y, x]) (rat 2), prod [rat (-1), pow y (rat 2)], prod [rat (-1), pow x (rat 2)],
      prod [rat (-2), x, y]]) := .sum 20 (by simp [h1, h2, h3, sq pxy (by decide +kernel)]) (by decide +kernel)
  intro n hn
  have hh : height (sum [pow (sum [y, x]) (rat 2), prod [rat (-1), pow y (rat 2)], prod [rat (-1), pow x (rat 2)],
      prod [rat (-2), x, y]]) ≤ 4 := by decide
  refine (simplify_zero_partial exactOracle_exact h4 (by omega)).1 fun ρ => ?_
  have p2 := fun b : ℝ => pw_int b 2
  simp only [Int.cast_ofNat] at p2
  simp [den, denS, denP, p2]
  ring

/-- `x - x*(y + 2)` -/
private theorem bneg : Built exactOracle (sum [prod [rat (-1), x, sum [y, rat 2]], x]) := built_of_self (by decide +kernel)

/-- **C78** fails for `(x - x*(y + 2))**3`: it is expanded to `-(x*y + x)**3`, which still has the power of a sum. -/
theorem expand_negative_fails : ∃ e r, Built exactOracle e ∧ Expanded exactOracle 20 e r ∧ ¬ MultipliedOut exactOracle r ∧
    expandableE exactOracle 20 r = .ok true := by
  refine ⟨pow (sum [prod [rat (-1), x, sum [y, rat 2]], x]) (rat 3), prod [rat (-1), pow (sum [prod [x, y], x]) (rat 3)],
    .pow 20 bneg (.rat 3) (by decide +kernel), .inl ⟨by decide +kernel, by decide +kernel⟩, ?_, by decide +kernel⟩
  have key : ∀ {ts : List Expr}, pow (sum [prod [x, y], x]) (rat 3) ∈ ts → ¬ PowerProduct ts := by
    rintro ts hm ⟨ss, _, hf⟩
    obtain ⟨i, hi, e⟩ := List.getElem_of_mem hm
    have := (List.forall₂_iff_get.1 hf).2 i (by rw [hf.length_eq]; exact hi) hi
    simp only [List.get_eq_getElem, e] at this
    cases this
  intro h
  cases h with
  | term h =>
    cases h with
    | power h => cases h
    | prod _ h => exact key (by simp) h
    | scaled _ _ _ h => exact key (by simp) h

/-- `z*((x + 2) + y)`: `3*(x + 2) - 2*(x + 2) + y` is `(x + 2) + y`, with a sum directly inside the sum. -/
private theorem bnest : Built exactOracle (prod [z, sum [sum [x, rat 2], y]]) := by
  have h1 : Built exactOracle (prod [rat 3, sum [x, rat 2]]) := built_of_self (by decide +kernel)
  have h2 : Built exactOracle (prod [rat (-2), sum [x, rat 2]]) := built_of_self (by decide +kernel)
  have h3 : Built exactOracle (sum [sum [x, rat 2], y]) :=
    .sum 20 (ts := [prod [rat 3, sum [x, rat 2]], prod [rat (-2), sum [x, rat 2]], y]) (by simp [h1, h2, Built.sym]) (by decide +kernel)
  exact .prod 20 (ts := [z, sum [sum [x, rat 2], y]]) (by simp [h3, Built.sym]) (by decide +kernel)

/-- **C80** fails for `z*(3*(x + 2) - 2*(x + 2) + y) - y*z - x*z - 2*z`, which is 0 everywhere: `simplify` returns `z*(x + 2) - x*z - 2*z`. -/
theorem simplify_zero_fails : ∃ e r, Built exactOracle e ∧ (∀ ρ, den ρ e = 0) ∧ simplifyE exactOracle 20 e = .ok r ∧ r ≠ rat 0 := by
  refine ⟨sum [prod [z, sum [sum [x, rat 2], y]], prod [rat (-1), y, z], prod [rat (-1), x, z], prod [rat (-2), z]],
    sum [prod [z, sum [x, rat 2]], prod [rat (-1), x, z], prod [rat (-2), z]], ?_, ?_, by decide +kernel, by decide +kernel⟩
  · have h1 : Built exactOracle (prod [rat (-1), y, z]) := built_of_self (by decide +kernel)
    have h2 : Built exactOracle (prod [rat (-1), x, z]) := built_of_self (by decide +kernel)
    have h3 : Built exactOracle (prod [rat (-2), z]) := built_of_self (by decide +kernel)
    exact .sum 20 (ts := [prod [z, sum [sum [x, rat 2], y]], prod [rat (-1), y, z], prod [rat (-1), x, z], prod [rat (-2), z]])
      (by simp [bnest, h1, h2, h3]) (by decide +kernel)
  · intro ρ
    simp only [den, denS, denP]
    push_cast
    ring

/-- **C78** and **C79** fail for `z*(3*(x + 2) - 2*(x + 2) + y)`: it is expanded to `z*(x + 2) + y*z`, which is not multiplied out, while
`z*(x + y + 2)`, with the same values, is expanded to `x*z + y*z + 2*z`. -/
theorem expand_nested_fails : ∃ e r e' r', Built exactOracle e ∧ Built exactOracle e' ∧ (∀ ρ, den ρ e = den ρ e') ∧
    Expanded exactOracle 20 e r ∧ Expanded exactOracle 20 e' r' ∧ ¬ MultipliedOut exactOracle r ∧ r ≠ r' := by
  refine ⟨prod [z, sum [sum [x, rat 2], y]], sum [prod [z, sum [x, rat 2]], prod [y, z]], prod [z, sum [y, x, rat 2]],
    sum [prod [y, z], prod [x, z], prod [rat 2, z]], bnest, built_of_self (by decide +kernel), ?_,
    .inl ⟨by decide +kernel, by decide +kernel⟩, .inl ⟨by decide +kernel, by decide +kernel⟩, ?_, by decide +kernel⟩
  · intro ρ
    simp only [den, denS, denP]
    ring
  · intro h
    cases h with
    | term h =>
      cases h with
      | power h => cases h
    | sum _ h =>
      have := (h (prod [z, sum [x, rat 2]]) (by simp)).1
      cases this with
      | power h => cases h
      | prod _ h =>
        obtain ⟨ss, _, hf⟩ := h
        have := (List.forall₂_iff_get.1 hf).2 1 (by rw [hf.length_eq]; simp) (by simp)
        simp at this
        cases this

end examples
end Simpy
