import Verif.Proofs.NFSubs
import Verif.Props.Normal
import Verif.Proofs.IntTree
import Verif.Proofs.ExactOracle
import Verif.Proofs.NFSimp
import Verif.Props.Scope

/-!
# C81: polynomials in several symbols that are multiplied out are always integrated
# C82: so are those with powers and products that are not
-/

namespace Simpy
open Expr

variable {O : Oracle} {v : Str} {e : Expr}

namespace NF

/-- A start with the right tree gives the right answer. -/
theorem answer (hO : O.Exact) {n : Nat} {ν : Supply} (bf final : Bool) (k : Nat) {s F : Expr} {t : Node} (he : PolyExpr O e) (h0 : simplifyE O n e = .ok s)
    (h1 : Node.safely O n n ν [] (.mk s v none .unset none false []) = .ok t) (h2 : Node.Ready O n v t F) (hp : PolyExpr O F)
    (hF : toMv F = A v (toMv e)) (hh : height F + 8 ≤ n) : ∃ F, Node.integrate O n ν bf k final v e = .ok (some F) ∧ PolyExpr O F ∧
      ∀ ρ : Str → ℝ, HasDerivAt (fnOf ρ v F) (den ρ e) (ρ v) := by
  have good : ∀ {G}, PolyExpr O G → toMv G = A v (toMv e) → ∀ ρ : Str → ℝ, HasDerivAt (fnOf ρ v G) (den ρ e) (ρ v) := by
    intro G hG h ρ
    have := deriv_A (v := v) ρ (toMv e)
    rw [den_toMv ρ he]
    refine this.congr_of_eventuallyEq (Filter.Eventually.of_forall fun x => ?_)
    simp only [fnOf]
    rw [den_toMv _ hG, h]
  obtain ⟨d, d1, d2, d3, d4, d5⟩ := h2.answer false
  have hc : Node.cycle O n ν bf t [] = .ok (d, .solved) := by
    simp only [Node.cycle, Node.at?, d1, bind, Except.bind, Node.replaceAt, d4, pure, Except.pure]
  have hl : Node.searchLoop O n ν bf k t [] = .ok d := by
    cases k with
    | zero => simp only [Node.searchLoop, hc, bind, Except.bind, pure, Except.pure]
    | succ k => simp [Node.searchLoop, hc, bind, Except.bind, pure, Except.pure, Node.isFinished, d2]
  have hs : Node.search O n ν bf k v e = .ok d := by
    simp only [Node.search, Node.startTree, h0, bind, Except.bind, h1]
    exact hl
  have hsf := simplify_poly hO hp hh
  cases final with
  | false => exact ⟨F, by simp [Node.integrate, hs, bind, Except.bind, d2, d5, pure, Except.pure], hp, good hp hF⟩
  | true =>
    refine ⟨if (syms (polyE O (toMv F))).length < (syms F).length then polyE O (toMv F) else F, by simp only [Node.integrate, hs, bind, Except.bind, d2, d5, Bool.not_true, Bool.false_eq_true, if_false, if_true, hsf, pure, Except.pure], ?_⟩
    split
    · exact ⟨polyExpr_polyE hO (good_toMv hp), good (polyExpr_polyE hO (good_toMv hp)) (by rw [toMv_polyE hO (good_toMv hp), hF])⟩
    · exact ⟨hp, good hp hF⟩

end NF

namespace NF

theorem of_term (hO : O.Exact) {t : Expr} (hp : PolyExpr O t) (ht : PolyTerm t) : ∃ c d, t = mono O c d ∧ GoodD d := by
  have h := done_poly hO hp (able_term hO hp ht 0)
  have ns : t.isSum = false := by
    cases ht with
    | power h => cases h <;> rfl
    | _ => rfl
  rcases polyE_cases (O := O) (toMv t) with ⟨c, d, hcd⟩ | ⟨hs, _⟩
  · rw [hcd, polyE_mono] at h
    by_cases h0 : c = 0
    · subst h0
      exact ⟨0, 0, by rw [h, mono_zero, mono_zero], by intro s hs; simp at hs⟩
    · exact ⟨c, d, h, good_toMv hp d (by rw [hcd]; simp [h0])⟩
  · rw [h, hs] at ns; cases ns

theorem of_out (hO : O.Exact) (hp : PolyExpr O e) (hm : MultipliedOut O e) : e = polyE O (toMv e) := by
  cases hm with
  | term ht => exact done_poly hO hp (able_term hO hp ht 0)
  | @sum ts _ hts =>
    have hpt : ∀ t ∈ ts, PolyExpr O t := by
      cases hp with
      | sum _ h _ => exact h
    exact done_poly (n := 4) hO hp (by
      rw [expandableE]
      exact anyR_false fun t ht => able_term hO (hpt t ht) (hts t ht).1 0)

theorem integrate_polyE (hO : O.Exact) (hv : goodName v = true) {p : MvPolynomial Str ℚ} (hg : Good p) {m n : Nat} (hw : Width m p) (hn : m + 11 ≤ n) (ν : Supply)
    (bf final : Bool) (k : Nat) : Node.integrate O n ν bf k final v (polyE O p) = .ok (some (polyE O (A v p))) := by
  obtain ⟨n, rfl⟩ : ∃ j, n = j + 8 := ⟨n - 8, by omega⟩
  obtain ⟨t, h1, h2, -⟩ := ready_polyE (O := O) (v := v) (n := n) (k := n + 8) (ν := ν) (as := []) (tr := none) hO hv hg hw (by intro a ha; cases ha) (by omega)
  obtain ⟨d, d1, d2, d3, d4, d5⟩ := h2.answer false
  have hc : Node.cycle O (n + 8) ν bf t [] = .ok (d, .solved) := by
    simp only [Node.cycle, Node.at?, d1, bind, Except.bind, Node.replaceAt, d4, pure, Except.pure]
  have hl : Node.searchLoop O (n + 8) ν bf k t [] = .ok d := by
    cases k with
    | zero => simp only [Node.searchLoop, hc, bind, Except.bind, pure, Except.pure]
    | succ k => simp [Node.searchLoop, hc, bind, Except.bind, pure, Except.pure, Node.isFinished, d2]
  have hs : Node.search O (n + 8) ν bf k v (polyE O p) = .ok d := by
    simp only [Node.search, Node.startTree, simplify_polyE hO hg (by omega : 11 ≤ n + 8), bind, Except.bind, h1]
    exact hl
  simp only [Node.integrate, hs, bind, Except.bind, d2, d5, Bool.not_true, Bool.false_eq_true, if_false,
    simplify_polyE hO (good_A hv hg) (by omega : 11 ≤ n + 8), pure, Except.pure]
  cases final <;> rfl

theorem deriv_polyE (ρ : Str → ℝ) (p : MvPolynomial Str ℚ) : HasDerivAt (fnOf ρ v (polyE O (A v p))) (den ρ (polyE O p)) (ρ v) := by
  have := deriv_A (v := v) ρ p
  rw [ev_polyE]
  refine this.congr_of_eventuallyEq (Filter.Eventually.of_forall fun x => ?_)
  simp only [fnOf]
  rw [ev_polyE]

theorem continuous_polyE (ρ : Str → ℝ) (p : MvPolynomial Str ℚ) : Continuous (fnOf ρ v (polyE O p)) := by
  have : fnOf ρ v (polyE O p) = fun x => ev (Function.update ρ v x) p := by funext x; simp only [fnOf]; rw [ev_polyE]
  rw [this]
  refine continuous_iff_continuousAt.2 fun x => ?_
  have := (deriv_ev (v := v) (Function.update ρ v x) p).continuousAt
  simpa using this

end NF

/-- **C81** `integrate` of a polynomial that is multiplied out, in any number of symbols, returns a polynomial that is multiplied out and
whose derivative is, everywhere, the integrand; whatever the strategy, the time limit and the random names. -/
theorem expanded_polynomials_are_integrated (hO : O.Exact) (hv : goodName v = true) (hp : PolyExpr O e) (hm : MultipliedOut O e) {n : Nat}
    (hn : (syms e).length + 11 ≤ n) (ν : Supply) (bf final : Bool) (k : Nat) :
    ∃ F, Node.integrate O n ν bf k final v e = .ok (some F) ∧ PolyExpr O F ∧ MultipliedOut O F ∧
      ∀ ρ : Str → ℝ, HasDerivAt (fnOf ρ v F) (den ρ e) (ρ v) := by
  have he := NF.of_out hO hp hm
  have hg := NF.good_toMv hp
  refine ⟨_, ?_, NF.polyExpr_polyE hO (NF.good_A hv hg), NF.out_polyE hO _, fun ρ => ?_⟩
  · exact (congrArg _ he).trans (NF.integrate_polyE hO hv hg (NF.width_poly hp fun _ h => h) hn ν bf final k)
  · rw [he, NF.toMv_polyE hO hg]
    exact NF.deriv_polyE ρ _

/-- **C81** so multiplying out first always helps: `integrate(e.expand(), x)` returns an antiderivative of `e`, for every polynomial `e`. -/
theorem expand_then_integrate (hO : O.Exact) (hv : goodName v = true) (hp : PolyExpr O e) {r : Expr} {n n' : Nat} (hr : Expanded O n' e r)
    (hn : (syms r).length + 11 ≤ n) (ν : Supply) (bf final : Bool) (k : Nat) :
    ∃ F, Node.integrate O n ν bf k final v r = .ok (some F) ∧ PolyExpr O F ∧ MultipliedOut O F ∧
      ∀ ρ : Str → ℝ, HasDerivAt (fnOf ρ v F) (den ρ e) (ρ v) := by
  have he := expanded_normal hO hp hr
  have hg := NF.good_toMv hp
  have hpr : PolyExpr O r := by rw [he]; exact NF.polyExpr_polyE hO hg
  obtain ⟨F, h1, h2, h3, h4⟩ := expanded_polynomials_are_integrated hO hv hpr (by rw [he]; exact NF.out_polyE hO _) hn ν bf final k
  refine ⟨F, h1, h2, h3, fun ρ => ?_⟩
  have := h4 ρ
  rwa [he, NF.ev_polyE, ← NF.den_toMv ρ hp] at this

/-- **C81** a definite integral of a polynomial that is multiplied out, between bounds that are numbers, symbols or products of numbers
and powers of symbols, is a polynomial that is multiplied out, and it is the integral. -/
theorem expanded_polynomial_definite (hO : O.Exact) (hv : goodName v = true) (hp : PolyExpr O e) (hm : MultipliedOut O e) {a b : Expr}
    (ha : PolyExpr O a) (hta : PolyTerm a) (hb : PolyExpr O b) (htb : PolyTerm b) {n : Nat} (hn : (syms e).length + 11 ≤ n) (ν : Supply) (bf : Bool) (k : Nat) :
    ∃ r, integrateTop O n ν bf k e (.full v a b) = .ok (some r) ∧ PolyExpr O r ∧ MultipliedOut O r ∧
      ∀ ρ : Str → ℝ, den ρ r = ∫ t in (den ρ a)..(den ρ b), fnOf ρ v e t := by
  have he := NF.of_out hO hp hm
  have hg := NF.good_toMv hp
  have hgA := NF.good_A hv hg
  obtain ⟨ca, da, rfl, hda⟩ := NF.of_term hO ha hta
  obtain ⟨cb, db, rfl, hdb⟩ := NF.of_term hO hb htb
  obtain ⟨n, rfl⟩ : ∃ j, n = j + 8 := ⟨n - 8, by omega⟩
  obtain ⟨Pa, a1, a2, a3⟩ := NF.subs_polyE (O := O) (v := v) (c := ca) hO hda hgA n
  obtain ⟨Pb, b1, b2, b3⟩ := NF.subs_polyE (O := O) (v := v) (c := cb) hO hdb hgA n
  have hg2 : NF.Good (Pb - Pa) := by
    have := NF.good_sum (l := [Pb, -Pa]) (by intro q hq; simp at hq; rcases hq with rfl | rfl; exacts [b2, NF.good_neg a2])
    simpa [sub_eq_add_neg] using this
  refine ⟨NF.polyE O (Pb - Pa), ?_, NF.polyExpr_polyE hO hg2, NF.out_polyE hO _, fun ρ => ?_⟩
  · have hi : Node.integrate O (n + 8) ν bf k false v e = .ok (some (NF.polyE O (NF.A v (toMv e)))) :=
      (congrArg _ he).trans (NF.integrate_polyE hO hv hg (NF.width_poly hp fun _ h => h) hn ν bf false k)
    simp only [integrateTop, integrateBounds, hi, boundsValue, a1, b1, bind, Except.bind, pure, Except.pure, NF.minus_polyE hO n b2 a2,
      NF.simplify_polyE hO hg2 (by omega : 11 ≤ n + 8)]
  · rw [NF.den_mono, NF.den_mono]
    have hc := NF.continuous_polyE (O := O) (v := v) ρ (toMv e)
    rw [← he] at hc
    rw [intervalIntegral.integral_eq_sub_of_hasDerivAt (f := fnOf ρ v (NF.polyE O (NF.A v (toMv e)))) (fun t _ => ?_) (hc.intervalIntegrable _ _)]
    · rw [NF.ev_polyE]
      have e1 : NF.ev ρ (Pb - Pa) = NF.ev ρ Pb - NF.ev ρ Pa := by simp [NF.ev, MvPolynomial.eval₂_sub]
      rw [e1, a3, b3]
      simp only [fnOf, NF.ev_polyE, NF.upd]
    · have := NF.deriv_polyE (O := O) (v := v) (Function.update ρ v t) (toMv e)
      rw [← he] at this
      have e1 : fnOf (Function.update ρ v t) v (NF.polyE O (NF.A v (toMv e))) = fnOf ρ v (NF.polyE O (NF.A v (toMv e))) := by funext s; simp [fnOf]
      rw [e1] at this
      simpa [fnOf] using this

/-- **C82** `integrate` of a polynomial in several symbols, whose terms are multiplied out or are powers or products of factors that
contain the variable, perhaps all times a number, returns a polynomial whose derivative is, everywhere, the integrand; whatever the
strategy, the time limit and the random names. Not covered: products that are not multiplied out with a factor, other than one number in
front of everything, that does not contain the variable, such as `a*(x + 1)**2` or `2*(x + 1)**2 + x`. -/
theorem factored_polynomials_are_integrated_partial (hO : O.Exact) (hv : goodName v = true) (h : PolyIntegrand O v e) {n : Nat}
    (hn : height e + (syms e).length + 12 ≤ n) (ν : Supply) (bf final : Bool) (k : Nat) :
    ∃ F, Node.integrate O n ν bf k final v e = .ok (some F) ∧ PolyExpr O F ∧ ∀ ρ : Str → ℝ, HasDerivAt (fnOf ρ v F) (den ρ e) (ρ v) := by
  obtain ⟨n, rfl⟩ : ∃ m, n = m + 8 := ⟨n - 8, by omega⟩
  have hp := NF.integrand_poly h
  have hs := NF.simplify_poly hO hp (n := n + 8) (by omega)
  split at hs
  · obtain ⟨t, F, h1, h2, h3, h4, h5⟩ := NF.ready_done (O := O) (v := v) (n := n) (k := n + 8) (ν := ν) hO hv (NF.good_toMv hp) (NF.width_poly hp fun _ h => h) (by omega)
    exact NF.answer hO bf final k hp hs h1 h2 h3 h4 (by omega)
  · obtain ⟨t, F, h1, h2, h3, h4, h5⟩ := NF.ready_integrand (O := O) (v := v) (n := n) (k := n + 8) (ν := ν) hO hv h (by omega) (by omega)
    exact NF.answer hO bf final k hp hs h1 h2 h3 h4 (by omega)

/-- **C82** the same without heuristics (the integration that integration by parts relies on). -/
theorem factored_polynomials_need_no_heuristics_partial (hO : O.Exact) (hv : goodName v = true) (h : PolyIntegrand O v e) {n : Nat}
    (hn : height e + (syms e).length + 12 ≤ n) (ν : Supply) : ∃ F, Node.withoutHeuristics O n ν v e = .ok (some F) ∧ PolyExpr O F ∧
      ∀ ρ : Str → ℝ, HasDerivAt (fnOf ρ v F) (den ρ e) (ρ v) := by
  obtain ⟨n, rfl⟩ : ∃ m, n = m + 8 := ⟨n - 8, by omega⟩
  have hp := NF.integrand_poly h
  obtain ⟨t, F, h1, h2, h3, h4, h5⟩ := NF.ready_integrand (O := O) (v := v) (n := n) (k := n + 8) (ν := ν) hO hv h (by omega) (by omega)
  obtain ⟨d, d1, d2, d3, d4, d5⟩ := h2.answer true
  refine ⟨F, by simp only [Node.withoutHeuristics, h1, d1, d3, d5, bind, Except.bind, pure, Except.pure, Bool.false_eq_true, if_false], h3, fun ρ => ?_⟩
  have := NF.deriv_A (v := v) ρ (toMv e)
  rw [NF.den_toMv ρ hp]
  refine this.congr_of_eventuallyEq (Filter.Eventually.of_forall fun x => ?_)
  simp only [fnOf]
  rw [NF.den_toMv _ h3, h4]

/-- **C82** through the public function, with the variable given. -/
theorem factored_polynomials_are_integrated_var_partial (hO : O.Exact) (hv : goodName v = true) (h : PolyIntegrand O v e) {n : Nat}
    (hn : height e + (syms e).length + 12 ≤ n) (ν : Supply) (bf : Bool) (k : Nat) :
    ∃ F, integrateTop O n ν bf k e (.var v) = .ok (some F) ∧ PolyExpr O F ∧ ∀ ρ : Str → ℝ, HasDerivAt (fnOf ρ v F) (den ρ e) (ρ v) :=
  factored_polynomials_are_integrated_partial hO hv h hn ν bf true k

/-! ## Cases -/

section
set_option maxRecDepth 10000
private abbrev x : Expr := sym ['x']
private abbrev a : Expr := sym ['a']

private theorem px : PolyExpr exactOracle x := .sym _ (by decide)
private theorem pa : PolyExpr exactOracle a := .sym _ (by decide)
private theorem pxa : PolyExpr exactOracle (sum [x, a]) := .sum 20 (by simp [px, pa]) (by decide +kernel)
private theorem px1 : PolyExpr exactOracle (sum [x, rat 1]) := .sum 20 (by simp [px, PolyExpr.rat]) (by decide +kernel)

/-- `(x + a)**3` -/
private theorem cube : PolyExpr exactOracle (pow (sum [x, a]) (rat 3)) := by
  have : PolyExpr exactOracle (pow (sum [x, a]) (rat ((3 : ℕ) : ℚ))) := by
    refine .pow 20 3 pxa (by norm_num) (by decide +kernel) fun _ _ => ⟨Finsupp.single ['x'] 1, ?_⟩
    have h : toMv (sum [x, a]) = MvPolynomial.X ['x'] + MvPolynomial.X ['a'] := by simp [toMv, toMvS]
    rw [h, MvPolynomial.coeff_add, add_comm, MvPolynomial.coeff_X, MvPolynomial.coeff_X', if_neg]
    · norm_num
    · intro h
      have := DFunLike.congr_fun h ['a']
      simp at this
  simpa using this

/-- `x*(x + 1)` -/
private theorem twice : PolyExpr exactOracle (prod [x, sum [x, rat 1]]) := .prod 20 (by simp [px, px1]) (by simp [isProd]) (by decide +kernel)

/-- `(x + a)**3 + x*(x + 1)` -/
private abbrev both : Expr := sum [pow (sum [x, a]) (rat 3), prod [x, sum [x, rat 1]]]
private theorem pboth : PolyExpr exactOracle both := .sum 20 (by simp [cube, twice]) (by decide +kernel)
private theorem sboth : PolySummands exactOracle ['x'] both := .sum pboth fun t ht => by
  simp at ht
  rcases ht with rfl | rfl
  · exact ⟨cube, rfl, by simp⟩
  · refine ⟨twice, rfl, ?_⟩
    rintro ts ⟨⟩
    exact .inr (by simp [syms, symsL])

/-- `3*((x + a)**3 + x*(x + 1))` is covered, with `x` as the variable. -/
private theorem covered : PolyIntegrand exactOracle ['x'] (prod [rat 3, both]) :=
  .scaled (pre := []) (r := [both]) (.prod 20 (by simp [pboth, PolyExpr.rat]) (by simp [isProd]) (by decide +kernel)) (by simp [syms, symsL])
    (by decide +kernel) sboth

/-- It is integrated, whatever the strategy, the time limit and the names. -/
example : ∀ (ν : Supply) (bf : Bool) (k : Nat), ∃ F, integrateTop exactOracle 30 ν bf k (prod [rat 3, both]) (.var ['x']) = .ok (some F) ∧
    ∀ ρ : Str → ℝ, HasDerivAt (fnOf ρ ['x'] F) (3 * ((ρ ['x'] + ρ ['a']) ^ 3 + ρ ['x'] * (ρ ['x'] + 1))) (ρ ['x']) := by
  intro ν bf k
  obtain ⟨F, h1, -, h2⟩ := factored_polynomials_are_integrated_var_partial exactOracle_exact (v := ['x']) (by decide) covered
    (n := 30) (by decide +kernel) ν bf k
  refine ⟨F, h1, fun ρ => ?_⟩
  have := h2 ρ
  have p3 : pw (ρ ['x'] + ρ ['a']) 3 = (ρ ['x'] + ρ ['a']) ^ 3 := by have := pw_int (ρ ['x'] + ρ ['a']) 3; norm_num at this; simpa using this
  simpa [den, denS, denP, p3] using this

/-- What it is. -/
example : Node.integrate exactOracle 30 names false 5 true ['x'] (prod [rat 3, both]) =
    .ok (some (prod [rat 3, sum [prod [x, pow a (rat 3)], prod [a, pow x (rat 3)], prod [rat (3 / 2), pow a (rat 2), pow x (rat 2)],
      prod [rat (1 / 4), pow x (rat 4)], prod [rat (1 / 3), pow x (rat 3)], prod [rat (1 / 2), pow x (rat 2)]]])) := by
  decide +kernel

/-- `x**2*a + 5` is covered by the theorem about polynomials that are multiplied out, with `a` as the variable. -/
example : ∀ (ν : Supply) (bf : Bool) (k : Nat), ∃ F, Node.integrate exactOracle 30 ν bf k true ['a'] (sum [prod [a, pow x (rat 2)], rat 5]) = .ok (some F) ∧
    ∀ ρ : Str → ℝ, HasDerivAt (fnOf ρ ['a'] F) (ρ ['a'] * ρ ['x'] ^ 2 + 5) (ρ ['a']) := by
  intro ν bf k
  have sq : PolyExpr exactOracle (pow x (rat ((2 : ℕ) : ℚ))) := .pow 20 2 px le_rfl (by decide +kernel) (fun h => absurd h (by decide))
  have h1 : PolyExpr exactOracle (prod [a, pow x (rat 2)]) := .prod 20 (by simpa [pa] using sq) (by simp [isProd]) (by decide +kernel)
  have h2 : PolyExpr exactOracle (sum [prod [a, pow x (rat 2)], rat 5]) := .sum 20 (by simp [h1, PolyExpr.rat]) (by decide +kernel)
  have ht : PolyTerm (prod [a, pow x (rat 2)]) := .prod le_rfl ⟨[['a'], ['x']], by decide, .cons (.one _) (.cons (by simpa using SymPower.power ['x'] 2 le_rfl) .nil)⟩
  obtain ⟨F, k1, -, -, k2⟩ := expanded_polynomials_are_integrated exactOracle_exact (v := ['a']) (by decide) h2
    (.sum le_rfl (by simp [ht, PolyTerm.num]) (by simp [Unlike, nonNumFactors, isAcc, beqL, beq]) (by decide)) (n := 30) (by decide +kernel) ν bf true k
  refine ⟨F, k1, fun ρ => ?_⟩
  have := k2 ρ
  have p2 : pw (ρ ['x']) 2 = ρ ['x'] ^ 2 := by have := pw_int (ρ ['x']) 2; norm_num at this; simpa using this
  simpa [den, denS, denP, p2] using this

/-- From `-a` to `x`, with a symbol in the integrand and the variable in a bound. -/
example : ∀ (ν : Supply) (bf : Bool) (k : Nat), ∃ r, integrateTop exactOracle 30 ν bf k (sum [prod [a, pow x (rat 2)], rat 5]) (.full ['x'] (prod [rat (-1), a]) x) = .ok (some r) ∧
    ∀ ρ : Str → ℝ, den ρ r = ∫ t in (-ρ ['a'])..(ρ ['x']), (ρ ['a'] * t ^ 2 + 5) := by
  intro ν bf k
  have sq : PolyExpr exactOracle (pow x (rat ((2 : ℕ) : ℚ))) := .pow 20 2 px le_rfl (by decide +kernel) (fun h => absurd h (by decide))
  have h1 : PolyExpr exactOracle (prod [a, pow x (rat 2)]) := .prod 20 (by simpa [pa] using sq) (by simp [isProd]) (by decide +kernel)
  have h2 : PolyExpr exactOracle (sum [prod [a, pow x (rat 2)], rat 5]) := .sum 20 (by simp [h1, PolyExpr.rat]) (by decide +kernel)
  have ht : PolyTerm (prod [a, pow x (rat 2)]) := .prod le_rfl ⟨[['a'], ['x']], by decide, .cons (.one _) (.cons (by simpa using SymPower.power ['x'] 2 le_rfl) .nil)⟩
  obtain ⟨r, k1, -, -, k2⟩ := expanded_polynomial_definite exactOracle_exact (v := ['x']) (by decide) h2
    (.sum le_rfl (by simp [ht, PolyTerm.num]) (by simp [Unlike, nonNumFactors, isAcc, beqL, beq]) (by decide))
    (a := prod [rat (-1), a]) (b := x) (.prod 20 (by simp [pa, PolyExpr.rat]) (by simp [isProd]) (by decide +kernel))
    (.scaled (by norm_num) (by norm_num) (by simp) ⟨[['a']], by decide, .cons (.one _) .nil⟩) px (.power (.one _)) (n := 30) (by decide +kernel) ν bf k
  refine ⟨r, k1, fun ρ => ?_⟩
  rw [k2 ρ]
  have p2 : ∀ t : ℝ, pw t 2 = t ^ 2 := fun t => by have := pw_int t 2; norm_num at this; simpa using this
  simp [den, denS, denP, fnOf, p2]

/-- What it is. -/
example : integrateTop exactOracle 30 names false 5 (sum [prod [a, pow x (rat 2)], rat 5]) (.full ['x'] (prod [rat (-1), a]) x) =
    .ok (some (sum [prod [rat (1 / 3), a, pow x (rat 3)], prod [rat (1 / 3), pow a (rat 4)], prod [rat 5, x], prod [rat 5, a]])) := by
  decide +kernel

end

end Simpy
