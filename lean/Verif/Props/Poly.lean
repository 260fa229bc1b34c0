import Verif.Proofs.PolyFrac
import Verif.Proofs.Check
import Verif.Proofs.ExactOracle

/-!
# C24-C29, C47: polynomials, division, 2x2 inverses, partial fractions, factoring

A numpy array of coefficients is a list, constant term first. `polyVal ρ cs t` is `Σ cᵢ tⁱ`.
`toConstPoly O n v e` is `to_const_polynomial(e, v)`, `polyToExpr O (ctors O n) v cs` is `polynomial_to_expr(cs, v)`,
`ridEndingZeros O cs` is `rid_ending_zeros(cs)`, `invert O (ctors O n) m` is `invert(m)`, `factorSum (ctors O n) ts` is
`Sum(ts).factor()`; `polyDiv`/`partialFractions` give the new integrand of the transforms PolynomialDivision/PartialFractions
for an integrand (`none`: the transform does not apply). `expandOr (expandableE O n) (expandE O n) e` is
`e.expand() if e.expandable() else e`.
-/

namespace Simpy
open Expr

variable {O : Oracle}

/-- **C24** `to_const_polynomial(e, v)` for expressions with integer exponents, without logarithms and inverse trig functions:
the coefficients do not contain `v`, and `e` is the polynomial function with these coefficients, wherever it is defined.
Missing: expansions in which a number multiplies a Sum, for which it is false (`to_const_polynomial_fails`). -/
theorem to_const_polynomial_partial (hO : O.Exact) (n : Nat) {v : Str} {e e' : Expr} {cs : List Expr} (he : Built O e)
    (hp : intPows e = true) (hl : containsCls isLog e = false) (hi : containsCls isInvTrig e = false)
    (hx : expandOr (expandableE O n) (expandE O n) e = .ok e') (hpl : plainTerms e' = true)
    (h : toConstPoly O n v e = .ok cs) :
    (∀ c ∈ cs, c.contains v = false) ∧
      ∀ (ρ : Str → ℝ) (t : ℝ), DomR (Function.update ρ v t) e → den (Function.update ρ v t) e = polyVal ρ cs t := by
  have w := he.wf hO
  refine ⟨toConstPoly_free h, fun ρ t hd => ?_⟩
  have := (toConstPoly_V hO ((adm_WF hO).kid w) ((Dom_iff_DomR w hl).2 hd) hx hpl
    (fun _ => Easy.expandOk n ⟨hp, hl, hi⟩) h).2
  rw [← this, Function.update_self]
  refine polyVal_congr cs fun c hc => den_congr c fun s hs => ?_
  have := toConstPoly_free h c hc
  rw [Function.update_of_ne]
  rintro rfl
  rw [(contains_iff s c).2 hs] at this
  simp at this

/-- **C24** for expressions that are not expandable (so nothing has to be expanded first), on the principal domain. -/
theorem to_const_polynomial_unexpandable_partial (hO : O.Exact) (n : Nat) {v : Str} {e : Expr} {cs : List Expr}
    (he : Built O e) (hx : expandableE O n e = .ok false) (hpl : plainTerms e = true) (h : toConstPoly O n v e = .ok cs) :
    (∀ c ∈ cs, c.contains v = false) ∧
      ∀ (ρ : Str → ℝ) (t : ℝ), Dom (Function.update ρ v t) e → den (Function.update ρ v t) e = polyVal ρ cs t := by
  have w := he.wf hO
  refine ⟨toConstPoly_free h, fun ρ t hd => ?_⟩
  have hx' : expandOr (expandableE O n) (expandE O n) e = .ok e := by
    unfold expandOr; rw [hx]; rfl
  have := (toConstPoly_V hO ((adm_WF hO).kid w) hd hx' hpl (fun hb => by rw [hx] at hb; simp at hb) h).2
  rw [← this, Function.update_self]
  refine polyVal_congr cs fun c hc => den_congr c fun s hs => ?_
  have := toConstPoly_free h c hc
  rw [Function.update_of_ne]
  rintro rfl
  rw [(contains_iff s c).2 hs] at this
  simp at this

/-- **C25** `polynomial_to_expr(cs, v)` has the value `Σ cᵢ vⁱ` wherever the coefficients are defined. -/
theorem polynomial_to_expr_value (hO : O.Exact) (n : Nat) {v : Str} {cs : List Expr} {r : Expr} {ρ : Str → ℝ}
    (hb : ∀ c ∈ cs, Built O c) (hd : ∀ c ∈ cs, Dom ρ c) (h : polyToExpr O (ctors O n) v cs = .ok r) :
    den ρ r = polyVal ρ cs (ρ v) ∧ Dom ρ r :=
  have := polyToExpr_V hO (st := false) (ρ := ρ) (fun c hc => ⟨(hb c hc).wf hO, hd c hc⟩) h
  ⟨this.2.2, this.2.1⟩

/-- **C26** `rid_ending_zeros(cs)` is `cs` without its maximal tail of zeros: a prefix, what is cut off is `== 0`, and the last
element that is left is not. -/
theorem rid_ending_zeros_spec (cs : List Expr) : ∃ z, cs = ridEndingZeros O cs ++ z ∧ (∀ c ∈ z, beq O c (rat 0) = true) ∧
    ∀ c, (ridEndingZeros O cs).getLast? = some c → beq O c (rat 0) = false :=
  ridEndingZeros_split cs

/-- **C26** … and it denotes the same polynomial. -/
theorem rid_ending_zeros_value (hO : O.Exact) {cs : List Expr} {ρ : Str → ℝ} (hb : ∀ c ∈ cs, Built O c)
    (hd : ∀ c ∈ cs, Dom ρ c) (t : ℝ) : polyVal ρ (ridEndingZeros O cs) t = polyVal ρ cs t :=
  (ridEndingZeros_V hO (st := false) (fun c hc => ⟨(hb c hc).wf hO, hd c hc⟩) t).2

/-- **C27** Division of polynomials with rational coefficients and a non-zero leading coefficient in the denominator: the loop
ends after at most `len(num) - len(den) + 1` passes, the remainder is shorter than the denominator, and
`num = quotient * den + remainder` as polynomials. -/
theorem polynomial_division_rational (hO : O.Exact) (n : Nat) {num dn : List ℚ} {b : ℚ} (hb : dn.getLast? = some b)
    (hb0 : b ≠ 0) (hle : dn.length ≤ num.length) (k : Nat) (hk : num.length - dn.length < k) :
    ∃ quo rem : List ℚ, divLoop O (ctors O n) (dn.map rat) k (quoInit (num.map rat) (dn.map rat)) (num.map rat) =
        .ok (quo.map rat, rem.map rat) ∧ rem.length < dn.length ∧ quo.length = num.length - dn.length + 1 ∧
      ∀ (ρ : Str → ℝ) (t : ℝ), polyVal ρ (num.map rat) t =
        polyVal ρ (quo.map rat) t * polyVal ρ (dn.map rat) t + polyVal ρ (rem.map rat) t :=
  divLoop_rats hO hb hb0 hle (by omega)

/-- **C27** The same for arbitrary coefficients, as long as every pass shortens the numerator. Missing: coefficients for which
`a - (a/b)*b` is not simplified to 0; for these it is false (`polynomial_division_fails`). -/
theorem polynomial_division_partial (hO : O.Exact) (n : Nat) {num dn quo rem : List Expr} {ρ : Str → ℝ}
    (hbn : ∀ c ∈ num, Built O c) (hdn : ∀ c ∈ num, Dom ρ c) (hbd : ∀ c ∈ dn, Built O c) (hdd : ∀ c ∈ dn, Dom ρ c)
    (h0 : ∀ b, dn.getLast? = some b → den ρ b ≠ 0) (hle : dn.length ≤ num.length) (k : Nat)
    (hs : DivShrinks O (ctors O n) dn k num)
    (h : divLoop O (ctors O n) dn k (quoInit num dn) num = .ok (quo, rem)) :
    rem.length < dn.length ∧ ∀ t, polyVal ρ num t = polyVal ρ quo t * polyVal ρ dn t + polyVal ρ rem t := by
  obtain ⟨-, -, h1, h2⟩ := divLoop_V hO (ρ := ρ) (st := false) (fun c hc => ⟨(hbd c hc).wf hO, hdd c hc⟩) h0 k
    (quo := quoInit num dn) (by rw [quoInit]; exact Good.zeros _) (fun c hc => ⟨(hbn c hc).wf hO, hdn c hc⟩) (by
      intro i hi
      rw [quoInit, List.getElem?_replicate, if_pos (by omega)]) hs h
  refine ⟨h1, fun t => ?_⟩
  rw [← h2 t, quoInit, polyVal_zeros]; ring

/-- **C27** The integrand after the PolynomialDivision transform has the value of the integrand before it, wherever that is
defined, if numerator and denominator are (after expanding) polynomials with rational coefficients. -/
theorem polynomial_division_value (hO : O.Exact) (n k : Nat) {v : Str} {ts : List Expr} {a b a' b' r : Expr} {ρ : Str → ℝ}
    (he : Built O (prod ts)) (hp : intPows (prod ts) = true) (hl : containsCls isLog (prod ts) = false)
    (hi : containsCls isInvTrig (prod ts) = false) (hab : numDen O (ctors O n) ts = .ok (a, b))
    (hxa : expandOr (expandableE O n) (expandE O n) a = .ok a') (hra : ratPoly v a' = true)
    (hxb : expandOr (expandableE O n) (expandE O n) b = .ok b') (hrb : ratPoly v b' = true)
    (hlead : ∀ dl, toConstPoly O n v b = .ok dl → dl.getLast? ≠ some (rat 0)) (hd : DomR ρ (prod ts))
    (h : polyDiv O n k v (prod ts) = .ok (some r)) : den ρ r = den ρ (prod ts) ∧ Dom ρ r := by
  have v := polyDiv_V hO (st := false) (he.wf hO) ((Dom_iff_DomR (he.wf hO) hl).2 hd) (Easy.prod ⟨hp, hl, hi⟩) hab hxa hra hxb hrb hlead h
  exact ⟨v.2.2, v.2.1⟩

/-- **C28** `invert` of a 2x2 matrix of expressions whose determinant is not 0 in value: the product of the matrix and its
inverse is the identity (in value). -/
theorem invert_value (hO : O.Exact) (n : Nat) {a b c d p q r s : Expr} {ρ : Str → ℝ} (hb : ∀ e ∈ [a, b, c, d], Built O e)
    (hd : ∀ e ∈ [a, b, c, d], Dom ρ e) (h0 : den ρ a * den ρ d - den ρ b * den ρ c ≠ 0)
    (h : invert O (ctors O n) [[a, b], [c, d]] = .ok (some [[p, q], [r, s]])) :
    (den ρ a * den ρ p + den ρ b * den ρ r = 1 ∧ den ρ a * den ρ q + den ρ b * den ρ s = 0) ∧
      (den ρ c * den ρ p + den ρ d * den ρ r = 0 ∧ den ρ c * den ρ q + den ρ d * den ρ s = 1) := by
  obtain ⟨-, vp, vq, vr, vs⟩ := invert_V hO (st := false) (fun e he => ⟨(hb e he).wf hO, hd e he⟩) h0 h
  rw [vp, vq, vr, vs]
  obtain ⟨D, hD⟩ : ∃ D, den ρ a * den ρ d - den ρ b * den ρ c = D := ⟨_, rfl⟩
  rw [hD] at h0 ⊢
  refine ⟨⟨?_, ?_⟩, ?_, ?_⟩ <;> field_simp <;> (try rw [← hD]) <;> ring

/-- **C28** A returned inverse is a 2x2 matrix. -/
theorem invert_is_2x2 {C : Ctors} {a b c d : Expr} {m : List (List Expr)}
    (h : invert O C [[a, b], [c, d]] = .ok (some m)) : ∃ p q r s, m = [[p, q], [r, s]] := invert_shape h

/-- **C28** `None` is returned only for a matrix whose determinant is 0 at every point where the entries are defined. -/
theorem invert_none_singular (hO : O.Exact) (n : Nat) {a b c d : Expr} {ρ : Str → ℝ} (hb : ∀ e ∈ [a, b, c, d], Built O e)
    (hd : ∀ e ∈ [a, b, c, d], Dom ρ e) (h : invert O (ctors O n) [[a, b], [c, d]] = .ok none) :
    den ρ a * den ρ d - den ρ b * den ρ c = 0 :=
  invert_none hO (st := false) (fun e he => ⟨(hb e he).wf hO, hd e he⟩) h

/-- **C28** Matrices that are not square are rejected with AssertionError, square ones of another size than 2 with
NotImplementedError. -/
theorem invert_other_sizes {C : Ctors} {m : List (List Expr)} :
    (¬ (∀ row ∈ m, row.length = m.length) → invert O C m = .error .assertion) ∧
    ((∀ row ∈ m, row.length = m.length) → m.length ≠ 2 → invert O C m = .error .notImplemented) := by
  constructor
  · intro h
    have : (m.all fun row => row.length == m.length) = false := by
      rw [Bool.eq_false_iff]; intro hc; exact h (by simpa using hc)
    unfold invert; rw [this]; rfl
  · intro h h2
    have : (m.all fun row => row.length == m.length) = true := by simpa using h
    unfold invert; rw [this]
    match m, h, h2 with
    | [], _, _ => rfl
    | [r], _, _ => cases r <;> simp [assertR, bind, Except.bind]
    | [r, s], _, h2 => simp at h2
    | r :: s :: t :: u, _, _ => simp [assertR, bind, Except.bind]

/-- **C47** `Sum.factor()` has the value of the sum wherever the sum is defined and the common factor it takes out is defined
and not 0. -/
theorem factor_value_partial (hO : O.Exact) (n : Nat) {ts : List Expr} {c r : Expr} {ρ : Str → ℝ} (he : Built O (sum ts))
    (hd : Dom ρ (sum ts)) (hc : factorCommon (ctors O n) ts = .ok c) (dc : Dom ρ c) (h0 : den ρ c ≠ 0)
    (h : factorSum (ctors O n) ts = .ok r) : den ρ r = den ρ (sum ts) ∧ Dom ρ r := by
  have w := WF_sum.1 (he.wf hO)
  have := factorSum_V hO (fun t ht => ⟨w t ht, Dom_sum.1 hd t ht⟩) hc (factorCommon_W hO w hc).1 dc h0 h
  exact ⟨by rw [this.2.2, den_sum], this.2.1⟩

/-- **C47** … and for sums with integer exponents the common factor is always defined. -/
theorem factor_value (hO : O.Exact) (n : Nat) {ts : List Expr} {c r : Expr} {ρ : Str → ℝ} (he : Built O (sum ts))
    (hp : intPows (sum ts) = true) (hd : Dom ρ (sum ts)) (hc : factorCommon (ctors O n) ts = .ok c) (h0 : den ρ c ≠ 0)
    (h : factorSum (ctors O n) ts = .ok r) : den ρ r = den ρ (sum ts) ∧ Dom ρ r :=
  factor_value_partial hO n he hd hc ((factorCommon_W hO (WF_sum.1 (he.wf hO)) hc).2 ρ (Dom_sum.1 hd)
    (fun t ht => closed_intPows.sum.1 hp t ht)) h0 h

/-- **C29** When PartialFractions applies to `a/(d1*d2)`, with rational polynomials `d1`, `d2` (they are necessarily linear)
and a numerator `a` that `to_const_polynomial` reads correctly, the new integrand has the value of the old one wherever that is
defined; if the denominator was a Sum that had to be factored, wherever the factor taken out is not 0. -/
theorem partial_fractions_value (hO : O.Exact) (n : Nat) {v : Str} {ts : List Expr} {a b a' d1 d2 r : Expr} {ρ : Str → ℝ}
    (he : Built O (prod ts)) (hp : intPows (prod ts) = true) (hl : containsCls isLog (prod ts) = false)
    (hi : containsCls isInvTrig (prod ts) = false) (hab : numDen O (ctors O n) ts = .ok (a, b))
    (hxa : expandOr (expandableE O n) (expandE O n) a = .ok a') (hra : plainTerms a' = true)
    (hdf : denomFactors (ctors O n) b = .ok (some [d1, d2])) (h1 : ratPoly v d1 = true) (h2 : ratPoly v d2 = true)
    (hc : ∀ us c, b = sum us → factorCommon (ctors O n) us = .ok c → den ρ c ≠ 0) (hd : DomR ρ (prod ts))
    (h : partialFractions O n v (prod ts) = .ok (some r)) : den ρ r = den ρ (prod ts) ∧ Dom ρ r := by
  have w := he.wf hO
  have d : Dom ρ (prod ts) := (Dom_iff_DomR w hl).2 hd
  obtain ⟨-, wb, -, db, -, -⟩ := numDen_V hO (st := false) (ρ := ρ) (fun t ht => ⟨(WF_prod.1 w).2 t ht, Dom_prod.1 d t ht⟩) hab
  have v := partialFractions_V hO (st := false) w d (Easy.prod ⟨hp, hl, hi⟩) hab hxa hra hdf h1 h2 (fun us c hb hcc => by
    subst hb
    exact ⟨(factorCommon_W hO (WF_sum.1 wb) hcc).2 ρ (Dom_sum.1 db)
      (fun t ht => ((numDen_easy (Easy.prod ⟨hp, hl, hi⟩) hab).2.sum t ht).1), hc us c rfl hcc⟩) h
  exact ⟨v.2.2, v.2.1⟩

section examples
set_option maxRecDepth 10000
private abbrev x : Expr := sym ['x']
private abbrev y : Expr := sym ['y']

/-- `to_const_polynomial((x + 2)*(x + 3), x)` is `[6, 5, 1]`. -/
example (ρ : Str → ℝ) (t : ℝ) : den (Function.update ρ ['x'] t) (prod [sum [x, rat 2], sum [x, rat 3]]) =
    polyVal ρ [rat 6, rat 5, rat 1] t :=
  (to_const_polynomial_partial exactOracle_exact 30 (e' := sum [pow x (rat 2), prod [rat 5, x], rat 6])
    (built_of_self (by decide +kernel)) (by decide +kernel) (by decide +kernel) (by decide +kernel) (by decide +kernel)
    (by decide +kernel) (by decide +kernel)).2 ρ t (by simp [DomR, DomRL])

/-- `to_const_polynomial(3*x**2 + sqrt(y), x)` is `[sqrt(y), 0, 3]`. -/
example (ρ : Str → ℝ) (t : ℝ) (h : 0 ≤ ρ ['y']) :
    den (Function.update ρ ['x'] t) (sum [prod [rat 3, pow x (rat 2)], pow y (rat (1 / 2))]) =
    polyVal ρ [pow y (rat (1 / 2)), rat 0, rat 3] t :=
  (to_const_polynomial_unexpandable_partial exactOracle_exact 30 (built_of_self (by decide +kernel)) (by decide +kernel)
    (by decide +kernel) (by decide +kernel)).2 ρ t (by simp [Dom, DomS, DomSL, HN, den, h, intExp])

/-- A number that multiplies a Sum in the expanded expression is dropped: `sqrt(x+1)*(x/sqrt(x+1) + 3*sqrt(x+1))`, which is
`4x + 3`, is read as `1 + 2x`. -/
theorem to_const_polynomial_fails : ∃ (e : Expr) (cs : List Expr), Built exactOracle e ∧
    toConstPoly exactOracle 30 ['x'] e = .ok cs ∧
    ∃ (ρ : Str → ℝ) (t : ℝ), Dom (Function.update ρ ['x'] t) e ∧ den (Function.update ρ ['x'] t) e ≠ polyVal ρ cs t := by
  refine ⟨prod [pow (sum [x, rat 1]) (rat (1 / 2)), sum [prod [x, pow (sum [x, rat 1]) (rat (-1 / 2))],
    prod [rat 3, pow (sum [x, rat 1]) (rat (1 / 2))]]], [rat 1, rat 2], built_of_self (by decide +kernel),
    by decide +kernel, fun _ => 0, 0, ?_, ?_⟩
  · simp [Dom, DomS, DomSL, HN, den, denS, intExp]
  · simp [den, denS, denP, polyVal]

/-- `polynomial_to_expr([y, 0, 1/2, 3], x)`. -/
example (ρ : Str → ℝ) : den ρ (sum [prod [rat 3, pow x (rat 3)], prod [rat (1 / 2), pow x (rat 2)], y]) =
    polyVal ρ [y, rat 0, rat (1 / 2), rat 3] (ρ ['x']) :=
  (polynomial_to_expr_value exactOracle_exact 30 (by
      intro c hc
      simp only [List.mem_cons, List.not_mem_nil, or_false] at hc
      rcases hc with rfl | rfl | rfl | rfl <;> exact built_of_self (by decide +kernel))
    (by simp [Dom, DomS]) (by decide +kernel)).1

/-- `rid_ending_zeros([1, 0, y, 0, 0])` is `[1, 0, y]`. -/
example (ρ : Str → ℝ) (t : ℝ) : polyVal ρ [rat 1, rat 0, y] t = polyVal ρ [rat 1, rat 0, y, rat 0, rat 0] t :=
  have h : ridEndingZeros exactOracle [rat 1, rat 0, y, rat 0, rat 0] = [rat 1, rat 0, y] := by decide +kernel
  h ▸ rid_ending_zeros_value exactOracle_exact (by
      intro c hc
      simp only [List.mem_cons, List.not_mem_nil, or_false] at hc
      rcases hc with rfl | rfl | rfl | rfl | rfl <;> exact built_of_self (by decide +kernel)) (by simp [Dom, DomS]) t

/-- `x**3 + 1` divided by `2*x + 4`. -/
example : ∃ quo rem : List ℚ, divLoop exactOracle (ctors exactOracle 30) ([4, 2].map rat) 3
    (quoInit ([1, 0, 0, 1].map rat) ([4, 2].map rat)) ([1, 0, 0, 1].map rat) = .ok (quo.map rat, rem.map rat) ∧
    rem.length < 2 := by
  obtain ⟨q, r, h1, h2, -⟩ := polynomial_division_rational exactOracle_exact 30 (num := [1, 0, 0, 1]) (dn := [4, 2]) (b := 2)
    rfl (by norm_num) (by decide) 3 (by decide)
  exact ⟨q, r, h1, h2⟩

/-- With symbols as coefficients: `y*x**2 + 1` divided by `x + 1`. -/
example (ρ : Str → ℝ) (t : ℝ) : polyVal ρ [rat 1, rat 0, y] t =
    polyVal ρ [prod [rat (-1), y], y] t * polyVal ρ [rat 1, rat 1] t + polyVal ρ [sum [y, rat 1]] t := by
  refine (polynomial_division_partial exactOracle_exact 30 (num := [rat 1, rat 0, y]) (dn := [rat 1, rat 1]) ?_
    (by simp [Dom, DomS]) ?_ (by simp [Dom, DomS]) (by simp) (by decide) 2 ?_ (by decide +kernel)).2 t
  · intro c hc
    simp only [List.mem_cons, List.not_mem_nil, or_false] at hc
    rcases hc with rfl | rfl | rfl <;> exact built_of_self (by decide +kernel)
  · intro c hc
    simp only [List.mem_cons, List.not_mem_nil, or_false] at hc
    rcases hc with rfl | rfl <;> exact .rat 1
  · have e1 : divStep exactOracle (ctors exactOracle 30) [rat 1, rat 0, y] [rat 1, rat 1] =
      .ok (y, [rat 1, prod [rat (-1), y]]) := by decide +kernel
    have e2 : divStep exactOracle (ctors exactOracle 30) [rat 1, prod [rat (-1), y]] [rat 1, rat 1] =
      .ok (prod [rat (-1), y], [sum [y, rat 1]]) := by decide +kernel
    intro _ q num' h
    rw [e1] at h
    simp only [Except.ok.injEq, Prod.mk.injEq] at h
    obtain ⟨rfl, rfl⟩ := h
    refine ⟨by decide, ?_⟩
    intro _ q num' h
    rw [e2] at h
    simp only [Except.ok.injEq, Prod.mk.injEq] at h
    obtain ⟨rfl, rfl⟩ := h
    exact ⟨by decide, trivial⟩

/-- `(x**3 + 1)/(x + 2)` becomes `x**2 - 2*x + 4 - 7/(x + 2)`. -/
example (ρ : Str → ℝ) (h : ρ ['x'] + 2 ≠ 0) :
    den ρ (sum [prod [rat (-7), pow (sum [x, rat 2]) (rat (-1))], pow x (rat 2), prod [rat (-2), x], rat 4]) =
      den ρ (prod [pow (sum [x, rat 2]) (rat (-1)), sum [pow x (rat 3), rat 1]]) :=
  (polynomial_division_value exactOracle_exact 30 10 (v := ['x']) (a := sum [pow x (rat 3), rat 1]) (b := sum [x, rat 2])
    (a' := sum [pow x (rat 3), rat 1]) (b' := sum [x, rat 2]) (built_of_self (by decide +kernel)) (by decide +kernel)
    (by decide +kernel) (by decide +kernel) (by decide +kernel) (by decide +kernel) (by decide +kernel) (by decide +kernel)
    (by decide +kernel) (by
      have e : toConstPoly exactOracle 30 ['x'] (sum [x, rat 2]) = .ok [rat 2, rat 1] := by decide +kernel
      intro dl hdl
      rw [e] at hdl
      cases hdl
      decide) (by simp [DomR, DomRL, den, denS, intExp, h]) (by decide +kernel)).1

/-- `invert([[y, 1], [2, 3]])` where `3*y ≠ 2`. -/
example (ρ : Str → ℝ) (h : ρ ['y'] * 3 - 1 * 2 ≠ 0) :
    den ρ y * den ρ (prod [rat 3, pow (sum [prod [rat 3, y], rat (-2)]) (rat (-1))]) +
      den ρ (rat 1) * den ρ (prod [rat (-2), pow (sum [prod [rat 3, y], rat (-2)]) (rat (-1))]) = 1 :=
  (invert_value exactOracle_exact 30 (a := y) (b := rat 1) (c := rat 2) (d := rat 3)
    (q := prod [rat (-1), pow (sum [prod [rat 3, y], rat (-2)]) (rat (-1))])
    (s := prod [y, pow (sum [prod [rat 3, y], rat (-2)]) (rat (-1))]) (by
      intro c hc
      simp only [List.mem_cons, List.not_mem_nil, or_false] at hc
      rcases hc with rfl | rfl | rfl | rfl <;> exact built_of_self (by decide +kernel))
    (by simp [Dom, DomS]) (by simpa [den] using h) (by decide +kernel)).1.1

/-- `invert([[y, 1], [y, 1]])` is `None`. -/
example : invert exactOracle (ctors exactOracle 30) [[y, rat 1], [y, rat 1]] = .ok none := by decide +kernel

/-- `invert([[1, 2]])` and `invert([[7]])` raise. -/
example : invert exactOracle (ctors exactOracle 30) [[rat 1, rat 2]] = .error .assertion ∧
    invert exactOracle (ctors exactOracle 30) [[rat 7]] = .error .notImplemented :=
  ⟨invert_other_sizes.1 (by simp), invert_other_sizes.2 (by simp) (by simp)⟩

/-- `(4*x**2 + 2*x*y).factor()` is `2*x*(y + 2*x)`. -/
example (ρ : Str → ℝ) (h : ρ ['x'] ≠ 0) : den ρ (prod [rat 2, x, sum [y, prod [rat 2, x]]]) =
    den ρ (sum [prod [rat 4, pow x (rat 2)], prod [rat 2, x, y]]) :=
  (factor_value exactOracle_exact 30 (c := prod [rat 2, x]) (built_of_self (by decide +kernel)) (by decide +kernel)
    (by simp [Dom, DomS, DomSL, intExp]) (by decide +kernel) (by simp [den, denP, h]) (by decide +kernel)).1

/-- `(x + 3)/((x + 1)*(x + 2))` becomes `2/(x + 1) - 1/(x + 2)`. -/
example (ρ : Str → ℝ) (h1 : ρ ['x'] + 1 ≠ 0) (h2 : ρ ['x'] + 2 ≠ 0) :
    den ρ (sum [prod [rat 2, pow (sum [x, rat 1]) (rat (-1))], prod [rat (-1), pow (sum [x, rat 2]) (rat (-1))]]) =
      den ρ (prod [sum [x, rat 3], pow (sum [x, rat 1]) (rat (-1)), pow (sum [x, rat 2]) (rat (-1))]) :=
  (partial_fractions_value exactOracle_exact 30 (v := ['x']) (a := sum [x, rat 3]) (a' := sum [x, rat 3])
    (b := prod [sum [x, rat 1], sum [x, rat 2]]) (d1 := sum [x, rat 1]) (d2 := sum [x, rat 2])
    (built_of_self (by decide +kernel)) (by decide +kernel)
    (by decide +kernel) (by decide +kernel) (by decide +kernel) (by decide +kernel) (by decide +kernel) (by decide +kernel)
    (by decide +kernel) (by decide +kernel) (by intro us c hb; cases hb) (by simp [DomR, DomRL, den, denS, intExp, h1, h2])
    (by decide +kernel)).1

/-- Symbolic coefficients: the leading coefficient `2**pi*1/2 - 2**pi/2` of the first difference is not simplified to 0, so the
division of `x**2` by `2*x + 2**pi` overwrites a coefficient of the quotient, and the new integrand is another function. -/
theorem polynomial_division_fails : ∃ (e r : Expr) (ρ : Str → ℝ), Built exactOracle e ∧ Dom ρ e ∧
    polyDiv exactOracle 30 20 ['x'] e = .ok (some r) ∧ den ρ r ≠ den ρ e := by
  refine ⟨prod [pow x (rat 2), pow (sum [prod [rat 2, x], pow (rat 2) pi]) (rat (-1))],
    sum [prod [sum [prod [rat (-1 / 2), pow (rat 2) pi, sum [prod [rat (1 / 4), pow (rat 2) (sum [pi, rat 1])],
        prod [rat (-1 / 2), pow (rat 2) pi]]], prod [rat (1 / 4), pow (rat 2) (prod [rat 2, pi])]],
        pow (sum [prod [rat 2, x], pow (rat 2) pi]) (rat (-1))], prod [rat (1 / 2), x],
      prod [rat (1 / 2), sum [prod [rat (1 / 4), pow (rat 2) (sum [pi, rat 1])], prod [rat (-1 / 2), pow (rat 2) pi]]]],
    fun _ => 0, built_of_self (by decide +kernel), ?_, by decide +kernel, ?_⟩
  · simp [Dom, DomS, DomSL, HN, den, denS, denP, intExp]
    have := Real.rpow_pos_of_pos (show (0 : ℝ) < 2 by norm_num) Real.pi
    rw [pw_of_nonneg (by norm_num)]; exact .inl this.ne'
  · have h0 := Real.rpow_pos_of_pos (show (0 : ℝ) < 2 by norm_num) Real.pi
    have h1 : pw 2 Real.pi = 2 ^ Real.pi := pw_of_nonneg (by norm_num) _
    have h2 : pw 2 (Real.pi + 1) = 2 * 2 ^ Real.pi := by
      rw [pw_of_nonneg (by norm_num), Real.rpow_add (by norm_num), Real.rpow_one, mul_comm]
    have h3 : pw 2 (2 * Real.pi) = 2 ^ Real.pi * 2 ^ Real.pi := by
      rw [pw_of_nonneg (by norm_num), two_mul, Real.rpow_add (by norm_num)]
    have h4 : pw 0 2 = 0 := by simpa using pw_int 0 2
    simp only [den, denS, denP]
    norm_num
    rw [h1, h2, h3, h4]
    ring_nf
    simp [h0.ne']
end examples
end Simpy
