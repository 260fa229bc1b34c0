import Verif.Proofs.ExactOracle
import Verif.Proofs.DomF
import Verif.Proofs.Built
import Verif.Proofs.Check

/-!
# C01 - C04, C42: the constructors and operators preserve value

`den ρ e` is the value of `e` (Spec/Eval.lean), `Dom` the principal and `DomF` the textbook domain.
`(ctors O n).sum ts` is `Sum(ts)` in a Python with `n` stack frames left; `O` is the floating-point oracle.
-/

namespace Simpy
open Expr

/-- **C01** `Sum(terms)`: wherever the terms are defined (textbook domain), the result is defined and has the
value of the sum. -/
theorem sum_value {O : Oracle} (hO : O.Exact) (n : Nat) {ts : List Expr} {r : Expr} (hb : ∀ t ∈ ts, Built O t)
    (h : (ctors O n).sum ts = .ok r) (ρ : Str → ℝ) (hd : ∀ t ∈ ts, DomF ρ t) :
    den ρ r = (ts.map (den ρ)).sum ∧ DomF ρ r := by
  cases n with
  | zero => simp [ctors] at h
  | succ n => exact sumCtor_val (denInterpF ρ) hO.isPi hO.isE (fun t ht => (hb t ht).wf hO) hd h

/-- **C01** on the principal domain, which is also preserved. -/
theorem sum_value_principal {O : Oracle} (hO : O.Exact) (n : Nat)
    {ts : List Expr} {r : Expr} (hb : ∀ t ∈ ts, Built O t) (h : (ctors O n).sum ts = .ok r) (ρ : Str → ℝ)
    (hd : ∀ t ∈ ts, Dom ρ t) : den ρ r = (ts.map (den ρ)).sum ∧ Dom ρ r :=
  (ctors_sound hO n).sum ρ ts r (fun t ht => (hb t ht).wf hO) hd h

/-- **C02** `Prod(terms)` on the principal domain. Missing for the textbook domain: see
`prod_value_textbook_fails`. -/
theorem prod_value_partial {O : Oracle} (hO : O.Exact) (n : Nat) {ts : List Expr} {r : Expr}
    (hb : ∀ t ∈ ts, Built O t) (h : (ctors O n).prod ts = .ok r) (ρ : Str → ℝ) (hd : ∀ t ∈ ts, Dom ρ t) :
    den ρ r = (ts.map (den ρ)).prod ∧ Dom ρ r :=
  (ctors_sound hO n).prod ρ ts r (fun t ht => (hb t ht).wf hO) hd h

/-- **C02** `Prod(terms)` without logarithms, on the plain real domain (no zero denominators, roots of
non-negative numbers only): the value is the product, and the result is defined. -/
theorem prod_value_logfree {O : Oracle} (hO : O.Exact) (n : Nat) {ts : List Expr} {r : Expr}
    (hb : ∀ t ∈ ts, Built O t) (hl : ∀ t ∈ ts, containsCls isLog t = false)
    (h : (ctors O n).prod ts = .ok r) (ρ : Str → ℝ) (hd : ∀ t ∈ ts, DomR ρ t) :
    den ρ r = (ts.map (den ρ)).prod ∧ DomR ρ r :=
  have := prod_value_partial hO n hb h ρ (fun t ht => (Dom_iff_DomR ((hb t ht).wf hO) (hl t ht)).2 (hd t ht))
  ⟨this.1, this.2.domR⟩

/-- **C03** `Power(b, x)` on the principal domain. Missing for the textbook domain: see
`power_value_textbook_fails`. -/
theorem power_value_partial {O : Oracle} (hO : O.Exact) (n : Nat) {b x r : Expr} (hb : Built O b)
    (hx : Built O x) (h : (ctors O n).pow b x = .ok r) (ρ : Str → ℝ) (hd : PowDom ρ b x) :
    den ρ r = pw (den ρ b) (den ρ x) ∧ Dom ρ r :=
  (ctors_sound hO n).pow ρ b x r (hb.wf hO) (hx.wf hO) hd h

/-- **C03** integer exponents: `Power(b, k)` of a log-free base is `b ^ k`, whatever the sign of `b`. -/
theorem power_value_int {O : Oracle} (hO : O.Exact) (n : Nat) {b r : Expr} (k : ℤ) (hb : Built O b)
    (hl : containsCls isLog b = false) (h : (ctors O n).pow b (rat k) = .ok r) (ρ : Str → ℝ) (hd : DomR ρ b)
    (h0 : den ρ b ≠ 0 ∨ 0 ≤ k) : den ρ r = den ρ b ^ k ∧ DomR ρ r := by
  have := power_value_partial hO n hb (.rat k) h ρ
    ⟨(Dom_iff_DomR (hb.wf hO) hl).2 hd, by simp [Dom, DomS], by simpa [den] using h0, by simp [intExp]⟩
  refine ⟨?_, this.2.domR⟩
  rw [this.1]; simpa [den] using pw_int (den ρ b) k

/-- **C03** any exponent over a base that is neither a product nor a power: `Power(b, x)` is `b ^ x` (the real
power) wherever the base is non-negative. -/
theorem power_value_atomic {O : Oracle} (hO : O.Exact) (n : Nat) {b x r : Expr} (hb : Built O b)
    (hx : Built O x) (hp : b.isProd = false) (hq : b.isPow = false)
    (hl : containsCls isLog b = false) (hl' : containsCls isLog x = false)
    (h : (ctors O n).pow b x = .ok r) (ρ : Str → ℝ) (hd : DomR ρ b) (hd' : DomR ρ x)
    (h0 : 0 ≤ den ρ b) (h1 : den ρ b ≠ 0 ∨ 0 ≤ den ρ x) : den ρ r = den ρ b ^ den ρ x ∧ DomR ρ r := by
  have := power_value_partial hO n hb hx h ρ
    ⟨(Dom_iff_DomR (hb.wf hO) hl).2 hd, (Dom_iff_DomR (hx.wf hO) hl').2 hd', h1, (fun _ => by
      cases b <;> simp_all [RadOk, isProd, isPow]), by simp⟩
  refine ⟨?_, this.2.domR⟩
  rw [this.1, pw_of_nonneg h0]

/-- **C04** the operators. Partial only in that `/`, `*`, `**` are on the principal domain. -/
theorem operators_value_partial {O : Oracle} (hO : O.Exact) (n : Nat) {a b r : Expr} (ha : Built O a)
    (hb : Built O b) (ρ : Str → ℝ) (da : Dom ρ a) (db : Dom ρ b) :
    (opAdd (ctors O n) a b = .ok r → den ρ r = den ρ a + den ρ b ∧ Dom ρ r) ∧
    (opSub (ctors O n) a b = .ok r → den ρ r = den ρ a - den ρ b ∧ Dom ρ r) ∧
    (opMul (ctors O n) a b = .ok r → den ρ r = den ρ a * den ρ b ∧ Dom ρ r) ∧
    (den ρ b ≠ 0 → opDiv (ctors O n) a b = .ok r → den ρ r = den ρ a / den ρ b ∧ Dom ρ r) ∧
    (PowDom ρ a b → opPow O (ctors O n) a b = .ok r → den ρ r = pw (den ρ a) (den ρ b) ∧ Dom ρ r) ∧
    (opNeg (ctors O n) a = .ok r → den ρ r = -den ρ a ∧ Dom ρ r) :=
  have hC := ctors_sound hO n
  have wa := ha.wf hO
  have wb := hb.wf hO
  ⟨opAdd_V hC wa wb da db, opSub_V hC wa wb da db, opMul_V hC wa wb da db, opDiv_V hC wa wb da db,
    opPow_V hC wa wb, opNeg_V hC wa da⟩

/-- **C04** the ring operators and division on log-free operands, on the plain real domain. -/
theorem operators_value_logfree {O : Oracle} (hO : O.Exact) (n : Nat) {a b r : Expr} (ha : Built O a)
    (hb : Built O b) (hl : containsCls isLog a = false) (hl' : containsCls isLog b = false)
    (ρ : Str → ℝ) (da : DomR ρ a) (db : DomR ρ b) :
    (opAdd (ctors O n) a b = .ok r → den ρ r = den ρ a + den ρ b ∧ DomR ρ r) ∧
    (opSub (ctors O n) a b = .ok r → den ρ r = den ρ a - den ρ b ∧ DomR ρ r) ∧
    (opMul (ctors O n) a b = .ok r → den ρ r = den ρ a * den ρ b ∧ DomR ρ r) ∧
    (den ρ b ≠ 0 → opDiv (ctors O n) a b = .ok r → den ρ r = den ρ a / den ρ b ∧ DomR ρ r) ∧
    (opNeg (ctors O n) a = .ok r → den ρ r = -den ρ a ∧ DomR ρ r) :=
  have H := operators_value_partial hO n ha hb (r := r) ρ ((Dom_iff_DomR (ha.wf hO) hl).2 da)
    ((Dom_iff_DomR (hb.wf hO) hl').2 db)
  ⟨fun h => (H.1 h).imp_right DomS.domR, fun h => (H.2.1 h).imp_right DomS.domR,
    fun h => (H.2.2.1 h).imp_right DomS.domR, fun h0 h => (H.2.2.2.1 h0 h).imp_right DomS.domR,
    fun h => (H.2.2.2.2.2 h).imp_right DomS.domR⟩

/-- **C42** `Abs(e)`. -/
theorem abs_value {O : Oracle} (hO : O.Exact) (n : Nat) {i r : Expr} (hi : Built O i)
    (h : (ctors O n).abs i = .ok r) (ρ : Str → ℝ) (d : Dom ρ i) : den ρ r = |den ρ i| ∧ Dom ρ r :=
  (ctors_sound hO n).abs ρ i r (hi.wf hO) d (by simp) h

/-- **C42** the bars are dropped (the result is the argument itself) only if the value is non-negative. -/
theorem abs_dropped_nonneg {O : Oracle} (hO : O.Exact) (n : Nat) {i : Expr} (hi : Built O i)
    (h : (ctors O n).abs i = .ok i) (ρ : Str → ℝ) (d : Dom ρ i) : 0 ≤ den ρ i := by
  rw [(abs_value hO n hi h ρ d).1]; exact abs_nonneg _

/-! ## The hypotheses are met, and the code is really run -/

section examples
set_option maxRecDepth 10000

private def x : Expr := sym ['x']
private def y : Expr := sym ['y']

/-- `Sum([x, 2, x, 3*y, -2])` is `3*y + 2*x` in the model, so `sum_value` applies to it at every `ρ`. -/
example (ρ : Str → ℝ) : ρ ['x'] + (2 + (ρ ['x'] + (3 * ρ ['y'] + (-2 + 0)))) =
    2 * ρ ['x'] + 3 * ρ ['y'] := by
  have h : (ctors exactOracle 30).sum [x, rat 2, x, prod [rat 3, y], rat (-2)] =
      .ok (sum [prod [rat 3, y], prod [rat 2, x]]) := by decide +kernel
  have := (sum_value exactOracle_exact 30 (builtL_of_self (by decide +kernel)) h ρ
    (by simp [DomF, DomFL, x, y])).1
  simp [den, denS, denP, x, y] at this
  linarith

/-- `Prod([x, y, x**2, 3])` is `3*x**3*y`. -/
example (ρ : Str → ℝ) : den ρ (prod [rat 3, y, pow x (rat 3)]) =
    ([x, y, pow x (rat 2), rat 3].map (den ρ)).prod := by
  have h : (ctors exactOracle 30).prod [x, y, pow x (rat 2), rat 3] =
      .ok (prod [rat 3, y, pow x (rat 3)]) := by decide +kernel
  exact (prod_value_partial exactOracle_exact 30 (builtL_of_self (by decide +kernel)) h ρ
    (by simp [Dom, DomS, x, y, intExp])).1

/-- `Power(4*x**2, 1/2)` is `2*|x|`, at every `ρ`, including negative `x`. -/
example (ρ : Str → ℝ) : den ρ (prod [rat 2, absv x]) = pw (den ρ (prod [rat 4, pow x (rat 2)])) (1 / 2) := by
  have h : (ctors exactOracle 30).pow (prod [rat 4, pow x (rat 2)]) (rat (1 / 2)) =
      .ok (prod [rat 2, absv x]) := by decide +kernel
  have := (power_value_partial exactOracle_exact 30 (built_of_self (by decide +kernel)) (.rat _) h ρ ?_).1
  · rw [this]; simp
  · refine ⟨?_, by simp, .inr (by simp), fun _ => ?_, by simp⟩
    · simp [Dom, DomS, DomSL, x, intExp]
    · simp only [RadOk, isSubtraction]
      norm_num [RadOkL, RadOk]

/-- `Abs(-3*x)`: the model really returns an absolute value. -/
example : (ctors exactOracle 30).abs (prod [rat (-3), x]) = .ok (absv (prod [rat (-3), x])) := by decide +kernel

/-- operators: `(x + 1) - (x + y)` is `-y + 1`. -/
example : opSub (ctors exactOracle 30) (sum [x, rat 1]) (sum [x, y]) =
    .ok (sum [prod [rat (-1), y], rat 1]) := by decide +kernel

end examples

/-! ## Why C02 and C03 are only proved on the principal domain: the code is wrong outside it -/

section failures
set_option maxRecDepth 10000

/-- `Power(x**2, 3/2)` returns `x**3`, which at `x = -1` is `-1`, not `1`. -/
theorem power_value_textbook_fails : ∃ (b x r : Expr) (ρ : Str → ℝ), Built exactOracle b ∧
    Built exactOracle x ∧
    DomF ρ (pow b x) ∧ (ctors exactOracle 30).pow b x = .ok r ∧ DomF ρ r ∧
    den ρ r ≠ pw (den ρ b) (den ρ x) := by
  refine ⟨pow (sym ['x']) (rat 2), rat (3 / 2), pow (sym ['x']) (rat 3), fun _ => -1,
    built_of_self (by decide +kernel), .rat _,
    ?_, by decide +kernel, ?_, ?_⟩
  · have e : pw (-1) (2 : ℝ) = 1 := by
      have := pw_int (-1) 2; push_cast at this; rw [this]; norm_num
    simp only [DomF, den, true_and]
    refine ⟨⟨.inl (by norm_num), .inr ⟨2, by norm_num, by decide⟩⟩, .inl ?_, .inl ?_⟩ <;>
      (push_cast; rw [e]; norm_num)
  · simp only [DomF, den, true_and]
    exact ⟨.inl (by norm_num), .inr ⟨3, by norm_num, by decide⟩⟩
  · have e2 : pw (-1) (2 : ℝ) = 1 := by
      have := pw_int (-1) 2; push_cast at this; rw [this]; norm_num
    have e3 : pw (-1) (3 : ℝ) = -1 := by
      have := pw_int (-1) 3; push_cast at this; rw [this]; norm_num
    simp only [den]; push_cast
    rw [e2, e3, one_pw]; norm_num

private def lxy : Expr := log (prod [sym ['x'], sym ['y']]) euler
private def f1 : Expr := pow euler (sum [lxy, sym ['z']])
private def f2 : Expr := pow euler (sum [prod [rat (-1 / 2), lxy], prod [rat (-1), sym ['z']]])

/-- `e**(ln(x*y) + z) * e**(-ln(x*y)/2 - z)` returns `sqrt(x)*sqrt(y)`: at `x = y = -1` both factors are defined
(their product is 1) and the result is not. -/
theorem prod_value_textbook_fails : ∃ (ts : List Expr) (r : Expr) (ρ : Str → ℝ),
    (∀ t ∈ ts, Built exactOracle t) ∧ (∀ t ∈ ts, DomF ρ t) ∧ (ctors exactOracle 30).prod ts = .ok r ∧
    ¬ DomF ρ r := by
  refine ⟨[f1, f2], prod [pow (sym ['x']) (rat (1 / 2)), pow (sym ['y']) (rat (1 / 2))],
    fun s => if s = ['z'] then 0 else -1,
    builtL_of_self (by decide +kernel), ?_, by decide +kernel, ?_⟩
  · have hx : ¬ (['x'] : Str) = ['z'] := by decide
    have hy : ¬ (['y'] : Str) = ['z'] := by decide
    have he : (0 : ℝ) < Real.exp 1 := Real.exp_pos 1
    intro t ht
    rcases List.mem_cons.1 ht with rfl | ht
    · simp [f1, lxy, DomF, DomFL, den, denP, hx, hy, he.le]; exact he
    · obtain rfl := List.mem_singleton.1 ht
      simp [f2, lxy, DomF, DomFL, den, denP, hx, hy, he.le]; exact he
  · have hx : ¬ (['x'] : Str) = ['z'] := by decide
    simp only [DomF, DomFL, den, hx, if_false]
    rintro ⟨⟨-, -, -, h | ⟨q, hq, ho⟩⟩, -⟩
    · norm_num at h
    · have : q = 1 / 2 := by exact_mod_cast hq
      subst this
      revert ho; decide +kernel

end failures

end Simpy
