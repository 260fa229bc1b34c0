import Verif.Proofs.ExpandSound
import Verif.Proofs.NumDenReal
import Verif.Proofs.ExactOracle
import Verif.Proofs.Built
import Verif.Proofs.Check
import Verif.Spec.Expand

/-!
# C16, C46: `expand` and `numerator_denominator`

`expandE O n e` is `e.expand()` with `n` stack levels left; `numDen O (ctors O n) ts` is `Prod(ts).numerator_denominator`.
-/

namespace Simpy
open Expr

variable {O : Oracle}

theorem intPowsL_iff : ∀ {ts : List Expr}, intPowsL ts = true ↔ ∀ t ∈ ts, intPows t = true
  | [] => by simp [intPowsL]
  | t :: r => by simp [intPowsL, intPowsL_iff (ts := r)]

theorem closed_intPows : Closed (fun e => intPows e = true) (fun e => intExp e = true) where
  acc := by intro c hc; cases c <;> simp_all [isAcc, intPows]
  sum := by intro ts; simp only [intPows, intPowsL_iff]
  prod := by intro ts; simp only [intPows, intPowsL_iff]
  pow := by intro b x; simp [intPows]
  x := .inr (by simp)
  absv := by intro i; simp only [intPows]
  log := by intro i b; simp [intPows]
  trig := by intro f i; simp [intPows]

/-- integer exponents, no logarithm, no inverse trig function -/
def Easy (e : Expr) : Prop := intPows e = true ∧ containsCls isLog e = false ∧ containsCls isInvTrig e = false

theorem Easy.rat (q : ℚ) : Easy (rat q) := by simp [Easy, intPows, containsCls, isLog, isInvTrig]
theorem Easy.sum {ts : List Expr} (h : Easy (sum ts)) : ∀ t ∈ ts, Easy t := fun t ht =>
  ⟨closed_intPows.sum.1 h.1 t ht, closed_noLog.sum.1 h.2.1 t ht, closed_noInv.sum.1 h.2.2 t ht⟩
theorem Easy.prod {ts : List Expr} (h : Easy (prod ts)) : ∀ t ∈ ts, Easy t := fun t ht =>
  ⟨closed_intPows.prod.1 h.1 t ht, closed_noLog.prod.1 h.2.1 t ht, closed_noInv.prod.1 h.2.2 t ht⟩
theorem Easy.prod' {ts : List Expr} (h : ∀ t ∈ ts, Easy t) : Easy (Expr.prod ts) :=
  ⟨closed_intPows.prod.2 fun t ht => (h t ht).1, closed_noLog.prod.2 fun t ht => (h t ht).2.1,
    closed_noInv.prod.2 fun t ht => (h t ht).2.2⟩
theorem Easy.pow {b x : Expr} (h : Easy (pow b x)) : Easy b ∧ intExp x = true := by
  have h1 := closed_intPows.pow.1 h.1
  exact ⟨⟨h1.1, (closed_noLog.pow.1 h.2.1).1, (closed_noInv.pow.1 h.2.2).1⟩, h1.2⟩

theorem mkProdSkip_easy {ts : List Expr} {r : Expr} (h : mkProdSkip ts = .ok r) (hts : ∀ t ∈ ts, Easy t) : Easy r :=
  ⟨mkProdSkip_Q closed_intPows h fun t ht => (hts t ht).1, mkProdSkip_Q closed_noLog h fun t ht => (hts t ht).2.1,
    mkProdSkip_Q closed_noInv h fun t ht => (hts t ht).2.2⟩

theorem numDenTerm_easy {n : Nat} {t : Expr} {p : List Expr × List Expr} (ht : Easy t)
    (h : numDenTerm O (ctors O n) t = .ok p) : (∀ u ∈ p.1, Easy u) ∧ (∀ u ∈ p.2, Easy u) := by
  unfold numDenTerm at h
  have gen : ∀ {b x : Expr}, Easy b → intExp x = true → (if negNum x = true then
        if beq O x (Expr.rat (-1)) = true then Except.ok ([], [b])
        else do
          let nx ← opNeg (ctors O n) x
          let p ← (ctors O n).pow b nx
          return ([], [p])
      else Except.ok ([t], [])) = Except.ok p → (∀ u ∈ p.1, Easy u) ∧ (∀ u ∈ p.2, Easy u) := by
    intro b x hb hx h
    split at h
    · split at h
      · simp only [Except.ok.injEq] at h; subst h; simp [hb]
      · obtain ⟨nx, h1, h⟩ := bind_ok.1 h
        obtain ⟨q, h2, h⟩ := bind_ok.1 h
        have := (pure_ok.1 h).symm; subst this
        obtain ⟨k, rfl⟩ := intExp_iff.1 hx
        simp only [opNeg, Except.ok.injEq] at h1
        subst h1
        have hi : intExp (Expr.rat (-(k : ℚ))) = true := by simp [intExp]
        have hr : ∀ q, containsCls isLog (Expr.rat q) = false ∧ containsCls isInvTrig (Expr.rat q) = false := by
          simp [containsCls, isLog, isInvTrig]
        have : Easy q := ⟨(ctors_pres closed_intPows O n).pow _ _ _ hb.1 hi h2,
          (ctors_pres closed_noLog O n).pow _ _ _ hb.2.1 (hr _).1 h2,
          (ctors_pres closed_noInv O n).pow _ _ _ hb.2.2 (hr _).2 h2⟩
        simp [this]
    · simp only [Except.ok.injEq] at h; subst h; simp [ht]
  have one : intExp (Expr.rat 1) = true := by decide
  cases t with
  | rat q =>
    simp only [Except.ok.injEq] at h; subst h
    constructor <;> intro u hu <;> dsimp only at hu <;> split at hu <;> simp at hu <;> subst hu <;> exact Easy.rat _
  | pow b x => exact gen ht.pow.1 ht.pow.2 h
  | _ => exact gen ht one h

theorem numDenLoop_easy {n : Nat} : ∀ (ts : List Expr) {a b : List Expr}, (∀ t ∈ ts, Easy t) →
    numDenLoop O (ctors O n) ts = .ok (a, b) → (∀ t ∈ a, Easy t) ∧ (∀ t ∈ b, Easy t)
  | [], a, b, _, h => by
    simp only [numDenLoop, Except.ok.injEq, Prod.mk.injEq] at h
    obtain ⟨rfl, rfl⟩ := h; simp
  | t :: ts, a, b, ht, h => by
    simp only [numDenLoop] at h
    obtain ⟨here, hh, h⟩ := bind_ok.1 h
    obtain ⟨⟨n', d'⟩, hr, h⟩ := bind_ok.1 h
    simp only [pure_ok, Prod.mk.injEq] at h
    obtain ⟨rfl, rfl⟩ := h
    obtain ⟨i1, i2⟩ := numDenLoop_easy ts (fun u hu => ht u (by simp [hu])) hr
    obtain ⟨k1, k2⟩ := numDenTerm_easy (ht t (by simp)) hh
    constructor
    · intro u hu; rcases List.mem_append.1 hu with hu | hu
      · exact k1 u hu
      · exact i1 u hu
    · intro u hu; rcases List.mem_append.1 hu with hu | hu
      · exact k2 u hu
      · exact i2 u hu

theorem numDen_easy {n : Nat} {ts : List Expr} {a b : Expr} (ht : ∀ t ∈ ts, Easy t)
    (h : numDen O (ctors O n) ts = .ok (a, b)) : Easy a ∧ Easy b := by
  unfold numDen at h
  obtain ⟨⟨n', d'⟩, hr, h⟩ := bind_ok.1 h
  obtain ⟨ne, h1, h⟩ := bind_ok.1 h
  obtain ⟨de, h2, h⟩ := bind_ok.1 h
  simp only [pure_ok, Prod.mk.injEq] at h
  obtain ⟨rfl, rfl⟩ := h
  obtain ⟨i1, i2⟩ := numDenLoop_easy ts ht hr
  exact ⟨mkProdSkip_easy h1 i1, mkProdSkip_easy h2 i2⟩

/-- `expand` introduces no inverse trig function. -/
theorem admE_noInv (O : Oracle) : AdmE O (fun e => containsCls isInvTrig e = false) where
  acc := closed_noInv.acc
  eul := by simp [containsCls, isInvTrig]
  sum := closed_noInv.sum.1
  prod := closed_noInv.prod.1
  pow := closed_noInv.pow.1
  log := closed_noInv.log
  trig := closed_noInv.trig
  absv := closed_noInv.absv.1
  pres := ctors_pres closed_noInv O
  rlog := fun _ hi h => logCtor_Q closed_noInv (fun _ => id)
    (fun i b hi hb => by simp [containsCls, isInvTrig, hi, hb]) hi (by simp [containsCls, isInvTrig]) h
  rtrig := by
    intro n f i i' r he hi h
    refine trigCtor_Q closed_noInv n (fun j hj => ?_) hi h
    simp only [containsCls, isInvTrig, Bool.or_eq_false_iff] at he ⊢
    exact ⟨he.1, hj⟩

theorem Easy.expandOk {ρ : Str → ℝ} : ∀ (n : Nat) {e : Expr}, Easy e → ExpandOk O ρ n e
  | 0, _, _ => trivial
  | n + 1, e, h => by
    cases e with
    | sum ts => exact fun t ht => Easy.expandOk n (h.sum t ht)
    | prod ts =>
      intro a b hab
      obtain ⟨e1, e2⟩ := numDen_easy h.prod hab
      refine ⟨fun _ => Easy.expandOk n e1, Easy.expandOk n e2, ?_⟩
      rintro us rfl u hu
      exact Easy.expandOk n (e1.prod u hu)
    | pow b x =>
      obtain ⟨k, hk⟩ := intExp_iff.1 h.pow.2
      refine ⟨Easy.expandOk n h.pow.1, ?_, ?_⟩
      · rw [hk]; exact Easy.expandOk n (Easy.rat _)
      · intro hx; rw [h.pow.2] at hx; simp at hx
    | log i b => have := h.2.1; simp [containsCls, isLog] at this
    | trig f i =>
      have hi : Easy i := ⟨closed_intPows.trig h.1, closed_noLog.trig h.2.1, closed_noInv.trig h.2.2⟩
      refine ⟨Easy.expandOk n hi, fun i' h1 => ?_⟩
      have hf : f.isInverse = false := by
        have := h.2.2; simp only [containsCls, isInvTrig, Bool.or_eq_false_iff] at this; exact this.1
      have hi' := (admE_noInv O).expandE n ((admE_noInv O).kid hi.2.2) h1
      rw [hf, if_neg (by simp)]
      refine ⟨trigSide_of_noInv O ρ n hi', ?_⟩
      rintro - ⟨g, w, rfl, hg⟩
      simp [containsCls, isInvTrig, hg] at hi'
    | absv i => exact Easy.expandOk n ⟨closed_intPows.absv.1 h.1, closed_noLog.absv.1 h.2.1, closed_noInv.absv.1 h.2.2⟩
    | _ => trivial

/-- **C16** for every expression with integer exponents and without logarithms and inverse trig functions (so: all
polynomials and rational functions of symbols, trig functions and absolute values): what `e.expand()` returns has the value
of `e` wherever `e` is defined, and is defined there. -/
theorem expand_value (hO : O.Exact) (n : Nat) {ρ : Str → ℝ} {e r : Expr} (he : Built O e) (hp : intPows e = true)
    (hl : containsCls isLog e = false) (hi : containsCls isInvTrig e = false) (hd : DomR ρ e)
    (h : expandE O n e = .ok r) : den ρ r = den ρ e ∧ Dom ρ r :=
  have w := he.wf hO
  have := expand_sound hO n ((adm_WF hO).kid w) ((Dom_iff_DomR w hl).2 hd) (Easy.expandOk n ⟨hp, hl, hi⟩) h
  ⟨this.2.2, this.2.1⟩

/-- **C16** for all expressions, on the principal domain, under the run conditions `ExpandOk`. Missing: logarithms to another
base than e, for which it is false (`expand_log_fails`), and expanded radicands that the constructors split into negative
factors. -/
theorem expand_value_partial (hO : O.Exact) (n : Nat) {ρ : Str → ℝ} {e r : Expr} (he : Built O e) (hd : Dom ρ e)
    (hok : ExpandOk O ρ n e) (h : expandE O n e = .ok r) : den ρ r = den ρ e ∧ Dom ρ r :=
  have := expand_sound hO n ((adm_WF hO).kid (he.wf hO)) hd hok h
  ⟨this.2.2, this.2.1⟩

/-- **C46** For a product `p` the pair `(a, b)` that `p.numerator_denominator` returns satisfies `p = a / b` wherever `p` is
defined over the reals, and `b` is defined and not 0 there. -/
theorem numerator_denominator_recomposes (hO : O.Exact) (n : Nat) {ρ : Str → ℝ} {ts : List Expr} {a b : Expr}
    (he : Built O (prod ts)) (hd : DomR ρ (prod ts)) (h : numDen O (ctors O n) ts = .ok (a, b)) :
    den ρ (prod ts) = den ρ a / den ρ b ∧ den ρ b ≠ 0 ∧ DomR ρ a ∧ DomR ρ b := by
  have w := (WF_prod.1 (he.wf hO)).2
  have f := negFreeL_iff.1 he.negFree
  obtain ⟨d1, d2, d3, d4⟩ := numDen_R hO (ρ := ρ) (fun t ht => ⟨w t ht, f t ht, domRL_iff.1 hd t ht⟩) h
  refine ⟨?_, d3, d1, d2⟩
  rw [den_prod, ← d4]; field_simp

/-- … and on the principal domain the parts are in the principal domain, too. -/
theorem numerator_denominator_principal (hO : O.Exact) (n : Nat) {ρ : Str → ℝ} {ts : List Expr} {a b : Expr}
    (he : Built O (prod ts)) (hd : Dom ρ (prod ts)) (h : numDen O (ctors O n) ts = .ok (a, b)) :
    den ρ (prod ts) = den ρ a / den ρ b ∧ den ρ b ≠ 0 ∧ Dom ρ a ∧ Dom ρ b := by
  have w := he.wf hO
  obtain ⟨-, -, d1, d2, d3, d4⟩ := numDen_V hO (st := false) (ρ := ρ)
    (fun t ht => ⟨(WF_prod.1 w).2 t ht, Dom_prod.1 hd t ht⟩) h
  refine ⟨?_, d3, d1, d2⟩
  rw [den_prod, ← d4]; field_simp

section examples
set_option maxRecDepth 10000
private abbrev x : Expr := sym ['x']
private abbrev y : Expr := sym ['y']

/-- `(3*(x + 1)*(y - 2)**2).expand()` at every point. -/
example (ρ : Str → ℝ) : den ρ (sum [prod [rat 3, x, pow y (rat 2)], prod [rat 3, pow y (rat 2)], prod [rat (-12), x, y],
    prod [rat 12, x], prod [rat (-12), y], rat 12]) = den ρ (prod [rat 3, sum [x, rat 1], pow (sum [y, rat (-2)]) (rat 2)]) :=
  (expand_value exactOracle_exact 30 (built_of_self (by decide +kernel)) (by decide +kernel) (by decide +kernel)
    (by decide +kernel) (by simp [DomR, DomRL, intExp]) (by decide +kernel)).1

/-- `((x + 1)/(y + 2)**2).expand()` wherever `y ≠ -2`. -/
example (ρ : Str → ℝ) (h : ρ ['y'] + 2 ≠ 0) :
    den ρ (sum [prod [x, pow (sum [pow y (rat 2), prod [rat 4, y], rat 4]) (rat (-1))],
      pow (sum [pow y (rat 2), prod [rat 4, y], rat 4]) (rat (-1))]) =
    den ρ (prod [sum [x, rat 1], pow (sum [y, rat 2]) (rat (-2))]) :=
  (expand_value exactOracle_exact 30 (built_of_self (by decide +kernel)) (by decide +kernel) (by decide +kernel)
    (by decide +kernel) (by simp [DomR, DomRL, intExp, den, denS, h]) (by decide +kernel)).1

/-- `log(x*(x + 1), 2).expand()` is `log(x**2 + x)`: the base is lost. -/
theorem expand_log_fails : ∃ (e r : Expr) (ρ : Str → ℝ), Built exactOracle e ∧ Dom ρ e ∧ expandE exactOracle 30 e = .ok r ∧
    den ρ r ≠ den ρ e := by
  have hp : Built exactOracle (prod [x, sum [x, rat 1]]) := built_of_self (by decide +kernel)
  refine ⟨log (prod [x, sum [x, rat 1]]) (rat 2), log (sum [pow x (rat 2), x]) euler, fun _ => 1,
    .log hp (.rat 2) (by decide +kernel), ?_, by decide +kernel, ?_⟩
  · simp [Dom, DomS, DomSL, HN, HNL, den, denS, denP, isSubtraction]
  · simp only [den, denS, denP]
    have h2 : Real.log 2 ≠ 0 := (Real.log_pos (by norm_num)).ne'
    have h3 : Real.log 2 < 1 := by have := Real.log_lt_sub_one_of_pos (x := 2) (by norm_num) (by norm_num); linarith
    norm_num
    exact h3.ne

/-- `(3/5*x*y**-3*2**(-1/2)).numerator_denominator` is `(3*x, 5*2**(1/2)*y**3)`. -/
example (ρ : Str → ℝ) (h : ρ ['y'] ≠ 0) :
    den ρ (prod [rat (3 / 5), pow (rat 2) (rat (-1 / 2)), x, pow y (rat (-3))]) =
      den ρ (prod [rat 3, x]) / den ρ (prod [rat 5, pow (rat 2) (rat (1 / 2)), pow y (rat 3)]) :=
  (numerator_denominator_recomposes exactOracle_exact 30 (built_of_self (by decide +kernel))
    (by simp [DomR, DomRL, den, h, intExp]) (by decide +kernel)).1

/-- With the logarithm of a product of negative numbers: `(x*ln(x*y)**-2).numerator_denominator` at `x = y = -2`. -/
example : Built exactOracle (prod [x, pow (log (prod [x, y]) euler) (rat (-2))]) ∧
    DomR (fun _ => -2) (prod [x, pow (log (prod [x, y]) euler) (rat (-2))]) ∧
    numDen exactOracle (ctors exactOracle 30) [x, pow (log (prod [x, y]) euler) (rat (-2))] =
      .ok (x, pow (log (prod [x, y]) euler) (rat 2)) := by
  refine ⟨built_of_self (by decide +kernel), ?_, by decide +kernel⟩
  have h : Real.log 4 ≠ 0 := (Real.log_pos (by norm_num)).ne'
  norm_num [DomR, DomRL, den, denP, intExp, Real.exp_pos, h]

/-- The run conditions can be met with a root: `(sqrt(x)*(x + 1)).expand()`. -/
example (ρ : Str → ℝ) (h : 0 ≤ ρ ['x']) :
    den ρ (sum [pow x (rat (3 / 2)), pow x (rat (1 / 2))]) = den ρ (prod [pow x (rat (1 / 2)), sum [x, rat 1]]) := by
  refine (expand_value_partial exactOracle_exact 30 (built_of_self (by decide +kernel))
    (by simp [Dom, DomS, DomSL, HN, den, h]) ?_ (by decide +kernel)).1
  intro a b hab
  have e : numDen exactOracle (ctors exactOracle 29) [pow x (rat (1 / 2)), sum [x, rat 1]] =
    .ok (prod [pow x (rat (1 / 2)), sum [x, rat 1]], rat 1) := by decide +kernel
  rw [e] at hab
  simp only [Except.ok.injEq, Prod.mk.injEq] at hab
  obtain ⟨rfl, rfl⟩ := hab
  have hp : ∀ k, k ≤ 29 → ExpandOk exactOracle ρ k (pow x (rat (1 / 2))) := by
    intro k _
    match k with
    | 0 => trivial
    | 1 => exact ⟨trivial, trivial, fun _ hb => by simp [expandableE] at hb⟩
    | k + 2 => exact ⟨trivial, trivial, fun _ hb => by simp [expandableE] at hb⟩
  have hs : ∀ k, ExpandOk exactOracle ρ k (sum [x, rat 1]) := fun k => Easy.expandOk k ⟨by decide +kernel, by decide +kernel, by decide +kernel⟩
  refine ⟨?_, Easy.expandOk _ (Easy.rat 1), ?_⟩
  · intro h; exact absurd rfl (h _)
  · intro us hus u hu
    cases hus
    simp only [List.mem_cons, List.not_mem_nil, or_false] at hu
    rcases hu with rfl | rfl
    · exact hp 29 le_rfl
    · exact hs 29

end examples
end Simpy
