import Verif.Proofs.FracSound
import Verif.Proofs.EasyRep
import Verif.Proofs.ExactOracle
import Verif.Proofs.Check
import Verif.Spec.Simplify
import Mathlib.Analysis.Real.Pi.Bounds

/-!
# C45, C49, C53: simplification

`oneFraction O C k e` is `rewrite_as_one_fraction(e, include_const_denoms=k)` (`none` for `None`), `reciprocateTrigs O n e` is
`reciprocate_trigs(e)`, `replaceClass O (toSinCos O) n e` the rewriting of tan, csc, cot, sec into sin and cos, `simplifyE O n e`
is `simplify(e)`, with `n` stack levels left.
-/

namespace Simpy
open Expr

variable {O : Oracle}

/-! ## The queries

The model has the queries of the rules as literals. They are what the constructors and `expand` make of the Python source:
`Eq.__init__` turns the query `q` into `(any_factor * q).expand()`. -/

/-- `c + s * f(any_)**2`, times `any_factor` and expanded. -/
private def sumQuery (c s : ℚ) (f : TrigFn) : R Expr := do
  let C := ctors exactOracle 20
  let t ← trigCtor exactOracle 20 f (any anyKey)
  let p ← opPow exactOracle C t (rat 2)
  let q ← if s = 1 then opAdd C (rat c) p else opSub C (rat c) p
  let m ← opMul C (any factorKey) q
  expandE exactOracle 20 m

/-- `f(any_) * g(any_)`, times `any_factor`. -/
private def prodQuery (f g : TrigFn) : R Expr := do
  let C := ctors exactOracle 20
  let a ← trigCtor exactOracle 20 f (any anyKey)
  let b ← trigCtor exactOracle 20 g (any anyKey)
  let q ← opMul C a b
  opMul C (any factorKey) q

set_option maxRecDepth 10000 in
example : [(sumQuery 1 1 .tan, TrigFn.sec), (sumQuery 1 (-1) .sin, .cos), (sumQuery 1 (-1) .cos, .sin),
      (sumQuery (-1) 1 .sec, .tan), (sumQuery 1 1 .cot, .csc), (sumQuery (-1) 1 .csc, .cot)] =
    identities.map (fun p => (.ok (sum p.1), p.2)) := by decide +kernel

set_option maxRecDepth 10000 in
example : [(prodQuery .sin .sec, TrigFn.tan), (prodQuery .cos .csc, .cot)] = combineQueries.map (fun p => (.ok p.1, p.2)) := by
  decide +kernel

/-! ## C45 -/

/-- **C45**, log-free sums: wherever the sum is defined. -/
theorem one_fraction_value (hO : O.Exact) (n : Nat) {k : Bool} {ρ : Str → ℝ} {e r : Expr} (he : Built O e)
    (hl : containsCls isLog e = false) (hd : DomR ρ e) (h : oneFraction O (ctors O n) k e = .ok (some r)) :
    den ρ r = den ρ e ∧ Dom ρ r :=
  have w := he.wf hO
  have v := oneFraction_V hO w ((Dom_iff_DomR w hl).2 hd) h
  ⟨v.2.2, v.2.1⟩

/-- **C45**, all sums: on the principal domain. -/
theorem one_fraction_value_partial (hO : O.Exact) (n : Nat) {k : Bool} {ρ : Str → ℝ} {e r : Expr} (he : Built O e)
    (hd : Dom ρ e) (h : oneFraction O (ctors O n) k e = .ok (some r)) : den ρ r = den ρ e ∧ Dom ρ r :=
  have v := oneFraction_V hO (he.wf hO) hd h
  ⟨v.2.2, v.2.1⟩

section
set_option maxRecDepth 10000

private def x : Expr := sym ['x']
private def y : Expr := sym ['y']

/-- `y/(x+1) + 1/x + 2`. -/
private def frac : Expr := sum [prod [y, pow (sum [x, rat 1]) (rat (-1))], pow x (rat (-1)), rat 2]

/-- The case `y/(x+1) + 1/x + 2` at `x = 1, y = 3`. -/
example : Built exactOracle frac ∧ containsCls isLog frac = false ∧ DomR (fun s => if s = ['x'] then 1 else 3) frac ∧
    oneFraction exactOracle (ctors exactOracle 30) true frac = .ok (some (prod [pow x (rat (-1)), pow (sum [x, rat 1]) (rat (-1)),
      sum [prod [rat 2, x, sum [x, rat 1]], prod [x, y], x, rat 1]])) := by
  refine ⟨built_of_self (by decide +kernel), by decide +kernel, ?_, by decide +kernel⟩
  simp [frac, x, y, DomR, DomRL, den, denS, intExp]

end

/-! ## C49 -/

/-- **C49** `reciprocate_trigs`, for every expression with integer exponents and without logarithms and inverse trig
functions. -/
theorem reciprocate_trigs_value (hO : O.Exact) (n : Nat) {ρ : Str → ℝ} {e r : Expr} (he : Built O e) (hp : intPows e = true)
    (hl : containsCls isLog e = false) (hi : containsCls isInvTrig e = false) (hd : DomR ρ e)
    (h : reciprocateTrigs O n e = .ok r) : den ρ r = den ρ e ∧ Dom ρ r :=
  have w := he.wf hO
  have v := replace_easy hO (recipPerf_easy hO false ρ) recipPerf_noInv (fun _ _ => rfl) w ((Dom_iff_DomR w hl).2 hd)
    ⟨hp, hl, hi⟩ h
  ⟨v.2.2, v.2.1⟩

/-- **C49** `reciprocate_trigs`, for every expression: provided that the run keeps to principal branches (`RunTame`) and that the
nodes the rule is applied to have an integer exponent or a plain new base, and no inverse trig function in the argument
(`recipOk`). -/
theorem reciprocate_trigs_value_partial (hO : O.Exact) (n : Nat) {ρ : Str → ℝ} {e r : Expr} (he : Built O e) (hd : Dom ρ e)
    (hv : Visits (recipPerf O) (recipOk O) n e = true) (ht : RunTame O (recipPerf O) n e = true)
    (h : reciprocateTrigs O n e = .ok r) : den ρ r = den ρ e ∧ Dom ρ r :=
  have v := replace_on hO (recipPerf_on hO false ρ) (he.wf hO) hd hv ht h
  ⟨v.2.2, v.2.1⟩

/-- **C49** tan, csc, cot, sec into sin and cos, for every expression with integer exponents and without logarithms and inverse
trig functions. -/
theorem to_sin_cos_value (hO : O.Exact) (n : Nat) {ρ : Str → ℝ} {e r : Expr} (he : Built O e) (hp : intPows e = true)
    (hl : containsCls isLog e = false) (hi : containsCls isInvTrig e = false) (hd : DomR ρ e)
    (h : replaceClass O (toSinCos O) n e = .ok r) : den ρ r = den ρ e ∧ Dom ρ r :=
  have w := he.wf hO
  have v := replaceClass_sound hO (toSinCos_ok hO false ρ) n w ((Dom_iff_DomR w hl).2 hd) (fun _ _ _ _ => trivial)
    (Easy.runTameC (toSinCos_QE (admE_noInv O) (noInv_ptrig O)) n ⟨hp, hl, hi⟩) h
  ⟨v.2.2, v.2.1⟩

/-- **C49** tan, csc, cot, sec into sin and cos, for every expression, provided that the run keeps to principal branches. -/
theorem to_sin_cos_value_partial (hO : O.Exact) (n : Nat) {ρ : Str → ℝ} {e r : Expr} (he : Built O e) (hd : Dom ρ e)
    (ht : RunTameC O (toSinCos O) n e = true)
    (h : replaceClass O (toSinCos O) n e = .ok r) : den ρ r = den ρ e ∧ Dom ρ r :=
  have v := replaceClass_sound hO (toSinCos_ok hO false ρ) n (he.wf hO) hd (fun _ _ _ _ => trivial) ht h
  ⟨v.2.2, v.2.1⟩

section
set_option maxRecDepth 10000

/-- `x/tan(y) + 1/sin(x)^2`. -/
private def recip1 : Expr := sum [prod [x, pow (trig .tan y) (rat (-1))], pow (trig .sin x) (rat (-2))]

/-- The case `x/tan(y) + 1/sin(x)^2` at `x = π/2, y = 1`. -/
example : Built exactOracle recip1 ∧ intPows recip1 = true ∧ containsCls isLog recip1 = false ∧
    containsCls isInvTrig recip1 = false ∧ DomR (fun s => if s = ['x'] then Real.pi / 2 else 1) recip1 ∧
    reciprocateTrigs exactOracle 20 recip1 = .ok (sum [pow (trig .csc x) (rat 2), prod [x, trig .cot y]]) := by
  refine ⟨built_of_self (by decide +kernel), by decide +kernel, by decide +kernel, by decide +kernel, ?_, by decide +kernel⟩
  have hc : Real.cos 1 ≠ 0 := Real.cos_one_pos.ne'
  have hs : Real.sin 1 ≠ 0 := (Real.sin_pos_of_pos_of_lt_pi (by norm_num) (by linarith [Real.pi_gt_three])).ne'
  have ht : Real.tan 1 ≠ 0 := by rw [Real.tan_eq_sin_div_cos]; exact div_ne_zero hs hc
  simp [recip1, x, y, DomR, DomRL, den, intExp, TrigFn.ok, TrigFn.real, hc, hs, ht]

/-- `csc(x)^(3/2)` from `sin(x)^(-3/2)` at `x = π/2`: the second theorem covers non-integer exponents. -/
example : Built exactOracle (pow (trig .sin x) (rat (-3/2))) ∧
    Dom (fun _ => Real.pi / 2) (pow (trig .sin x) (rat (-3/2))) ∧
    Visits (recipPerf exactOracle) (recipOk exactOracle) 20 (pow (trig .sin x) (rat (-3/2))) = true ∧
    RunTame exactOracle (recipPerf exactOracle) 20 (pow (trig .sin x) (rat (-3/2))) = true ∧
    reciprocateTrigs exactOracle 20 (pow (trig .sin x) (rat (-3/2))) = .ok (pow (trig .csc x) (rat (3/2))) := by
  refine ⟨built_of_self (by decide +kernel), ?_, by decide +kernel, by decide +kernel, by decide +kernel⟩
  simp [x, Dom, DomS, den, HN, TrigFn.ok, TrigFn.real]

/-- `sec(y)*tan(x) + 3`. -/
private def sec1 : Expr := sum [prod [trig .sec y, trig .tan x], rat 3]

/-- The case `sec(y)*tan(x) + 3` at `x = y = 0`. -/
example : Built exactOracle sec1 ∧ intPows sec1 = true ∧ containsCls isLog sec1 = false ∧ containsCls isInvTrig sec1 = false ∧
    DomR (fun _ => 0) sec1 ∧ RunTameC exactOracle (toSinCos exactOracle) 20 sec1 = true ∧
    replaceClass exactOracle (toSinCos exactOracle) 20 sec1 = .ok (sum [prod [trig .sin x, pow (trig .cos x) (rat (-1)),
      pow (trig .cos y) (rat (-1))], rat 3]) := by
  refine ⟨built_of_self (by decide +kernel), by decide +kernel, by decide +kernel, by decide +kernel, ?_, by decide +kernel,
    by decide +kernel⟩
  simp [sec1, x, y, DomR, DomRL, den, TrigFn.ok]

end

/-! ## C53 -/

mutual
theorem countSymbols_eq : ∀ e : Expr, countSymbols e = (syms e).length
  | sum ts => by simp only [countSymbols, generalCount, isSym, syms]; exact countSymbolsL_eq ts
  | prod ts => by simp only [countSymbols, generalCount, isSym, syms]; exact countSymbolsL_eq ts
  | pow b x => by
    have h1 := countSymbols_eq b; have h2 := countSymbols_eq x
    simp only [countSymbols] at h1 h2
    simp [countSymbols, generalCount, isSym, syms, h1, h2]
  | log b x => by
    have h1 := countSymbols_eq b; have h2 := countSymbols_eq x
    simp only [countSymbols] at h1 h2
    simp [countSymbols, generalCount, isSym, syms, h1, h2]
  | trig f i => by
    have h1 := countSymbols_eq i
    simp only [countSymbols] at h1
    simp [countSymbols, generalCount, isSym, syms, h1]
  | absv i => by
    have h1 := countSymbols_eq i
    simp only [countSymbols] at h1
    simp [countSymbols, generalCount, isSym, syms, h1]
  | rat _ | flt _ | pi | euler | inf | neginf | sym _ | any _ => by simp [countSymbols, generalCount, isSym, syms]
theorem countSymbolsL_eq : ∀ ts : List Expr, generalCountL isSym ts = (symsL ts).length
  | [] => rfl
  | t :: r => by
    have h1 := countSymbols_eq t; have h2 := countSymbolsL_eq r
    simp only [countSymbols] at h1
    simp [generalCountL, symsL, h1, h2]
end

theorem replaceHit_iff {perf : Nat → Expr → R Rep} : ∀ (n : Nat) {e : Expr}, replaceHit perf n e = true ↔ Fires perf n e
  | 0, e => by
    simp only [replaceHit, Bool.false_eq_true, false_iff]
    intro h; cases h
  | n + 1, e => by
    have ih := fun {e : Expr} => replaceHit_iff (perf := perf) n (e := e)
    unfold replaceHit
    constructor
    · intro h
      split at h
      · rename_i u hu; exact .here hu
      · rename_i hp
        simp only [List.any_eq_true] at h
        obtain ⟨t, ht, h⟩ := h
        exact .child hp ht (ih.1 h)
      · simp at h
    · intro h
      cases h with
      | here hu => rw [hu]
      | child hp ht h =>
        rw [hp]
        simp only [List.any_eq_true]
        exact ⟨_, ht, ih.2 h⟩

/-- A trig rule fired in `simplify(e)`: after expanding `e` to `e1`, a rule of the first pass (`trigPass1`: Pythagorean identities,
the same after writing everything as one fraction, reciprocals) fired on `e1`, or a rule of the second pass (`trigPass2`: sin·sec
and cos·csc, product to sum, sec and tan) fired on the outcome of the first. -/
def TrigFired (O : Oracle) (n : Nat) (e : Expr) : Prop :=
  ∃ e1, (expandE O n e = .ok e1 ∨ e1 = e) ∧ containsCls isPlainTrig e1 = true ∧
    (Fires (trigPass1 O) n e1 ∨ ∃ r1, replaceE O (trigPass1 O) n e1 = .ok r1 ∧ Fires (trigPass2 O) n r1)

/-- **C53** `simplify(e)` returns `e` itself or an expression with strictly fewer occurrences of symbols, unless a trig rule
fired. -/
theorem simplify_smaller (n : Nat) {e r : Expr} (h : simplifyE O n e = .ok r) :
    r = e ∨ (syms r).length < (syms e).length ∨ TrigFired O n e := by
  unfold simplifyE at h
  obtain ⟨e1, h1, h⟩ := bind_ok.1 h
  obtain ⟨⟨e2, hit⟩, h2, h⟩ := bind_ok.1 h
  obtain ⟨e3, h3, h⟩ := bind_ok.1 h
  have h := pure_ok.1 h
  subst h
  split
  · rename_i hh
    refine .inr (.inr ⟨e1, ?_, ?_⟩)
    · unfold expandOr at h1
      obtain ⟨b, -, h1⟩ := bind_ok.1 h1
      split at h1
      · exact .inl h1
      · exact .inr (pure_ok.1 h1).symm
    · unfold trigPart at h2
      split at h2
      · rename_i hc
        refine ⟨hc, ?_⟩
        unfold trigSimplify at h2
        obtain ⟨r1, h4, h2⟩ := bind_ok.1 h2
        obtain ⟨r2, h5, h2⟩ := bind_ok.1 h2
        have h2 := pure_ok.1 h2
        simp only [Prod.mk.injEq] at h2
        rw [hh] at h2
        rcases (Bool.or_eq_true _ _).mp h2.2 with h6 | h6
        · exact .inl ((replaceHit_iff n).1 h6)
        · exact .inr ⟨r1, h4, (replaceHit_iff n).1 h6⟩
      · cases h2; cases hh
  · split
    · rename_i hs
      refine .inr (.inl ?_)
      simpa [isSimpler, countSymbols_eq] using hs
    · exact .inl rfl

theorem isPlainTrig_eq : isPlainTrig = isFwdTrig := by
  funext e; cases e <;> rfl

theorem admE_noFwd (O : Oracle) : AdmE O (fun e => containsCls isFwdTrig e = false) where
  acc := closed_noFwd.acc
  eul := by simp [containsCls, isFwdTrig]
  sum := closed_noFwd.sum.1
  prod := closed_noFwd.prod.1
  pow := closed_noFwd.pow.1
  log := closed_noFwd.log
  trig := closed_noFwd.trig
  absv := closed_noFwd.absv.1
  pres := ctors_pres closed_noFwd O
  rlog := fun _ hi h => logCtor_Q closed_noFwd (fun _ => id)
    (fun i b hi hb => by simp [containsCls, isFwdTrig, hi, hb]) hi (by simp [containsCls, isFwdTrig]) h
  rtrig := by
    intro n f i i' r he hi h
    refine trigCtor_Q closed_noFwd n (fun j hj => ?_) hi h
    simp only [containsCls, isFwdTrig, Bool.or_eq_false_iff] at he ⊢
    exact ⟨he.1, hj⟩

/-- **C53** for expressions without sin, cos, tan, csc, sec and cot: `simplify` returns the expression itself or one with strictly
fewer occurrences of symbols. -/
theorem simplify_smaller_trig_free (n : Nat) {e r : Expr} (ht : containsCls isFwdTrig e = false) (h : simplifyE O n e = .ok r) :
    r = e ∨ (syms r).length < (syms e).length := by
  rcases simplify_smaller n h with h | h | ⟨e1, h1, h2, -⟩
  · exact .inl h
  · exact .inr h
  · exfalso
    rw [isPlainTrig_eq] at h2
    rcases h1 with h1 | rfl
    · rw [(admE_noFwd O).expandE n ((admE_noFwd O).kid ht) h1] at h2
      cases h2
    · rw [ht] at h2; cases h2

section
set_option maxRecDepth 10000

/-- All three outcomes occur: `(x+1)*(x-1) - x^2` becomes `-1`, `x + y` is left alone, and in `sin(x)^2 + cos(x)^2` a rule fires. -/
example : simplifyE exactOracle 20 (sum [prod [sum [x, rat 1], sum [x, rat (-1)]], prod [rat (-1), pow x (rat 2)]]) =
      .ok (rat (-1)) ∧
    simplifyE exactOracle 20 (sum [x, y]) = .ok (sum [x, y]) ∧
    simplifyE exactOracle 20 (sum [pow (trig .sin x) (rat 2), pow (trig .cos x) (rat 2)]) = .ok (rat 1) ∧
    Fires (trigPass1 exactOracle) 20 (sum [pow (trig .sin x) (rat 2), pow (trig .cos x) (rat 2)]) := by
  refine ⟨by decide +kernel, by decide +kernel, by decide +kernel, (replaceHit_iff 20).1 (by decide +kernel)⟩

end

end Simpy
