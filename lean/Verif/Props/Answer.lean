import Verif.Props.Engine
import Verif.Props.Transforms
import Verif.Props.Scope
import Verif.Proofs.RunSound
import Verif.Proofs.NodeEq

/-!
# C60: `integrate` returns an antiderivative
-/

namespace Simpy
open Expr Node Filter Topology

/-! ### The code is wrong somewhere -/

private abbrev x : Expr := sym ['x']
private abbrev bad : Expr := prod [trig .sin (prod [rat (1 / 6), x]), pow euler (prod [rat (1 / 36), pow x (rat 2)])]

private theorem sq (t : ℝ) : pw t 2 = t ^ 2 := by
  have := pw_int t 2
  norm_num at this ⊢
  exact this

private theorem pwe (t : ℝ) : pw (Real.exp 1) t = Real.exp t := by
  rw [pw_of_nonneg (Real.exp_pos 1).le, ← Real.exp_mul, one_mul]

/-- **C60** `integrate(sin(x/6) * e**(x**2/36))` returns `-6 * cos(x/6) * e**(x**2/36)`, which is not an antiderivative at `x = 6`:
LinearUSub substitutes `u = x/6` although `x` occurs elsewhere, and `e**(x**2/36)` is then pulled out as a constant. -/
theorem integrate_fails : ∃ (e F : Expr) (ρ : Str → ℝ), Built exactOracle e ∧ Regular ρ e ∧
    integrate exactOracle 20 names false 4 true ['x'] e = .ok (some F) ∧ ¬AntiAt ρ ['x'] F e := by
  refine ⟨bad, prod [rat (-6), trig .cos (prod [rat (1 / 6), x]), pow euler (prod [rat (1 / 36), pow x (rat 2)])], fun _ => 6,
    built_of_self (by set_option maxRecDepth 10000 in decide +kernel), ?_, by set_option maxRecDepth 10000 in decide +kernel, ?_⟩
  · simp [Regular, DomS, DomSL, TrigFn.ok, TrigFn.inner, intExp, HN, den, (Real.exp_pos 1).le]
  · intro h
    have h1 : HasDerivAt (fun t : ℝ => -6 * (Real.cos (1 / 6 * t) * Real.exp (1 / 36 * t ^ 2)))
        (Real.sin 1 * Real.exp 1 - 2 * Real.cos 1 * Real.exp 1) 6 := by
      have c := (((hasDerivAt_id (6 : ℝ)).const_mul (1 / 6)).cos)
      have e := ((((hasDerivAt_id (6 : ℝ)).fun_pow 2).const_mul (1 / 36)).exp)
      refine ((c.fun_mul e).const_mul (-6)).congr_deriv ?_
      norm_num
      ring
    have h2 : HasDerivAt (fun t : ℝ => -6 * (Real.cos (1 / 6 * t) * Real.exp (1 / 36 * t ^ 2)))
        (Real.sin 1 * Real.exp 1) 6 := by
      have h3 : (36 : ℝ)⁻¹ * 6 ^ 2 = 1 := by norm_num
      refine (h.congr_deriv ?_).congr_of_eventuallyEq (.of_forall fun t => ?_)
      · simp [bad, den, denP, TrigFn.real, sq, pwe, h3]
      · simp [fnOf, den, denP, TrigFn.real, sq, pwe]
    have h3 := h1.unique h2
    have h4 := mul_pos Real.cos_one_pos (Real.exp_pos 1)
    linarith

/-- **C60** `integrate(1/(x + 1)**2)` returns `inf*x`, which is nowhere defined: Expand makes `1/(x**2 + 2*x + 1)` of it, and
CompleteTheSquare divides by `sqrt(diff)` although `diff` is 0. -/
theorem integrate_square_fails (bf : Bool) :
    integrate exactOracle 16 names bf 4 true ['x'] (pow (sum [x, rat 1]) (rat (-2))) = .ok (some (prod [inf, x])) ∧
    Regular (fun _ => 0) (pow (sum [x, rat 1]) (rat (-2))) ∧ ∀ ρ, ¬ Dom ρ (prod [inf, x]) := by
  refine ⟨?_, by simp [Regular, DomS, DomSL, den, denS, intExp], fun ρ => by simp [Dom, DomS, DomSL]⟩
  cases bf <;> set_option maxRecDepth 20000 in decide +kernel

/-! ### Where it is right -/

variable {O : Oracle} {n k : Nat} {ν : Supply} {bf final : Bool} {v : Str} {e g F S : Expr} {T : Node} {ρ : Str → ℝ} {A : Str → Prop}
  {l : List (Str × Expr × Expr)}

/-- **C60** Soundness of a run of `integrate(e, v)`, at a point `ρ` where `e` is regular. `T` is the tree with which the search
ends and `l` the list of the substitutions `replace(S, u, q)` made on the way back to the root. If
* the names drawn in the search are new and distinct,
* the first `simplify` keeps the value of the integrand at `ρ` (`Keeps`),
* the steps that lead to the solved leaves are regular (`RunOk`) and no solved node of `T` has children (`Settled`),
* the substitutions on the way back keep to principal branches (`SubstOk`), and
* the last `simplify` (if there is one) keeps the value near `ρ`,
then the answer `F` is an antiderivative of `e` at `ρ`. Missing are the runs in which a step is irregular, of which some are wrong
(`integrate_fails`), and those in which a second ByParts comes back to a multiple of the integrand of an earlier one from elsewhere
than directly below it, or with a constant pulled in between (`TwiceOk`). -/
theorem integrate_sound_partial (hO : O.Exact) (he : Built O e) (hr : Regular ρ e) (hν : Fresh (fun s => s = v ∨ s ∈ syms e) ν)
    (hT : search O n ν bf k v e = .ok T) (hse : Settled T) (h1 : Keeps ρ e T.expr)
    (hrun : RunOk O n ρ (fun s => s = v ∨ s ∈ syms e) ν [] T)
    (hb : goBackwards O n T = .ok (S, l)) (hl : ∀ u q S, (u, q, S) ∈ l → SubstOk O n u q S)
    (h2 : final = true → ∀ r, simplifyE O n S = .ok r → ∀ᶠ t in 𝓝 (ρ v), Keeps (Function.update ρ v t) S r)
    (h : integrate O n ν bf k final v e = .ok (some F)) : AntiAt ρ v F e ∧ Regular ρ F ∧ ∀ s ∈ syms F, s = v ∨ s ∈ syms e := by
  obtain ⟨⟨-, hreg, hd⟩, hsy⟩ := search_run_sound hO hr hν hT hse h1 hrun hb hl
  unfold integrate at h
  rw [hT] at h
  obtain ⟨t, ht, h⟩ := bind_ok.1 h
  cases ht
  split at h
  · cases pure_ok.1 h
  · obtain ⟨⟨S', l'⟩, hb', h⟩ := bind_ok.1 h
    rw [hb] at hb'
    cases hb'
    dsimp only at h
    split at h
    · next hf =>
      obtain ⟨r, h3, h⟩ := bind_ok.1 h
      cases pure_ok.1 h
      have hk := h2 hf _ h3
      have hk0 := hk.self_of_nhds
      rw [Function.update_eq_self] at hk0
      exact ⟨hd.congr_of_eventuallyEq (hk.mono fun t ht => ht.value), hk0.reg, simplify_in hsy h3⟩
    · cases pure_ok.1 h
      exact ⟨hd, hreg, hsy⟩

/-- **C60** The integration of `dv` by ByParts, `integrate_without_heuristics`: the same, for the tree that this search builds. This
is what `RunOk` asks of a step with ByParts (`IntegOk`). -/
theorem without_heuristics_sound_partial (hO : O.Exact) (he : Integrand ρ A e) (hv : A v) (hν : Fresh A ν) {t : Node}
    (hs : safely O n n ν [] (mk e v none .unset none false []) = .ok t) (ht : tableAll O n true t = .ok T) (hse : Settled T)
    (hrun : RunOk O n ρ A ν [] T) (hl : ∀ S l u q S', goBackwards O n T = .ok (S, l) → (u, q, S') ∈ l → SubstOk O n u q S')
    (h : withoutHeuristics O n ν v e = .ok (some F)) : SolAt ρ v F (den ρ e) ∧ ∀ s ∈ syms F, A s :=
  withoutHeuristics_run_sound hO he hv hν hs ht hse hrun hl h

/-- **C60** Isolated points at which a step of the run is irregular do not matter: if `F` is an antiderivative of `e` at all points
near `ρ` other than `ρ` itself, and both are regular at `ρ`, then so it is at `ρ`. -/
theorem antiderivative_at_isolated_points (hr : Regular ρ e) (hF : Regular ρ F)
    (h : ∀ᶠ t in 𝓝[≠] (ρ v), AntiAt (Function.update ρ v t) v F e) : AntiAt ρ v F e :=
  anti_isolated hr hF h

section examples
set_option maxRecDepth 10000

private abbrev uu : Expr := sym ['u', 'a', 'a', 'b']
private abbrev ww : Expr := sym ['u', 'a', 'a', 'a', 'a', 'a', 'a', 'a', 'a', 'a', 'a', 'b']
private abbrev X : Str → Prop := fun s => s = ['x'] ∨ s ∈ [['x']]

/-- The tree for ∫ x cos(x²) dx. -/
private def tree1 : Node :=
  mk (prod [x, trig .cos (pow x (rat 2))]) ['x'] none .or none false [
    mk (prod [rat (1 / 2), trig .cos uu]) ['u', 'a', 'a', 'b'] (some (.polynomialUSub (pow x (rat 2)))) .unset none false [
      mk (trig .cos uu) ['u', 'a', 'a', 'b'] (some (.pullConstant (rat (1 / 2)))) .solution (some (trig .sin uu)) false []],
    mk (prod [x, pow (trig .csc (pow x (rat 2))) (rat (-1)), pow (trig .tan (pow x (rat 2))) (rat (-1))]) ['x'] (some .rewriteTrig) .unset none
      false [],
    mk (prod [x, pow (trig .sec (pow x (rat 2))) (rat (-1))]) ['x'] (some .rewriteTrig) .unset none false [],
    mk (prod [rat (1 / 2), trig .cos ww]) ['u', 'a', 'a', 'a', 'a', 'a', 'a', 'a', 'a', 'a', 'a', 'b']
      (some (.genericUSub (pow x (rat 2)))) .unset none false [
      mk (trig .cos ww) ['u', 'a', 'a', 'a', 'a', 'a', 'a', 'a', 'a', 'a', 'a', 'b'] (some (.pullConstant (rat (1 / 2)))) .unset none false []]]

private theorem fresh (e : Expr) (he : ∀ s ∈ syms e, s = ['x']) : Fresh (fun s => s = ['x'] ∨ s ∈ syms e) newNames := by
  refine ⟨fun l h => ?_, fun l l' h => ?_⟩
  · have : newNames l = ['x'] := h.elim id (he _)
    simp [newNames] at this
  · refine newNames_inj l l' ?_
    simpa [newNames] using h

/-- `x**2`, for the derivative. -/
private theorem sq_fn (ρ : Str → ℝ) : fnOf ρ ['x'] (pow x (rat 2)) = fun t => t ^ 2 := by
  funext t; simp [fnOf, den, sq]

private theorem run1 (ρ : Str → ℝ) (h0 : ρ ['x'] ≠ 0) (A : Str → Prop) : RunOk exactOracle 20 ρ A newNames [] tree1 := by
  have u0 : ∀ (i : Nat) (c : Node), tree1.children[i]? = some c → c.solvedLeaves ≠ [] → i = 0 ∧ c = tree1.children[0]'(by decide) := by
    intro i c hc hu
    match i, hc with
    | 0, hc => cases hc; exact ⟨rfl, rfl⟩
    | 1, hc => cases hc; simp [solvedLeaves] at hu
    | 2, hc => cases hc; simp [solvedLeaves] at hu
    | 3, hc => cases hc; simp [solvedLeaves, solvedLeavesL] at hu
    | i + 4, hc => simp [tree1, Node.children] at hc
  have u1 : ∀ (i : Nat) (c : Node), (tree1.children[0]'(by decide)).children[i]? = some c →
      i = 0 ∧ c = (tree1.children[0]'(by decide)).children[0]'(by decide) := by
    intro i c hc
    match i, hc with
    | 0, hc => cases hc; exact ⟨rfl, rfl⟩
    | i + 1, hc => simp [tree1, Node.children] at hc
  refine .plain (fun h => by cases h) (fun i c tr hc hu htr => ?_) (fun i c hc hu => ?_)
  · obtain ⟨rfl, rfl⟩ := u0 i c hc hu
    cases htr
    refine ⟨⟨Smooth.diffOk 20 (by decide), ?_, by decide⟩, by decide +kernel⟩
    change deriv (fnOf ρ ['x'] (pow x (rat 2))) (ρ ['x']) ≠ 0
    rw [sq_fn]
    simpa using h0
  · obtain ⟨rfl, rfl⟩ := u0 i c hc hu
    refine .plain (fun h => by cases h) (fun i c tr hc hu htr => ?_) (fun i c hc hu => ?_)
    · obtain ⟨rfl, rfl⟩ := u1 i c hc
      cases htr
      trivial
    · obtain ⟨rfl, rfl⟩ := u1 i c hc
      refine .plain (fun _ _ => ⟨?_, ?_, ?_⟩) (fun i c tr hc => by simp [tree1, Node.children] at hc) (fun i c hc => by simp [tree1, Node.children] at hc)
      · intro x h; cases h
      · intro x h; cases h
      · intro h; cases h

/-- `integrate(x*cos(x**2)) = sin(x**2)/2`: right at `x ≠ 0` by the soundness of the run, and at `0` because that is isolated. -/
example (ρ : Str → ℝ) : integrate exactOracle 20 newNames false 3 true ['x'] (prod [x, trig .cos (pow x (rat 2))]) =
      .ok (some (prod [rat (1 / 2), trig .sin (pow x (rat 2))])) ∧
    AntiAt ρ ['x'] (prod [rat (1 / 2), trig .sin (pow x (rat 2))]) (prod [x, trig .cos (pow x (rat 2))]) := by
  have hi : integrate exactOracle 20 newNames false 3 true ['x'] (prod [x, trig .cos (pow x (rat 2))]) =
      .ok (some (prod [rat (1 / 2), trig .sin (pow x (rat 2))])) := by decide +kernel
  have hr : ∀ ρ : Str → ℝ, Regular ρ (prod [x, trig .cos (pow x (rat 2))]) := fun ρ => by
    simp [Regular, DomS, DomSL, TrigFn.ok, TrigFn.inner, intExp, den]
  have wf : WF (prod [x, trig .cos (pow x (rat 2))]) := by simp [WF, WFL, isAcc, List.filter, baseOk]
  have key : ∀ ρ : Str → ℝ, ρ ['x'] ≠ 0 →
      AntiAt ρ ['x'] (prod [rat (1 / 2), trig .sin (pow x (rat 2))]) (prod [x, trig .cos (pow x (rat 2))]) := by
    intro ρ h0
    refine (integrate_sound_partial (T := tree1) (S := prod [rat (1 / 2), trig .sin (pow x (rat 2))])
      (l := [(['u', 'a', 'a', 'b'], pow x (rat 2), prod [rat (1 / 2), trig .sin uu])]) exactOracle_exact
      (built_of_self (by decide +kernel)) (hr ρ) (fresh _ (by decide)) (by decide +kernel) (by simp [tree1, Settled, SettledL])
      ⟨wf, hr ρ, rfl⟩ (run1 ρ h0 _) (by decide +kernel) (fun u q S h => ?_) (fun _ r h => ?_) hi).1
    · simp only [List.mem_singleton, Prod.mk.injEq] at h
      obtain ⟨rfl, rfl, rfl⟩ := h
      exact substOk_of_run exactOracle_exact (by simp [WF, WFL, isAcc, List.filter]) (by simp [WF, baseOk]) (by decide +kernel)
    · have : simplifyE exactOracle 20 (prod [rat (1 / 2), trig .sin (pow x (rat 2))]) = .ok (prod [rat (1 / 2), trig .sin (pow x (rat 2))]) := by
        decide +kernel
      rw [this] at h
      cases h
      exact .of_forall fun t => ⟨by simp [WF, WFL, isAcc, List.filter, baseOk],
        by simp [Regular, DomS, DomSL, TrigFn.ok, TrigFn.inner, intExp, den], rfl⟩
  refine ⟨hi, antiderivative_at_isolated_points (hr ρ) (by simp [Regular, DomS, DomSL, TrigFn.ok, TrigFn.inner, intExp, den]) ?_⟩
  by_cases h0 : ρ ['x'] = 0
  · rw [h0]
    filter_upwards [self_mem_nhdsWithin] with t ht
    exact key _ (by simpa using ht)
  · filter_upwards [nhdsWithin_le_nhds (isOpen_ne.mem_nhds h0)] with t ht
    exact key _ (by simpa using ht)

/-- The tree for ∫ x cos(x) dx. -/
private def tree2 : Node :=
  mk (prod [x, trig .cos x]) ['x'] none .or none false [
    mk (prod [x, trig .cos x]) ['x'] (some .byParts) .and none true [
      mk (prod [x, trig .cos x]) ['x'] (some .additivity) .solution (some (prod [x, trig .sin x])) true [],
      mk (prod [rat (-1), trig .sin x]) ['x'] (some .additivity) .unset none false [
        mk (trig .sin x) ['x'] (some (.pullConstant (rat (-1)))) .solution (some (prod [rat (-1), trig .cos x])) false []]],
    mk (prod [x, pow (trig .csc x) (rat (-1)), pow (trig .tan x) (rat (-1))]) ['x'] (some .rewriteTrig) .unset none false [],
    mk (prod [x, pow (trig .sec x) (rat (-1))]) ['x'] (some .rewriteTrig) .unset none false []]

private theorem tableOk (ρ : Str → ℝ) (e : Expr) (h : e = x ∨ e = trig .cos x ∨ e = trig .sin x) : TableOk ρ ['x'] e := by
  rcases h with rfl | rfl | rfl <;> refine ⟨?_, ?_, ?_⟩ <;> intros <;> simp_all

private theorem run2 (ρ : Str → ℝ) : RunOk exactOracle 20 ρ (fun s => s = ['x'] ∨ s ∈ syms (prod [x, trig .cos x])) newNames [] tree2 := by
  have wf : WF (prod [x, trig .cos x]) := by simp [WF, WFL, isAcc, List.filter]
  have hr : Regular ρ (prod [x, trig .cos x]) := by simp [Regular, DomS, DomSL, TrigFn.ok, TrigFn.inner]
  have u0 : ∀ (i : Nat) (c : Node), tree2.children[i]? = some c → c.solvedLeaves ≠ [] → i = 0 ∧ c = tree2.children[0]'(by decide) := by
    intro i c hc hu
    match i, hc with
    | 0, hc => cases hc; exact ⟨rfl, rfl⟩
    | 1, hc => cases hc; simp [solvedLeaves] at hu
    | 2, hc => cases hc; simp [solvedLeaves] at hu
    | i + 3, hc => simp [tree2, Node.children] at hc
  have none : ∀ {t c : Node} {i : Nat}, t.children = [] → t.children[i]? = some c → False := fun h hc => by simp [h] at hc
  refine .plain (fun h => by cases h) (fun i c tr hc hu htr => ?_) (fun i c hc hu => ?_)
  · obtain ⟨rfl, rfl⟩ := u0 i c hc hu
    cases htr
    refine ⟨fun dv w hdv hw => ?_, fun s hs => ?_, fun C g f hp => ⟨(fun h => by cases h), fun _ => ?_⟩⟩
    · have hdv' : dv = x ∨ dv = trig .cos x := by simpa [tree2, Node.expr, Expr.children] using hdv
      have : withoutHeuristics exactOracle 20 (newNames.own 3) ['x'] dv = checkTable exactOracle 20 ['x'] dv := by
        rcases hdv' with rfl | rfl <;> decide +kernel
      exact integ_ok_table exactOracle_exact ⟨wf, hr, fun s hs => .inr hs⟩ (.inl rfl)
        (fun t ht => tableOk ρ t (by simp only [Expr.children, List.mem_cons, List.not_mem_nil, or_false] at ht; tauto)) dv w hdv (this.symm.trans hw)
    · refine Smooth.diffOk 20 ?_
      have : s = prod [x, trig .cos x] ∨ s = x ∨ s = trig .cos x := by simpa [tree2, Node.expr, Expr.children] using hs
      rcases this with rfl | rfl | rfl <;> decide
    · obtain ⟨a, da, w, h1, h2⟩ := hp
      have e1 : byPartsCheck exactOracle 20 ['x'] (withoutHeuristics exactOracle 20 (newNames.own 3) ['x']) (fun g => [].any fun a => beq exactOracle g a)
          (prod [x, trig .cos x]) = .ok (some (x, rat 1, trig .sin x)) := by decide +kernel
      have h1' := e1.symm.trans h1
      cases h1'
      have e2 : byPartsParts exactOracle 20 (prod [x, trig .cos x]) x (rat 1) (trig .sin x) =
          .ok (prod [x, trig .sin x], prod [rat (-1), trig .sin x], prod [rat (-1), pow x (rat (-1)), trig .sin x, pow (trig .cos x) (rat (-1))]) := by
        decide +kernel
      have h2' := e2.symm.trans h2
      cases h2'
      exact ⟨_, _, rfl, rfl, rfl⟩
  · obtain ⟨rfl, rfl⟩ := u0 i c hc hu
    refine .plain (fun h => by cases h) (fun i c tr hc hu htr => ?_) (fun i c hc hu => ?_)
    · match i, hc with
      | 0, hc => cases hc; cases htr; exact fun h => by cases h
      | 1, hc => cases hc; cases htr; exact fun h => by cases h
      | i + 2, hc => simp [tree2, Node.children] at hc
    · match i, hc with
      | 0, hc => cases hc; exact .plain (fun _ h => by cases h) (fun i c tr hc => (none rfl hc).elim) (fun i c hc => (none rfl hc).elim)
      | 1, hc =>
        cases hc
        refine .plain (fun h => by cases h) (fun i c tr hc hu htr => ?_) (fun i c hc hu => ?_)
        · match i, hc with
          | 0, hc => cases hc; cases htr; trivial
          | i + 1, hc => simp [Node.children] at hc
        · match i, hc with
          | 0, hc =>
            cases hc
            exact .plain (fun _ _ => tableOk _ _ (.inr (.inr rfl))) (fun i c tr hc => (none rfl hc).elim) (fun i c hc => (none rfl hc).elim)
          | i + 1, hc => simp [Node.children] at hc
      | i + 2, hc => simp [tree2, Node.children] at hc

/-- `integrate(x*cos(x)) = x*sin(x) + cos(x)`, by parts. -/
example (ρ : Str → ℝ) : integrate exactOracle 20 newNames false 3 true ['x'] (prod [x, trig .cos x]) =
      .ok (some (sum [prod [x, trig .sin x], trig .cos x])) ∧
    AntiAt ρ ['x'] (sum [prod [x, trig .sin x], trig .cos x]) (prod [x, trig .cos x]) := by
  have hi : integrate exactOracle 20 newNames false 3 true ['x'] (prod [x, trig .cos x]) =
      .ok (some (sum [prod [x, trig .sin x], trig .cos x])) := by decide +kernel
  have wf : WF (prod [x, trig .cos x]) := by simp [WF, WFL, isAcc, List.filter]
  have hr : Regular ρ (prod [x, trig .cos x]) := by simp [Regular, DomS, DomSL, TrigFn.ok, TrigFn.inner]
  refine ⟨hi, (integrate_sound_partial (T := tree2) (S := sum [prod [x, trig .sin x], trig .cos x])
      (l := []) exactOracle_exact (built_of_self (by decide +kernel)) hr (fresh _ (by decide)) (by decide +kernel) (by simp [tree2, Settled, SettledL])
      ⟨wf, hr, rfl⟩ (run2 ρ) (by decide +kernel) (fun u q S h => by simp at h) (fun _ r h => ?_) hi).1⟩
  have : simplifyE exactOracle 20 (sum [prod [x, trig .sin x], trig .cos x]) = .ok (sum [prod [x, trig .sin x], trig .cos x]) := by decide +kernel
  rw [this] at h
  cases h
  exact .of_forall fun t => ⟨by simp [WF, WFL, isAcc, List.filter], by simp [Regular, DomS, DomSL, TrigFn.ok, TrigFn.inner], rfl⟩

/-! #### Two integrations by parts -/

private abbrev ex : Expr := pow euler x
private abbrev sinx : Expr := trig .sin x
private abbrev cosx : Expr := trig .cos x
private abbrev answer3 : Expr := sum [prod [rat (1 / 2), ex, sinx], prod [rat (1 / 2), cosx, ex]]

/-- The node of ∫ eˣ sin(x) dx in it. -/
private def inner3 : Node :=
  mk (prod [ex, sinx]) ['x'] (some .additivity) .or none false [
    mk (prod [ex, sinx]) ['x'] (some .byParts) .solution (some (prod [rat (1 / 2), ex, sinx])) true [],
    mk (prod [ex, pow (trig .csc x) (rat (-1))]) ['x'] (some .rewriteTrig) .unset none false [],
    mk (prod [ex, pow (trig .cot x) (rat (-1)), pow (trig .sec x) (rat (-1))]) ['x'] (some .rewriteTrig) .unset none false []]

/-- The node of the first integration by parts. -/
private def parts3 : Node :=
  mk (prod [cosx, ex]) ['x'] (some .byParts) .and none true [
    mk (prod [cosx, ex]) ['x'] (some .additivity) .solution (some (prod [rat (1 / 2), cosx, ex])) true [], inner3]

/-- The tree for ∫ eˣ cos(x) dx. -/
private def tree3 : Node :=
  mk (prod [cosx, ex]) ['x'] none .or none false [
    parts3,
    mk (prod [ex, pow (trig .csc x) (rat (-1)), pow (trig .tan x) (rat (-1))]) ['x'] (some .rewriteTrig) .unset none false [],
    mk (prod [ex, pow (trig .sec x) (rat (-1))]) ['x'] (some .rewriteTrig) .unset none false []]

private theorem e_ne_one : Real.exp 1 ≠ 1 := by
  have := Real.add_one_lt_exp (x := 1) (by norm_num)
  linarith

private theorem tableOk3 (ρ : Str → ℝ) (e : Expr) (h : e = ex ∨ e = cosx ∨ e = sinx) : TableOk ρ ['x'] e := by
  rcases h with rfl | rfl | rfl <;> refine ⟨?_, ?_, ?_⟩ <;> intros <;> simp_all [den]
  next h => rw [← h]; simpa [den] using e_ne_one

private theorem integ3 (ρ : Str → ℝ) (ν : Supply) (e : Expr) (A : Str → Prop) (hA : A ['x'])
    (he : e = prod [cosx, ex] ∨ e = prod [ex, sinx])
    (hw : ∀ dv ∈ [ex, cosx, sinx], withoutHeuristics exactOracle 20 ν ['x'] dv = checkTable exactOracle 20 ['x'] dv) :
    IntegOk ρ ['x'] A (withoutHeuristics exactOracle 20 ν ['x']) e := by
  have wf : WF e := by rcases he with rfl | rfl <;> simp [WF, WFL, isAcc, List.filter, baseOk]
  have hr : Regular ρ e := by
    rcases he with rfl | rfl <;> simp [Regular, DomS, DomSL, TrigFn.ok, TrigFn.inner, intExp, HN, den, Real.exp_pos, (Real.exp_pos 1).le]
  have hs : ∀ s ∈ syms e, A s := by
    rcases he with rfl | rfl <;> simpa [syms, symsL] using hA
  have hc : ∀ dv ∈ Expr.children e, dv = ex ∨ dv = cosx ∨ dv = sinx := by
    rcases he with rfl | rfl <;> simp [Expr.children] 
  intro dv w hdv hw'
  rw [hw dv (by simpa using hc dv hdv)] at hw'
  exact integ_ok_table exactOracle_exact ⟨wf, hr, hs⟩ hA (fun t ht => tableOk3 ρ t (hc t ht)) dv w hdv hw'

private theorem diff3 (ρ : Str → ℝ) (e : Expr) (he : e = prod [cosx, ex] ∨ e = prod [ex, sinx]) (s : Expr)
    (hs : s = e ∨ s ∈ Expr.children e) : DiffOk exactOracle ρ ['x'] 20 s := by
  refine Smooth.diffOk 20 ?_
  have : s = prod [cosx, ex] ∨ s = prod [ex, sinx] ∨ s = ex ∨ s = cosx ∨ s = sinx := by
    rcases he with rfl | rfl <;> rcases hs with rfl | hs <;> simp_all [Expr.children] <;> tauto
  rcases this with rfl | rfl | rfl | rfl | rfl <;> decide

private theorem second3 (ρ : Str → ℝ) (A : Str → Prop) (hA : A ['x']) :
    SecondOk exactOracle 20 ρ A ((newNames.child 0).child 1) [prod [cosx, ex]] (prod [cosx, ex]) (prod [cosx, ex]) (rat 1)
      (mk (prod [cosx, ex]) ['x'] (some .additivity) .solution (some (prod [rat (1 / 2), cosx, ex])) true []) inner3 := by
  refine ⟨(fun h => by cases h), fun b hb hs => ?_, integ3 ρ _ _ A hA (.inr rfl) (by decide +kernel), diff3 ρ _ (.inr rfl), fun C g f hp => ?_⟩
  · simp only [inner3, Node.children, List.mem_cons, List.not_mem_nil, or_false] at hb
    rcases hb with rfl | rfl | rfl
    · exact ⟨rfl, rfl⟩
    · simp [solvedLeaves] at hs
    · simp [solvedLeaves] at hs
  · obtain ⟨a, da, w, h1, h2⟩ := hp
    have e1 : byPartsCheck exactOracle 20 ['x'] (withoutHeuristics exactOracle 20 (((newNames.child 0).child 1).own 3) ['x'])
        (fun g => [prod [cosx, ex]].any fun a => beq exactOracle g a) (prod [ex, sinx]) = .ok (some (sinx, cosx, ex)) := by decide +kernel
    have h1' := e1.symm.trans h1
    cases h1'
    have e2 : byPartsParts exactOracle 20 (prod [ex, sinx]) sinx cosx ex =
        .ok (prod [ex, sinx], prod [rat (-1), cosx, ex], prod [rat (-1), cosx, pow sinx (rat (-1))]) := by decide +kernel
    have h2' := e2.symm.trans h2
    cases h2'
    refine ⟨rat (-1), rat (-1), by decide +kernel, rfl, by decide +kernel, by norm_num [den], ⟨_, rfl, by decide +kernel⟩, fun b hb ht => ?_⟩
    simp only [inner3, Node.children, List.mem_cons, List.not_mem_nil, or_false] at hb
    rcases hb with rfl | rfl | rfl
    · exact ⟨_, rfl, by decide +kernel⟩
    · cases ht
    · cases ht

private theorem twice3 (ρ : Str → ℝ) (h0 : Real.cos (ρ ['x']) ≠ 0) (A : Str → Prop) (hA : A ['x']) :
    TwiceOk exactOracle 20 ρ A newNames [] tree3 0 parts3 := by
  refine ⟨rfl, (fun h => by cases h), ?_, integ3 ρ _ _ A hA (.inl rfl) (by decide +kernel), diff3 ρ _ (.inl rfl), _, _, rfl, rfl,
    by simp [inner3, solvedLeaves, solvedLeavesL], fun C g f hp => .inl ?_⟩
  · simp [tree3, Node.expr, den, denP, pwe, TrigFn.real, h0]
  · obtain ⟨a, da, w, h1, h2⟩ := hp
    have e1 : byPartsCheck exactOracle 20 ['x'] (withoutHeuristics exactOracle 20 (newNames.own 3) ['x'])
        (fun g => [].any fun a => beq exactOracle g a) (prod [cosx, ex]) = .ok (some (cosx, prod [rat (-1), sinx], ex)) := by decide +kernel
    have h1' := e1.symm.trans h1
    cases h1'
    have e2 : byPartsParts exactOracle 20 (prod [cosx, ex]) cosx (prod [rat (-1), sinx]) ex =
        .ok (prod [cosx, ex], prod [ex, sinx], prod [sinx, pow cosx (rat (-1))]) := by decide +kernel
    have h2' := e2.symm.trans h2
    cases h2'
    exact second3 ρ A hA

private theorem run3 (ρ : Str → ℝ) (h0 : Real.cos (ρ ['x']) ≠ 0) (A : Str → Prop) (hA : A ['x']) : RunOk exactOracle 20 ρ A newNames [] tree3 := by
  have u0 : ∀ (i : Nat) (c : Node), tree3.children[i]? = some c → c.solvedLeaves ≠ [] → i = 0 ∧ c = parts3 := by
    intro i c hc hu
    match i, hc with
    | 0, hc => cases hc; exact ⟨rfl, rfl⟩
    | 1, hc => cases hc; simp [solvedLeaves] at hu
    | 2, hc => cases hc; simp [solvedLeaves] at hu
    | i + 3, hc => simp [tree3, Node.children] at hc
  refine .mk (fun h => by cases h) (fun i c tr hc hu htr ht => ?_) (fun i c hc hu ht => ?_)
  · obtain ⟨rfl, rfl⟩ := u0 i c hc hu
    exact absurd (twice3 ρ h0 A hA) ht
  · obtain ⟨rfl, rfl⟩ := u0 i c hc hu
    exact absurd (twice3 ρ h0 A hA) ht

/-- `integrate(e**x*cos(x)) = e**x*sin(x)/2 + cos(x)*e**x/2`, by parts twice: right where `cos(x) ≠ 0` by the soundness of the run,
and elsewhere because such points are isolated. -/
example (ρ : Str → ℝ) : integrate exactOracle 20 newNames false 3 true ['x'] (prod [cosx, ex]) = .ok (some answer3) ∧
    AntiAt ρ ['x'] answer3 (prod [cosx, ex]) := by
  have hi : integrate exactOracle 20 newNames false 3 true ['x'] (prod [cosx, ex]) = .ok (some answer3) := by decide +kernel
  have wf : WF (prod [cosx, ex]) := by simp [WF, WFL, isAcc, List.filter, baseOk]
  have hr : ∀ ρ : Str → ℝ, Regular ρ (prod [cosx, ex]) := fun ρ => by
    simp [Regular, DomS, DomSL, TrigFn.ok, TrigFn.inner, intExp, HN, den, Real.exp_pos, (Real.exp_pos 1).le]
  have hF : ∀ ρ : Str → ℝ, Regular ρ answer3 := fun ρ => by
    simp [Regular, DomS, DomSL, TrigFn.ok, TrigFn.inner, intExp, HN, den, Real.exp_pos, (Real.exp_pos 1).le]
  have key : ∀ ρ : Str → ℝ, Real.cos (ρ ['x']) ≠ 0 → AntiAt ρ ['x'] answer3 (prod [cosx, ex]) := by
    intro ρ h0
    refine (integrate_sound_partial (T := tree3) (S := answer3) (l := []) exactOracle_exact (built_of_self (by decide +kernel)) (hr ρ)
      (fresh _ (by decide)) (by decide +kernel) (by simp [tree3, parts3, inner3, Settled, SettledL]) ⟨wf, hr ρ, rfl⟩
      (run3 ρ h0 _ (.inl rfl)) (by decide +kernel) (fun u q S h => by simp at h) (fun _ r h => ?_) hi).1
    have : simplifyE exactOracle 20 answer3 = .ok answer3 := by decide +kernel
    rw [this] at h
    cases h
    exact .of_forall fun t => ⟨by simp [WF, WFL, isAcc, List.filter, baseOk], hF _, rfl⟩
  refine ⟨hi, antiderivative_at_isolated_points (hr ρ) (hF ρ) ?_⟩
  have hd : HasDerivAt Real.cos (-Real.sin (ρ ['x'])) (ρ ['x']) := Real.hasDerivAt_cos _
  by_cases h0 : Real.cos (ρ ['x']) = 0
  · have hs : -Real.sin (ρ ['x']) ≠ 0 := fun hs => by
      have := Real.sin_sq_add_cos_sq (ρ ['x'])
      rw [h0, neg_eq_zero.1 hs] at this
      norm_num at this
    filter_upwards [hd.eventually_ne hs (c := 0)] with t ht
    exact key _ (by simpa using ht)
  · filter_upwards [nhdsWithin_le_nhds (Real.continuous_cos.continuousAt.eventually_ne h0)] with t ht
    exact key _ (by simpa using ht)

/-- `integrate_without_heuristics(3*cos(x)) = 3*sin(x)`. -/
example (ρ : Str → ℝ) : SolAt ρ ['x'] (prod [rat 3, trig .sin x]) (den ρ (prod [rat 3, trig .cos x])) := by
  have fr := fresh (prod [rat 3, trig .cos x]) (by decide)
  refine (without_heuristics_sound_partial (n := 20) (ν := newNames) (A := fun s => s = ['x'] ∨ s ∈ syms (prod [rat 3, trig .cos x]))
    (t := mk (prod [rat 3, trig .cos x]) ['x'] none .unset none false [
      mk (trig .cos x) ['x'] (some (.pullConstant (rat 3))) .unset none false []])
    (T := mk (prod [rat 3, trig .cos x]) ['x'] none .unset none false [
      mk (trig .cos x) ['x'] (some (.pullConstant (rat 3))) .solution (some (trig .sin x)) false []]) exactOracle_exact
    ⟨by simp [WF, WFL, isAcc, List.filter], by simp [Regular, DomS, DomSL, TrigFn.ok, TrigFn.inner], fun s hs => .inr hs⟩ (.inl rfl) fr
    (by decide +kernel) (by decide +kernel) (by simp [Settled, SettledL]) ?_ (fun S l u q S' h hm => ?_) (by decide +kernel)).1
  · refine .plain (fun h => by cases h) (fun i c tr hc hu htr => ?_) (fun i c hc hu => ?_)
    · match i, hc with
      | 0, hc => cases hc; cases htr; trivial
      | i + 1, hc => simp [Node.children] at hc
    · match i, hc with
      | 0, hc =>
        cases hc
        exact .plain (fun _ _ => tableOk _ _ (.inr (.inl rfl))) (fun i c tr hc => by simp [Node.children] at hc)
          (fun i c hc => by simp [Node.children] at hc)
      | i + 1, hc => simp [Node.children] at hc
  · have : goBackwards exactOracle 20 (mk (prod [rat 3, trig .cos x]) ['x'] none .unset none false [
      mk (trig .cos x) ['x'] (some (.pullConstant (rat 3))) .solution (some (trig .sin x)) false []]) =
        .ok (prod [rat 3, trig .sin x], []) := by decide +kernel
    rw [this] at h
    cases h
    simp at hm

end examples

end Simpy
