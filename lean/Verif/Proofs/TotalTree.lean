import Verif.Proofs.TotalRun

/-! # Lemmas: the tree of a polynomial, its solutions, and the way back -/

namespace Simpy
open Expr
namespace Node

variable {O : Oracle} {v : Str} {u t e : Expr} {ν : Supply} {as : List Node} {tr : Option Transf} {ty : NType} {s : Option Expr}
  {f : Bool}

/-! ## The tree of a sum -/

theorem refused_mono (h : Monomial v t) (ha : ∀ a ∈ as, ∃ ts, a.expr = sum ts) (tr : Option Transf) :
    refused O as (mk t v tr .unset none false []) = false := by
  simp only [refused, Node.filler, Bool.not_false, Bool.true_and, List.any_eq_false]
  intro a hm
  obtain ⟨ts, e⟩ := ha a hm
  rw [e]
  dsimp only [Node.expr, Node.var]
  cases h with
  | const c => simp [eqWithVar, sameClass]
  | unit h => cases h <;> simp [eqWithVar, sameClass]
  | scaled c h => simp [eqWithVar, sameClass]

theorem addChildren_mono {ts0 : List Expr} : ∀ (ts : List Expr) (cs : List Node), (∀ t ∈ ts, Monomial v t) →
    addChildren O [] (ts.map fun t => leaf t v .additivity) (mk (sum ts0) v tr ty s f cs) =
      mk (sum ts0) v tr ty s f (cs ++ ts.map fun t => leaf t v .additivity)
  | [], cs, _ => by simp [addChildren]
  | t :: r, cs, h => by
    have hr : refused O [mk (sum ts0) v tr ty s f cs] (leaf t v .additivity) = false :=
      refused_mono (h t (by simp)) (fun a ha => by simp at ha; subst ha; exact ⟨_, rfl⟩) _
    simp only [List.map_cons, addChildren, addChild, hr, Bool.false_eq_true, if_false]
    rw [addChildren_mono r _ fun x hx => h x (by simp [hx])]
    simp

theorem mapIdx_mono (n k : Nat) (ha : NoUnit as) : ∀ (ts : List Expr) (i : Nat), (∀ t ∈ ts, Monomial v t) →
    mapIdxR (fun i c => safely O (n + 8) (k + 2) (ν.child i) as c) i (ts.map fun t => leaf t v .additivity) =
      .ok (ts.map (monoTree v (some .additivity)))
  | [], i, _ => rfl
  | t :: r, i, h => by
    have hs : safely O (n + 8) (k + 2) (ν.child i) as (leaf t v .additivity) = .ok (monoTree v (some .additivity) t) :=
      safely_mono (h t (by simp)) n k ha
    simp only [List.map_cons, mapIdxR, hs, mapIdx_mono n k ha r (i + 1) (fun x hx => h x (by simp [hx])), bind, Except.bind, pure, Except.pure]

theorem safely_sum {ts : List Expr} (h : ∀ t ∈ ts, Monomial v t) (n k : Nat) :
    safely O (n + 8) (k + 3) ν [] (mk (sum ts) v none .unset none false []) =
      .ok (mk (sum ts) v none .and none false (ts.map (monoTree v (some .additivity)))) := by
  have hp : safePlan O (n + 8) ν [] (mk (sum ts) v none .unset none false []) =
      .ok (some { ty := some .and, kids := ts.map fun t => leaf t v .additivity }) := rfl
  rw [safely]
  simp only [hp, bind, Except.bind, Option.getD, Plan.apply, setType, addChildren_mono ts [] h, List.nil_append, Node.children]
  have := mapIdx_mono (O := O) (ν := ν) (as := [mk (sum ts) v none .and none false (ts.map fun t => leaf t v .additivity)]) n k
    (fun a ha => by simp at ha; subst ha; exact .inl ⟨_, rfl⟩) ts 0 h
  rw [this]
  rfl

/-! ## Solutions -/

/-- The tree `d` of a term `t` after the table was looked up, the tree `d'` after the way back, and the solution. -/
structure Done (O : Oracle) (n : Nat) (v : Str) (tr : Option Transf) (t : Expr) (d d' : Node) (F : Expr) : Prop where
  solved : d.isSolved = true
  notFailed : d.isFailed = false
  unfinished : unfinishedPaths d = []
  back : ∃ p, solvedLeaves d = [p] ∧ walk O n p d = .ok (d', true, [])
  tr' : d'.tr = tr
  sol' : d'.sol = some F
  sol : d.sol = none ∨ d.sol = some F
  solves : Solves v t F

theorem done_mono (h : Monomial v t) (n : Nat) (b : Bool) : ∃ d d' F, tableAll O (n + 8) b (monoTree v tr t) = .ok d ∧
    Done O (n + 8) v tr t d d' F := by
  have leafDone : ∀ {t F}, Solves v t F → Done O (n + 8) v tr t (mk t v tr .solution (some F) false [])
      (mk t v tr .solution (some F) false []) F := fun hs =>
    { solved := by simp [isSolved], notFailed := by simp [isFailed], unfinished := by simp [unfinishedPaths, isFinished, isSolved]
      back := ⟨[], by simp [solvedLeaves], rfl⟩, tr' := rfl, sol' := rfl, sol := .inr rfl, solves := hs }
  cases h with
  | const c =>
    refine ⟨_, _, _, ?_, leafDone (solves_const c)⟩
    have := table_const (O := O) (v := v) (n + 6) c
    simp only [monoTree, tableAll, this]
  | unit h =>
    obtain ⟨q, w, hw, _, _, ht, hs⟩ := table_unit (O := O) h (n + 6)
    have : monoTree v tr t = mk t v tr .unset none false [] := by cases h <;> rfl
    refine ⟨_, _, _, ?_, leafDone (hs 0).2⟩
    rw [this]
    simp only [tableAll, ht]
  | @scaled c u h =>
    obtain ⟨q, w, hw, _, _, ht, hs⟩ := table_unit (O := O) h (n + 6)
    have hm : opMul (ctors O (n + 8)) (rat c) (prod [rat q, w]) = .ok (scale (c * q) w) :=
      prod_rat_prod (squares_ctors (n + 6)) hw c q
    refine ⟨mk (prod [rat c, u]) v tr .unset none false [mk u v (some (.pullConstant (rat c))) .solution (some (prod [rat q, w])) false []],
      mk (prod [rat c, u]) v tr .unset (some (scale (c * q) w)) false
        [mk u v (some (.pullConstant (rat c))) .solution (some (prod [rat q, w])) false []], _, ?_,
      { solved := by simp [isSolved, allSolved], notFailed := by simp [isFailed, anyFailed]
        unfinished := by simp [unfinishedPaths, unfinishedPathsL, isFinished, isSolved]
        back := ⟨[0], by simp [solvedLeaves, solvedLeavesL], ?_⟩, tr' := rfl, sol' := rfl, sol := .inl rfl, solves := (hs c).1 }⟩
    · simp only [monoTree, leaf, tableAll, tableAllL, ht]
    · simp [walk, backward, Node.sol, Node.tr, Node.var, backStep, hm, substOf]

/-- A term with its two trees and its solution. -/
structure Item where
  term : Expr
  before : Node
  after : Node
  sol : Expr

theorem done_list (n : Nat) (b : Bool) : ∀ ts : List Expr, (∀ t ∈ ts, Monomial v t) → ∃ xs : List Item, xs.map Item.term = ts ∧
    tableAllL O (n + 8) b (ts.map (monoTree v tr)) = .ok (xs.map Item.before) ∧
    ∀ x ∈ xs, Done O (n + 8) v tr x.term x.before x.after x.sol
  | [], _ => ⟨[], rfl, rfl, by simp⟩
  | t :: r, h => by
    obtain ⟨d, d', F, ht, hd⟩ := done_mono (O := O) (tr := tr) (h t (by simp)) n b
    obtain ⟨xs, h1, h2, h3⟩ := done_list n b r fun x hx => h x (by simp [hx])
    refine ⟨⟨t, d, d', F⟩ :: xs, by simp [h1], ?_, fun x hx => ?_⟩
    · simp only [List.map_cons, tableAllL, ht, h2]
    · rcases List.mem_cons.1 hx with rfl | hx
      · exact hd
      · exact h3 x hx

/-! ## The way back -/

theorem solutions_after : ∀ (xs : List Item), (∀ x ∈ xs, Done O n v tr x.term x.before x.after x.sol) →
    solutions (xs.map Item.after) = .ok (xs.map Item.sol)
  | [], _ => rfl
  | x :: r, h => by
    simp only [List.map_cons, solutions, (h x (by simp)).sol', solutions_after r fun y hy => h y (by simp [hy])]

theorem solutions_before : ∀ (xs : List Item), (∀ x ∈ xs, Done O n v tr x.term x.before x.after x.sol) →
    solutions (xs.map Item.before) = .error .value ∨ solutions (xs.map Item.before) = .ok (xs.map Item.sol)
  | [], _ => .inr rfl
  | x :: r, h => by
    simp only [List.map_cons, solutions]
    rcases (h x (by simp)).sol with e | e <;> rw [e]
    · exact .inl rfl
    · rcases solutions_before r fun y hy => h y (by simp [hy]) with e | e <;> rw [e]
      · exact .inl rfl
      · exact .inr rfl

theorem solutions_append : ∀ {l m : List Node} {a : List Expr}, solutions l = .ok a →
    solutions (l ++ m) = match solutions m with | .error er => .error er | .ok b => .ok (a ++ b)
  | [], m, a, h => by cases h; cases hm : solutions m <;> simp [hm]
  | c :: l, m, a, h => by
    simp only [solutions] at h
    simp only [List.cons_append, solutions]
    cases hc : c.sol with
    | none => rw [hc] at h; cases h
    | some x =>
      rw [hc] at h
      dsimp only at h ⊢
      cases hl : solutions l with
      | error er => rw [hl] at h; cases h
      | ok b =>
        rw [hl] at h
        cases h
        rw [solutions_append hl]
        cases solutions m <;> rfl

theorem walkAll_done {n : Nat} {S : Expr} : ∀ (xs pre : List Item) (s : Option Expr),
    (∀ x ∈ pre, Done O n v (some .additivity) x.term x.before x.after x.sol) →
    (∀ x ∈ xs, Done O n v (some .additivity) x.term x.before x.after x.sol) →
    (ctors O n).sum ((pre ++ xs).map Item.sol) = .ok S →
    ∃ s', walkAll O n (solvedLeavesL pre.length (xs.map Item.before)) (mk e v none ty s false (pre.map Item.after ++ xs.map Item.before)) =
      .ok (mk e v none ty s' false ((pre ++ xs).map Item.after), []) ∧ (xs ≠ [] → s' = some S)
  | [], pre, s, _, _, _ => ⟨s, by simp [solvedLeavesL, walkAll], by simp⟩
  | x :: r, pre, s, hp, hx, hS => by
    have hd := hx x (by simp)
    have hr : ∀ y ∈ r, Done O n v (some .additivity) y.term y.before y.after y.sol := fun y hy => hx y (by simp [hy])
    obtain ⟨p, hsl, hw⟩ := hd.back
    have hget : (pre.map Item.after ++ x.before :: r.map Item.before)[pre.length]? = some x.before := by
      rw [List.getElem?_append_right (by simp)]; simp
    have hset : (pre.map Item.after ++ x.before :: r.map Item.before).set pre.length x.after =
        pre.map Item.after ++ x.after :: r.map Item.before := by
      rw [List.set_append_right _ _ (by simp)]; simp
    have hsub : substOf x.after = [] := by simp [substOf, hd.tr']
    have hsol : solutions (pre.map Item.after ++ x.after :: r.map Item.before) = .error .value ∨
        solutions (pre.map Item.after ++ x.after :: r.map Item.before) = .ok ((pre ++ x :: r).map Item.sol) := by
      rw [solutions_append (solutions_after pre hp)]
      have hc : solutions (x.after :: r.map Item.before) =
          match solutions (r.map Item.before) with | .error er => .error er | .ok ss => .ok (x.sol :: ss) := by
        simp only [solutions, hd.sol']
        cases solutions (r.map Item.before) <;> rfl
      rw [hc]
      rcases solutions_before r hr with e | e <;> rw [e]
      · exact .inl rfl
      · exact .inr (by simp)
    have hfull : r = [] → solutions (pre.map Item.after ++ x.after :: r.map Item.before) = .ok ((pre ++ x :: r).map Item.sol) := by
      rintro rfl
      have := solutions_after (O := O) (n := n) (v := v) (tr := some .additivity) (pre ++ [x]) (fun y hy => by
        rcases List.mem_append.1 hy with hy | hy
        · exact hp y hy
        · simp at hy; subst hy; exact hd)
      simpa using this
    have hstep : ∃ (s1 : Option Expr) (bb : Bool), walk O n (pre.length :: p) (mk e v none ty s false (pre.map Item.after ++ x.before :: r.map Item.before)) =
        .ok (mk e v none ty s1 false (pre.map Item.after ++ x.after :: r.map Item.before), bb, []) ∧ (r = [] → s1 = some S) := by
      simp only [walk, hget, hw, hset, backward, hd.sol', hd.tr']
      by_cases hre : r = []
      · have := hfull hre
        rw [this]
        simp only [hS, hsub, List.append_nil]
        exact ⟨_, _, rfl, fun _ => rfl⟩
      · rcases hsol with e | e <;> rw [e]
        · exact ⟨_, _, rfl, fun h => absurd h hre⟩
        · simp only [hS, hsub, List.append_nil]
          exact ⟨_, _, rfl, fun _ => rfl⟩
    obtain ⟨s1, bb, hwalk, hs1⟩ := hstep
    obtain ⟨s', hwa, hs'⟩ := walkAll_done r (pre ++ [x]) s1 (fun y hy => by
        rcases List.mem_append.1 hy with hy | hy
        · exact hp y hy
        · simp at hy; subst hy; exact hd) hr (by simpa using hS)
    refine ⟨s', ?_, fun _ => ?_⟩
    · simp only [List.map_cons, solvedLeavesL, hsl, List.map_nil, List.cons_append, List.nil_append, walkAll, hwalk]
      have hl : (pre ++ [x]).length = pre.length + 1 := by simp
      rw [hl] at hwa
      have hwa' : walkAll O n (solvedLeavesL (pre.length + 1) (r.map Item.before))
          (mk e v none ty s1 false (pre.map Item.after ++ x.after :: r.map Item.before)) =
          .ok (mk e v none ty s' false (pre.map Item.after ++ x.after :: r.map Item.after), []) := by simpa using hwa
      rw [hwa']
      simp
    · by_cases hre : r = []
      · subst hre
        simp only [List.map_nil, solvedLeavesL, walkAll] at hwa
        have := hs1 rfl
        simp at hwa
        rw [← hwa, this]
      · exact hs' hre

/-! ## The whole run -/

/-- Monomials are harmless: well formed, and defined everywhere. -/
theorem mono_wf (h : Monomial v t) : WF t := by
  cases h with
  | const c => simp
  | unit h => cases h <;> simp [WF, baseOk]
  | scaled c h => cases h <;> simp [WF, WFL, baseOk, List.filter, Expr.isAcc]

theorem mono_dom (h : Monomial v t) (ρ : Str → ℝ) : Dom ρ t := by
  have hu : ∀ {u}, VarPower v u → Dom ρ u := by
    intro u h
    cases h with
    | var => simp [Dom, DomS]
    | power k hk => simp [Dom, DomS, den, intExp]
  cases h with
  | const c => simp [Dom, DomS]
  | unit h => exact hu h
  | scaled c h => simpa [Dom, DomS, DomSL] using hu h

theorem deriv_sum (ρ : Str → ℝ) : ∀ (xs : List Item), (∀ x ∈ xs, Solves v x.term x.sol) →
    HasDerivAt (fun t => ((xs.map Item.sol).map (den (Function.update ρ v t))).sum) ((xs.map Item.term).map (den ρ)).sum (ρ v)
  | [], _ => by simpa using hasDerivAt_const (ρ v) (0 : ℝ)
  | x :: r, h => by
    have h1 := (h x (by simp)).deriv ρ
    have h2 := deriv_sum ρ r fun y hy => h y (by simp [hy])
    simp only [List.map_cons, List.sum_cons]
    exact HasDerivAt.fun_add h1 h2

/-- `integrate` on a polynomial, the parts that do not depend on the strategy. -/
theorem run_poly (hO : O.Exact) (h : IsPolynomial v e) (n : Nat) (b : Bool) : ∃ (t0 t1 : Node) (F : Expr),
    safely O (n + 8) (n + 8) ν [] (mk e v none .unset none false []) = .ok t0 ∧ tableAll O (n + 8) b t0 = .ok t1 ∧
    t1.isSolved = true ∧ t1.isFailed = false ∧ unfinishedPaths t1 = [] ∧ goBackwards O (n + 8) t1 = .ok (F, []) ∧
    IsPolynomial v F ∧ ∀ ρ, HasDerivAt (fnOf ρ v F) (den ρ e) (ρ v) := by
  rcases h with h | ⟨ts, rfl, hne, h⟩
  · obtain ⟨d, d', F, ht, hd⟩ := done_mono (O := O) (tr := none) h n b
    obtain ⟨p, hp, hw⟩ := hd.back
    refine ⟨_, d, F, safely_mono h n (n + 6) (by intro a ha; cases ha), ht, hd.solved, hd.notFailed, hd.unfinished, ?_,
      .inl hd.solves.mono, hd.solves.deriv⟩
    simp [goBackwards, hd.solved, hp, walkAll, hw, hd.sol']
  · obtain ⟨xs, hx, ht, hd⟩ := done_list (O := O) (tr := some .additivity) n b ts h
    have hFm : ∀ G ∈ xs.map Item.sol, Monomial v G := by
      intro G hG
      obtain ⟨x, hx, rfl⟩ := List.mem_map.1 hG
      exact (hd x hx).solves.mono
    obtain ⟨S, hS, hpoly⟩ := sum_mono (O := O) hFm (n + 2)
    have hxne : xs ≠ [] := by rintro rfl; exact hne hx.symm
    obtain ⟨s', hwa, hs'⟩ := walkAll_done (e := sum ts) (ty := .and) xs [] none (by simp) hd (by simpa using hS)
    cases xs with
    | nil => exact absurd rfl hxne
    | cons x r =>
      have hts : ts.map (monoTree v (some .additivity)) ≠ [] := by simpa using hne
      have hall : allSolved ((x :: r).map Item.before) = true := by
        have : ∀ l : List Item, (∀ y ∈ l, Done O (n + 8) v (some .additivity) y.term y.before y.after y.sol) →
            allSolved (l.map Item.before) = true := by
          intro l
          induction l with
          | nil => intro _; rfl
          | cons y l ih => intro hl; simp [allSolved, (hl y (by simp)).solved, ih fun z hz => hl z (by simp [hz])]
        exact this _ hd
      have hnone : anyFailed ((x :: r).map Item.before) = false := by
        have : ∀ l : List Item, (∀ y ∈ l, Done O (n + 8) v (some .additivity) y.term y.before y.after y.sol) →
            anyFailed (l.map Item.before) = false := by
          intro l
          induction l with
          | nil => intro _; rfl
          | cons y l ih => intro hl; simp [anyFailed, (hl y (by simp)).notFailed, ih fun z hz => hl z (by simp [hz])]
        exact this _ hd
      have hunf : ∀ i, unfinishedPathsL i ((x :: r).map Item.before) = [] := by
        have : ∀ (l : List Item) (i : Nat), (∀ y ∈ l, Done O (n + 8) v (some .additivity) y.term y.before y.after y.sol) →
            unfinishedPathsL i (l.map Item.before) = [] := by
          intro l
          induction l with
          | nil => intro _ _; rfl
          | cons y l ih => intro i hl; simp [unfinishedPathsL, (hl y (by simp)).unfinished, ih (i + 1) fun z hz => hl z (by simp [hz])]
        exact fun i => this _ i hd
      have hsolved : (mk (sum ts) v none .and none false ((x :: r).map Item.before)).isSolved = true := by
        simpa [isSolved] using hall
      refine ⟨_, mk (sum ts) v none .and none false ((x :: r).map Item.before), S, safely_sum h n (n + 5), ?_, hsolved, ?_, ?_, ?_, hpoly, ?_⟩
      · obtain ⟨t, r', e⟩ := List.exists_cons_of_ne_nil hts
        rw [e] at ht ⊢
        simp only [tableAll, ht]
      · simpa [isFailed] using hnone
      · simpa [unfinishedPaths] using hunf 0
      · have hs : s' = some S := hs' hxne
        subst hs
        have hsl : solvedLeaves (mk (sum ts) v none .and none false ((x :: r).map Item.before)) =
            solvedLeavesL 0 ((x :: r).map Item.before) := rfl
        have hwa' : walkAll O (n + 8) (solvedLeavesL 0 ((x :: r).map Item.before))
            (mk (sum ts) v none .and none false ((x :: r).map Item.before)) =
            .ok (mk (sum ts) v none .and (some S) false ((x :: r).map Item.after), []) := by simpa using hwa
        simp only [goBackwards, hsolved, Bool.not_true, Bool.false_eq_true, if_false, hsl, hwa', Node.sol]
      · intro ρ
        have hd1 := deriv_sum ρ (x :: r) fun y hy => (hd y hy).solves
        rw [hx] at hd1
        have hval : fnOf ρ v S = fun t => (((x :: r).map Item.sol).map (den (Function.update ρ v t))).sum := by
          funext t
          exact ((ctors_sound hO (n + 8)).sum (s := false) (Function.update ρ v t) _ S (fun G hG => mono_wf (hFm G hG))
            (fun G hG => mono_dom (hFm G hG) _) hS).1
        rw [hval]
        refine hd1.congr_deriv ?_
        simp [den, denS_eq]

end Node
end Simpy
