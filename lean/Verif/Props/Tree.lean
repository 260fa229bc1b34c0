import Verif.Proofs.TreeSound
import Verif.Proofs.Nesting
import Verif.Props.Regex

/-!
# C31-C34, C52: the integration tree and complexity

`t.isSolved`, `t.isFailed`, `t.isFinished` are the properties of the same name, `bestLeaf` is `_get_best_leaf`, `nesting O
(some v) e` is `nesting(e, v)`.
-/

namespace Simpy
open Expr Node

variable {O : Oracle}

/-- **C31** No node is both solved and failed, in every tree in which solved and failed leaves stay leaves. Missing: the
program can give children to a SOLUTION node, and then both can hold (`solved_and_failed`). -/
theorem not_solved_and_failed_partial (t : Node) (h : Settled t) : ¬(t.isSolved = true ∧ t.isFailed = true) := not_both t h

/-- **C31** A SOLUTION node with a failed child is both: the hypothesis above is needed. -/
theorem solved_and_failed : ∃ t : Node, t.isSolved = true ∧ t.isFailed = true :=
  ⟨mk (sym ['x']) ['x'] none .solution none true [mk (sym ['x']) ['x'] none .failure none false []], by decide⟩

/-- **C31** finished = solved or failed -/
theorem finished_iff (t : Node) : t.isFinished = true ↔ t.isSolved = true ∨ t.isFailed = true := by simp [isFinished]

/-- **C31** An AND node with children is solved exactly if all children are, and failed exactly if one is. -/
theorem and_status {t : Node} (h : t.type = .and ∨ t.type = .unset) (hc : t.children ≠ []) :
    (t.isSolved = true ↔ ∀ c ∈ t.children, c.isSolved = true) ∧
    (t.isFailed = true ↔ ∃ c ∈ t.children, c.isFailed = true) := by
  cases t with
  | mk e v tr ty s f cs =>
    simp only [type] at h
    have hc : cs ≠ [] := hc
    rcases h with rfl | rfl <;>
      simp only [isSolved, isFailed, Bool.and_eq_true, isEmpty_false, allSolved_iff, anyFailed_iff, Node.children] <;>
      exact ⟨⟨fun k => k.2, fun k => ⟨hc, k⟩⟩, ⟨fun k => k.2, fun k => ⟨hc, k⟩⟩⟩

/-- **C31** An OR node with children is solved exactly if some child is, and failed exactly if all are. -/
theorem or_status {t : Node} (h : t.type = .or) (hc : t.children ≠ []) :
    (t.isSolved = true ↔ ∃ c ∈ t.children, c.isSolved = true) ∧
    (t.isFailed = true ↔ ∀ c ∈ t.children, c.isFailed = true) := by
  cases t with
  | mk e v tr ty s f cs =>
    simp only [type] at h
    have hc : cs ≠ [] := hc
    subst h
    simp only [isSolved, isFailed, Bool.and_eq_true, isEmpty_false, anySolved_iff, allFailed_iff, Node.children]
    exact ⟨⟨fun k => k.2, fun k => ⟨hc, k⟩⟩, ⟨fun k => k.2, fun k => ⟨hc, k⟩⟩⟩

/-- **C31** A leaf is solved exactly if it is a SOLUTION and failed exactly if it is a FAILURE. -/
theorem leaf_status {t : Node} (hc : t.children = []) :
    (t.isSolved = true ↔ t.type = .solution) ∧ (t.isFailed = true ↔ t.type = .failure) := by
  cases t with
  | mk e v tr ty s f cs =>
    have hc : cs = [] := hc
    subst hc
    cases ty <;> simp [isSolved, isFailed, type]

/-- **C32** Every tree that is not finished has an unfinished leaf. -/
theorem unfinished_has_work (t : Node) (h : t.isFinished = false) : ∃ l ∈ t.unfinishedLeaves, IsLeafOf l t ∧ l.isFinished = false := by
  obtain ⟨l, h1, h2⟩ := unfinished_leaf t h
  exact ⟨l, by simp [unfinishedLeaves, mem_leaves, h1, h2], h1, h2⟩

/-- **C32** Whatever happens to the unfinished leaves, a failed tree stays failed and a solved tree stays solved. -/
theorem verdict_is_final {t t' : Node} (h : Later t t') :
    (t.isFailed = true → t'.isFailed = true) ∧ (t.isSolved = true → t'.isSolved = true) := later_stable t t' h

/-- **C32** A failed tree cannot be solved by working on unfinished leaves. -/
theorem failed_not_solvable {t t' : Node} (h : Later t t') (hf : t.isFailed = true) (hs : Settled t') : t'.isSolved = false := by
  have := (verdict_is_final h).1 hf
  by_contra hne
  exact not_both t' hs ⟨by simpa using hne, this⟩

/-- **C52** `nesting(e, v)` is always defined, and 0 exactly if `v` does not occur. -/
theorem nesting_zero_iff (O : Oracle) (v : Str) (e : Expr) :
    ∃ m, nesting O (some v) e = .ok m ∧ (m = 0 ↔ e.contains v = false) := by
  obtain ⟨m, k, h⟩ := nest_ok (O := O) v e
  refine ⟨m, h.plain, fun h0 => ?_, fun h0 => (h.zero h0).1⟩
  by_contra hne
  have := (h.pos (by simpa using hne)).1
  omega

/-- **C52** A child is at most as complex as its parent; only for `-1 * b**-1` it may be more complex, by one. -/
theorem nesting_child (O : Oracle) (v : Str) {e c : Expr} (hc : c ∈ e.children) {me mc : Nat}
    (he : nesting O (some v) e = .ok me) (hm : nesting O (some v) c = .ok mc) :
    mc ≤ me ∨ (mc ≤ me + 1 ∧ ∃ a b x, e = prod [a, pow b x] ∧ c = pow b x ∧ beq O a (rat (-1)) = true ∧
      beq O x (rat (-1)) = true) := by
  obtain ⟨m, k, h⟩ := nest_ok (O := O) v e
  obtain ⟨m', k', h'⟩ := nest_ok (O := O) v c
  unfold nesting at he hm
  rw [h.plain] at he; rw [h'.plain] at hm
  have h1 := Except.ok.inj he; have h2 := Except.ok.inj hm
  subst h1 h2
  exact nest_child h h' hc

/-- **C33** On an unfinished tree `_get_best_leaf` returns an unfinished leaf of the tree, and the complexity of its problem is
the minimax score of the tree: minimum over the unfinished children of OR nodes, maximum over those of other nodes. -/
theorem best_leaf_correct (O : Oracle) (t : Node) (h : t.isFinished = false) :
    ∃ (l : Node) (k : Expr → Str → Nat), (∀ e v, nesting O (some v) e = .ok (k e v)) ∧
      bestLeaf (fun e v => nesting O (some v) e) t = .ok l ∧ IsLeafOf l t ∧ l.isFinished = false ∧
      minimax k t = some (k l.expr l.var) := by
  have hk : ∀ e v, ∃ m, nesting O (some v) e = .ok m := fun e v => (nesting_zero_iff O v e).imp fun _ h => h.1
  choose k hk using hk
  obtain ⟨l, h1, h2, h3, h4⟩ := bestLeaf_V (nest := fun e v => nesting O (some v) e) hk t h
  exact ⟨l, k, hk, h1, h2, h3, h4⟩

/-- **C34** `add_child` leaves the tree unchanged exactly if the child is not a filler and its problem is that of the node or
of one of its ancestors, up to the name of the variable; otherwise the child becomes the last child. -/
theorem add_child_effect (O : Oracle) (as : List Node) (t c : Node) :
    (addChild O as c t = t ↔ c.filler = false ∧ ∃ p ∈ t :: as, eqWithVar O p.var c.var p.expr c.expr = true) ∧
    (addChild O as c t ≠ t → (addChild O as c t).children = t.children ++ [c] ∧ (addChild O as c t).expr = t.expr ∧
      (addChild O as c t).var = t.var ∧ (addChild O as c t).type = t.type ∧ (addChild O as c t).sol = t.sol ∧
      (addChild O as c t).filler = t.filler ∧ (addChild O as c t).tr = t.tr) := by
  cases t with
  | mk e v tr ty s f cs =>
    have key : refused O (mk e v tr ty s f cs :: as) c = true ↔
        c.filler = false ∧ ∃ p ∈ mk e v tr ty s f cs :: as, eqWithVar O p.var c.var p.expr c.expr = true := by
      simp [refused]
    rw [← key, addChild]
    by_cases hr : refused O (mk e v tr ty s f cs :: as) c = true
    · simp [hr]
    · rw [if_neg hr]
      simp [hr, Node.children, expr, var, type, sol, filler, Node.tr]

/-- **C34** Whatever sequence of mutations builds the tree from its root, a node that is not a filler never has the problem
of one of its ancestors (renaming the ancestor's variable to the node's variable does not give the node's integrand). -/
theorem no_repeated_problem (hO : O.NoConfusion) (root : Node) (hroot : root.children = []) (μs : List Mut)
    (hf : ∀ μ ∈ μs, μ.fresh) {p n : Node} (hp : Within p (μs.foldl (fun t μ => μ.apply O t) root)) (hn : Descends n p)
    (hfill : n.filler = false) (h1 : floatFree p.expr = true) (h2 : floatFree n.expr = true) :
    rename p.var n.var p.expr ≠ n.expr := by
  have h0 : NoRepeat O [] root := by
    cases root with
    | mk e v tr ty s f cs =>
      have : cs = [] := hroot
      subst this
      exact ⟨by simp, trivial⟩
  obtain ⟨as', -, hp'⟩ := noRepeat_within hp (muts_noRepeat μs hf h0)
  have := noRepeat_descends hp' hn hfill
  intro hc
  rw [(eq_with_var_iff hO p.var n.var h1 h2).2 hc] at this
  simp at this

section examples
set_option maxRecDepth 10000

private abbrev x : Expr := sym ['x']
private abbrev y : Expr := sym ['y']
private abbrev leaf (e : Expr) (ty : NType) : Node := mk e ['x'] none ty none false []
/-- OR over: an AND of a solved and an unfinished problem, and an unfinished problem of higher complexity. -/
private abbrev tree : Node :=
  mk (prod [x, y]) ['x'] none .or none false
    [mk x ['x'] none .and none false [leaf y .solution, leaf (pow x (rat 2)) .unset, leaf x .unset],
     leaf (trig .sin (pow x (rat 2))) .unset]

example : Settled tree ∧ tree.isFinished = false := by
  refine ⟨?_, by decide⟩
  simp [Settled, SettledL]

/-- The chosen leaf is `x**2`: the maximum below AND, the minimum below OR. -/
example : bestLeaf (fun e v => nesting exactOracle (some v) e) tree = .ok (leaf (pow x (rat 2)) .unset) := by rfl

/-- A later state of the failed tree. -/
example : Later (mk x ['x'] none .and none false [leaf y .failure, leaf x .unset])
    (mk x ['x'] none .and none false [leaf y .failure, leaf x .solution]) ∧
    (mk x ['x'] none .and none false [leaf y .failure, leaf x .unset]).isFailed = true :=
  ⟨.same (.cons (.same .nil) (.cons (.work rfl (by decide)) .nil)), by decide⟩

example : nesting exactOracle (some ['x']) (prod [rat (-1), pow x (rat (-1))]) = .ok 1 ∧
    nesting exactOracle (some ['x']) (pow x (rat (-1))) = .ok 2 ∧
    nesting exactOracle (some ['x']) (prod [y, pow y (rat 2)]) = .ok 0 := by decide +kernel

/-- `∫ sin(x) dx` below `∫ x dx`, then `∫ t dt` is refused below it and `∫ cos(t) dt` accepted. -/
example : ∃ μs : List Mut, (∀ μ ∈ μs, μ.fresh) ∧
    (μs.foldl (fun t μ => μ.apply exactOracle t) (leaf x .unset)) =
      mk x ['x'] none .unset none false [mk (trig .sin x) ['x'] none .unset none false
        [mk (trig .cos (sym ['t'])) ['t'] none .unset none false []]] :=
  ⟨[.add [] (leaf (trig .sin x) .unset), .add [0] (mk (sym ['t']) ['t'] none .unset none false []),
    .add [0] (mk (trig .cos (sym ['t'])) ['t'] none .unset none false [])],
    by simp [Mut.fresh, Node.children], by rfl⟩

end examples
end Simpy
