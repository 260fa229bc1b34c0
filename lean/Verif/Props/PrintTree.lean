import Verif.Proofs.PrintTree
import Verif.Model.Exact

/-!
# C96: the printed search tree
-/

namespace Simpy
namespace Print
open Expr

/-- `print_tree(root)`: one row for each node of the tree, in depth-first order, which describes it; a blank line for each leaf; made-up
variables are shown under names that are different for different variables. -/
theorem tree_rows (O : Oracle) (n : Nat) (t : Node) {ls : List Line} (h : tree O n t = .ok ls) :
    ∃ σ : Str → Str, List.Forall₂ (Describes O n σ) (walk [] t) (rows ls) ∧ Distinct σ (walk [] t) ∧
      ls.count .blank = ((walk [] t).filter fun p => p.2.children.isEmpty).length ∧ ∀ r ∈ rows ls, r.sol = none := by
  unfold tree at h
  cases q : printTree O n true true false false 0 t [] with
  | error x => rw [q] at h; cases h
  | ok p =>
    obtain ⟨d, ls'⟩ := p
    rw [q] at h
    cases h
    have k := printTree_ok (O := O) (n := n) (stale := true) (fails := true) (sols := false) [] t .nil q
    rw [shown_all] at k
    exact ⟨shownBy d, (k.rows (.refl _)).imp fun _ _ h => h.1, distinct_of k, k.blank, k.none (by simp)⟩

/-- `print_solution_tree(root)` of a solved tree: one row for each node of the solution that was found (solved, with all its ancestors) and
for no other, in depth-first order; the row describes the node and shows its solution. -/
theorem solution_rows (O : Oracle) (n : Nat) (t : Node) {ls : List Line} (hs : t.Settled) (ht : t.isSolved = true)
    (h : solutionTree O n t = .ok ls) :
    ∃ σ : Str → Str, List.Forall₂ (fun p r => Describes O n σ p r ∧ Solves O n σ p r) (solvedPart t) (rows ls) ∧
      Distinct σ (solvedPart t) := by
  unfold solutionTree at h
  cases q : printTree O n false false true false 0 t [] with
  | error x => rw [q] at h; cases h
  | ok p =>
    obtain ⟨d, ls'⟩ := p
    rw [q] at h
    cases h
    have k := printTree_ok (O := O) (n := n) (stale := false) (fails := false) (sols := true) [] t .nil q
    rw [shown_solved (by simp) t hs (.inr ht)] at k
    refine ⟨shownBy d, ?_, distinct_of k⟩
    have hall : ∀ p ∈ (walk [] t).filter keep, p.2.isSolved = true := fun p hp => by
      have := (List.mem_filter.1 hp).2
      simp only [keep, Bool.and_eq_true] at this
      exact this.1
    have := k.rows (.refl _)
    exact forall₂_left hall this fun p r h1 h2 => ⟨h2.1, h2.2 rfl h1⟩

/-- `print_success_tree(root)` of a solved tree: the same rows without the solutions. -/
theorem success_rows (O : Oracle) (n : Nat) (t : Node) {ls : List Line} (hs : t.Settled) (ht : t.isSolved = true)
    (h : successTree O n t = .ok ls) :
    ∃ σ : Str → Str, List.Forall₂ (Describes O n σ) (solvedPart t) (rows ls) ∧ Distinct σ (solvedPart t) ∧
      ∀ r ∈ rows ls, r.sol = none := by
  unfold successTree at h
  cases q : printTree O n false false false false 0 t [] with
  | error x => rw [q] at h; cases h
  | ok p =>
    obtain ⟨d, ls'⟩ := p
    rw [q] at h
    cases h
    have k := printTree_ok (O := O) (n := n) (stale := false) (fails := false) (sols := false) [] t .nil q
    rw [shown_solved (by simp) t hs (.inr ht)] at k
    exact ⟨shownBy d, (k.rows (.refl _)).imp fun _ _ h => h.1, distinct_of k, k.none (by simp)⟩

/-- What is shown of a solved tree is a complete solution: the root, all children of its AND (and UNSET) nodes, some child of its OR nodes,
and its leaves are SOLUTION nodes. -/
theorem solution_complete (t : Node) (ht : t.isSolved = true) :
    ([], t) ∈ solvedPart t ∧ ∀ p ∈ solvedPart t,
      (p.2.children = [] → p.2.type = .solution) ∧
      (p.2.children ≠ [] → p.2.type = .and ∨ p.2.type = .unset → ∀ c ∈ p.2.children, (p.2 :: p.1, c) ∈ solvedPart t) ∧
      (p.2.children ≠ [] → p.2.type = .or → ∃ c ∈ p.2.children, (p.2 :: p.1, c) ∈ solvedPart t) := by
  have next : ∀ p ∈ solvedPart t, ∀ c ∈ p.2.children, c.isSolved = true → (p.2 :: p.1, c) ∈ solvedPart t := by
    intro p hp c hc hs
    obtain ⟨a, b⟩ := List.mem_filter.1 hp
    simp only [Bool.and_eq_true] at b
    exact List.mem_filter.2 ⟨walk_child t a c hc, by simp only [List.all_cons, hs, b.1, b.2, Bool.and_self]⟩
  refine ⟨List.mem_filter.2 ⟨?_, by simp [ht]⟩, fun p hp => ?_⟩
  · cases t; rw [walk]; exact List.mem_cons_self
  · have hs : p.2.isSolved = true := by
      have := (List.mem_filter.1 hp).2
      simp only [Bool.and_eq_true] at this
      exact this.1
    obtain ⟨as, e, v, tr, ty, s, f, cs⟩ := p
    dsimp only at hs ⊢
    simp only [Node.children, Node.type]
    have nx := next _ hp
    simp only [Node.children] at nx
    cases ty with
    | solution => simp
    | failure => simp [Node.isSolved] at hs
    | and | unset =>
      simp only [Node.isSolved, Bool.and_eq_true, Node.allSolved_iff, Bool.not_eq_true', List.isEmpty_eq_false_iff] at hs
      exact ⟨fun c => absurd c hs.1, fun _ _ c hc => nx c hc (hs.2 c hc), by simp⟩
    | or =>
      simp only [Node.isSolved, Bool.and_eq_true, Node.anySolved_iff, Bool.not_eq_true', List.isEmpty_eq_false_iff] at hs
      obtain ⟨h0, c, hc, hcs⟩ := hs
      exact ⟨fun k => absurd k h0, by simp, fun _ _ => ⟨c, hc, nx c hc hcs⟩⟩

/-- A column has its width, and text that fits into it is shown in full. -/
theorem column (s : Str) (k : Nat) (hk : 3 ≤ k) : (wrap s k).length = k ∧ (s.length ≤ k → s <+: wrap s k) ∧
    (k < s.length → s.take (k - 3) <+: wrap s k) := by
  unfold wrap
  by_cases c : s.length > k
  · rw [if_pos c]
    refine ⟨?_, fun h => absurd h (by omega), fun _ => List.prefix_append _ _⟩
    simp only [List.length_append, List.length_take, List.length_cons, List.length_nil]
    omega
  · rw [if_neg c]
    refine ⟨?_, fun _ => List.prefix_append _ _, fun h => absurd h c⟩
    simp only [List.length_append, List.length_replicate]
    omega

/-- A printed row contains its integrand and solution (up to 50 characters) and the name of the transform. -/
theorem row_text (r : Row) : (r.text.length ≤ 50 → r.text <:+: (Line.row r).text) ∧ r.cls <:+: (Line.row r).text ∧
    (∀ s, r.sol = some s → s.length ≤ 50 → s <:+: (Line.row r).text) ∧ r.ending <:+ (Line.row r).text := by
  refine ⟨fun h => ?_, ?_, fun s hs h => ?_, ?_⟩
  · refine (List.IsPrefix.isInfix ((column r.text 50 (by norm_num)).2.1 h)).trans ?_
    exact ⟨wrap ('[' :: intStr r.depth ++ [']']) 4 ++ [' ', '{'] ++ intStr r.nest ++ ['}', ' '], [' ', ' '] ++
      (match r.sol with | some s => wrap s 50 | none => []) ++ [' ', ' ', '('] ++ r.cls ++ [')'] ++ r.remark ++ r.ending,
      by simp only [Line.text]; cases r.sol <;> simp⟩
  · exact ⟨wrap ('[' :: intStr r.depth ++ [']']) 4 ++ [' ', '{'] ++ intStr r.nest ++ ['}', ' '] ++ wrap r.text 50 ++ [' ', ' '] ++
      (match r.sol with | some s => wrap s 50 | none => []) ++ [' ', ' ', '('], [')'] ++ r.remark ++ r.ending,
      by simp only [Line.text]; cases r.sol <;> simp⟩
  · refine (List.IsPrefix.isInfix ((column s 50 (by norm_num)).2.1 h)).trans ?_
    exact ⟨wrap ('[' :: intStr r.depth ++ [']']) 4 ++ [' ', '{'] ++ intStr r.nest ++ ['}', ' '] ++ wrap r.text 50 ++ [' ', ' '],
      [' ', ' ', '('] ++ r.cls ++ [')'] ++ r.remark ++ r.ending, by simp [Line.text, hs]⟩
  · exact ⟨wrap ('[' :: intStr r.depth ++ [']']) 4 ++ [' ', '{'] ++ intStr r.nest ++ ['}', ' '] ++ wrap r.text 50 ++ [' ', ' '] ++
      (match r.sol with | some s => wrap s 50 | none => []) ++ [' ', ' ', '('] ++ r.cls ++ [')'] ++ r.remark,
      by simp only [Line.text]; cases r.sol <;> simp⟩

section examples

/-- `∫ cos(2x) dx` after the substitution `u_abc = 2x`, with an attempt that failed and one that was given up. -/
def sample : Node :=
  .mk (trig .cos (prod [rat 2, sym ['x']])) ['x'] none .or (some (prod [rat (1 / 2), trig .sin (prod [rat 2, sym ['x']])])) false
    [.mk (trig .cos (sym ['x'])) ['x'] (some .expand) .failure none false [],
     .mk (prod [rat (1 / 2), trig .cos (sym ['u', '_', 'a', 'b'])]) ['u', '_', 'a', 'b'] (some (.linearUSub (sym ['x']))) .unset
        (some (prod [rat (1 / 2), trig .sin (sym ['u', '_', 'a', 'b'])])) false
        [.mk (trig .cos (sym ['u', '_', 'a', 'b'])) ['u', '_', 'a', 'b'] (some (.pullConstant (rat (1 / 2)))) .solution
          (some (trig .sin (sym ['u', '_', 'a', 'b']))) false []],
     .mk (sym ['x']) ['x'] (some .byParts) .unset none false []]

example : sample.Settled ∧ sample.isSolved = true := by
  refine ⟨?_, by decide⟩
  simp [sample, Node.Settled, Node.SettledL]

private def texts (r : R (List Line)) : List String := match r with | .ok ls => ls.map fun l => String.ofList l.text | .error _ => ["error"]

set_option maxRecDepth 10000 in
/-- The whole tree: a failed leaf, the solved part, and a leaf that is no longer needed. -/
example : texts (tree exactOracle 20 sample) =
    ["[0]  {3} cos(2*x)                                              (NoneType) (solved)",
     "[1]  {2} cos(x)                                                (Expand) (FAILURE)", "",
     "[1]  {3} cos(u_2)/2                                            (LinearUSub) (solved)",
     "[2]  {2} cos(u_2)                                              (PullConstant) (SOLUTION)", "",
     "[1]  {1} x                                                     (ByParts) (stale) (UNSET)", ""] := by decide +kernel

set_option maxRecDepth 10000 in
example : texts (solutionTree exactOracle 20 sample) =
    ["[0]  {3} cos(2*x)                                            sin(2*x)/2                                          (NoneType) (solved)",
     "[1]  {3} cos(u_2)/2                                          sin(u_2)/2                                          (LinearUSub) (solved)",
     "[2]  {2} cos(u_2)                                            sin(u_2)                                            (PullConstant) (SOLUTION)",
     ""] ∧ texts (successTree exactOracle 20 sample) =
    ["[0]  {3} cos(2*x)                                              (NoneType) (solved)",
     "[1]  {3} cos(u_2)/2                                            (LinearUSub) (solved)",
     "[2]  {2} cos(u_2)                                              (PullConstant) (SOLUTION)", ""] := by
  constructor <;> decide +kernel

example : (solvedPart sample).length = 3 ∧ (walk [] sample).length = 5 := by decide +kernel

example : wrap "cos(x)".toList 50 ≠ wrap "sin(x)".toList 50 := by decide

set_option maxRecDepth 10000 in
/-- A parameter called `u_2` is not renamed: below a node of variable `x` the made-up variable `u_ab` is shown as `u_2` too, and `u_2*u_ab`
is shown as `(u_2)^2`. -/
theorem shown_name_may_be_a_parameter : texts (tree exactOracle 20
    (.mk (sym ['x']) ['x'] none .unset none false
      [.mk (prod [sym ['u', '_', '2'], sym ['u', '_', 'a', 'b']]) ['u', '_', 'a', 'b'] none .unset none false []])) =
    ["[0]  {1} x                                                     (NoneType)",
     "[1]  {2} (u_2)^2                                               (NoneType) (UNSET)", ""] := by decide +kernel

end examples
end Print
end Simpy
