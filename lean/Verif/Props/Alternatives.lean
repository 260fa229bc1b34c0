import Verif.Proofs.Alternatives
import Verif.Props.Engine
import Verif.Proofs.NodeEq

/-!
# C63: of several attempts one is enough

When the search has found several possible next steps for an integrand (`isAttempt`), it takes one of them to be enough: the
problem is solved as soon as one of them is, and given up only when all of them are. In all other cases (the parts of a sum, a
single step) all children must be solved. The statements hold for every node of the tree, after any number of cycles of the search
for any integrand, with either strategy.
-/

namespace Simpy
open Expr Node

variable {O : Oracle} {n : Nat} {ν : Supply} {bf : Bool} {k : Nat} {v : Str} {e : Expr} {T N : Node} {p : List Nat}

private theorem alt_type (h : search O n ν bf k v e = .ok T) (hN : at? p T = some N) : Alt1 N := (alt_at (search_alt h) hN).here

/-- **C63** Several attempts are alternatives. -/
theorem attempts_are_alternatives (h : search O n ν bf k v e = .ok T) (hN : at? p T = some N) (ha : Attempts N) :
    (N.isSolved = true ↔ ∃ c ∈ N.children, c.isSolved = true) ∧
    (N.isSolved = false → (N.isFailed = true ↔ ∀ c ∈ N.children, c.isFailed = true)) := by
  obtain ⟨h1, -, -⟩ := alt_type h hN
  have h1 := h1 ha
  obtain ⟨hl, -⟩ := ha
  cases N with
  | mk e v tr ty s f cs =>
    simp only [Node.type, Node.children] at h1 hl ⊢
    obtain ⟨c0, hc0⟩ := List.exists_mem_of_length_pos (l := cs) (by omega)
    have hne : cs.isEmpty = false := by cases cs <;> simp at hl ⊢
    rcases h1 with rfl | ⟨hty, hs⟩
    · simp only [isSolved, isFailed, hne, Bool.not_false, Bool.true_and]
      exact ⟨anySolved_iff, fun _ => allFailed_iff⟩
    · have hso : isSolved (mk e v tr ty s f cs) = true := by
        rcases hty with rfl | rfl <;>
        · simp only [isSolved, hne, Bool.not_false, Bool.true_and]
          exact allSolved_iff.2 hs
      exact ⟨⟨fun _ => ⟨c0, hc0, hs c0 hc0⟩, fun _ => hso⟩, fun h => by rw [hso] at h; cases h⟩

/-- **C63** Otherwise all children must be solved. (A SOLUTION node can have children: the filler of ByParts.) -/
theorem others_are_all_needed (h : search O n ν bf k v e = .ok T) (hN : at? p T = some N) (hne : N.children ≠ []) (ha : ¬Attempts N) :
    (N.isSolved = true ↔ N.type = .solution ∨ ∀ c ∈ N.children, c.isSolved = true) ∧
    (N.isFailed = true ↔ ∃ c ∈ N.children, c.isFailed = true) := by
  obtain ⟨-, h2, h3⟩ := alt_type h hN
  cases N with
  | mk e v tr ty s f cs =>
    simp only [Attempts, Node.type, Node.children, not_and] at h2 h3 ha hne ⊢
    have he : cs.isEmpty = false := by cases cs <;> simp at hne ⊢
    cases ty with
    | failure => exact absurd (h3 rfl) hne
    | solution =>
      simp only [isSolved, isFailed, he, Bool.not_false, Bool.true_and, true_or, true_iff]
      exact ⟨trivial, anyFailed_iff⟩
    | or =>
      have hl : ¬2 ≤ cs.length := fun hl => ha hl (h2 rfl)
      match cs, hne, hl with
      | [c], _, _ => simp [isSolved, isFailed, anySolved, allFailed]
      | _ :: _ :: _, _, hl => simp at hl
    | unset | and =>
      simp only [isSolved, isFailed, he, Bool.not_false, Bool.true_and, reduceCtorEq, false_or]
      exact ⟨allSolved_iff, anyFailed_iff⟩

/-! ## Examples -/

private abbrev x : Expr := sym ['x']

/-- `x*cos(x**2)`: after the first cycle there are four attempts, of which `u = x**2` succeeds; the root is solved although the
others are not. The child `cos(u)/2` of the root is solved because its only child is. -/
example : ∃ T : Node, search exactOracle 20 names false 3 ['x'] (prod [x, trig .cos (pow x (rat 2))]) = .ok T ∧ Attempts T ∧
    T.isSolved = true ∧ (∃ c ∈ T.children, c.isSolved = false) ∧ ∃ N : Node, at? [0] T = some N ∧ N.children ≠ [] ∧ ¬Attempts N := by
  have h : (do
      let T ← search exactOracle 20 names false 3 ['x'] (prod [x, trig .cos (pow x (rat 2))])
      return decide (2 ≤ T.children.length) && T.children.all (fun c => isAttempt c.tr) && T.isSolved &&
        T.children.any (fun c => !c.isSolved) && (match at? [0] T with
          | some N => decide (N.children.length = 1)
          | none => false)) = .ok true := by
    set_option maxRecDepth 10000 in decide +kernel
  obtain ⟨T, h1, h⟩ := bind_ok.1 h
  have h := pure_ok.1 h
  simp only [Bool.and_eq_true, decide_eq_true_eq, List.all_eq_true, List.any_eq_true] at h
  obtain ⟨⟨⟨⟨a, b⟩, c⟩, d⟩, e⟩ := h
  refine ⟨T, h1, ⟨a, b⟩, c, by simpa using d, ?_⟩
  split at e
  · next N hN =>
    have e := of_decide_eq_true e
    exact ⟨N, hN, by intro h; rw [h] at e; simp at e, fun h => by have := h.1; omega⟩
  · cases e

end Simpy
