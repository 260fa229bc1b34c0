import Verif.Proofs.GrownSearch
import Verif.Props.Engine

/-!
# C61: every problem in the search tree comes from its parent by the transform it carries
-/

namespace Simpy
open Expr Node

variable {O : Oracle} {n : Nat} {ν : Supply} {bf : Bool} {k : Nat} {v : Str} {e : Expr} {T t c : Node}

/-- **C61** The root of the tree that the search returns is the problem posed (simplified), and every other node is the output of
the transform it carries on the integrand of its parent, whatever happened in between (with the new name drawn for it, and for
ByParts the integrands of the integrations by parts above). -/
theorem search_tree_provenance (h : search O n ν bf k v e = .ok T) :
    (T.tr = none ∧ T.var = v ∧ simplifyE O n e = .ok T.expr) ∧
    ∀ (p : List Nat) (i : Nat) (t c : Node) (as : List Node), lineage [] p T = some (t, as) → t.children[i]? = some c →
      Made O n (ν.at p) (oldsOf (t :: as)) t.expr t.var (isByParts t.tr) c := by
  obtain ⟨s, h1, h2, h3, rfl, h5⟩ := search_grown h
  refine ⟨⟨h3, h5, h1⟩, fun p i t c as hp hc => ?_⟩
  have h6 := grown_at h2 (lineage_at hp)
  have h7 := oldAt_lineage hp
  have h8 : oldsOf [T] = [] := by simp [oldsOf, h3, isByParts]
  rw [h8] at h7
  rw [h7] at h6
  exact h6.made hc

/-- **C61** A node has a solution of its own exactly if it is labelled SOLUTION, and then that is what the integral table says about
its integrand (unless it is a filler node of ByParts). -/
theorem search_tree_solutions (h : search O n ν bf k v e = .ok T) {p : List Nat} (hp : at? p T = some t) :
    (t.sol.isSome ↔ t.type = .solution) ∧
    ∀ S, t.sol = some S → t.filler = false → checkTable O n t.var t.expr = .ok (some S) := by
  obtain ⟨s, h1, h2, h3, rfl, h5⟩ := search_grown h
  rcases (grown_at h2 hp).labelled.1 with ⟨a, b⟩ | ⟨a, S, b, c⟩
  · simp [a, b]
  · rw [b]
    exact ⟨by simp [a], fun S' h hf => by cases h; exact c hf⟩

/-- The search for `x ** 2 * cos(x)` returns a tree with nodes four levels deep. -/
example : ∃ T t c, search exactOracle 20 names false 3 ['x'] xSqCos = .ok T ∧ at? [0, 1, 0] T = some t ∧
    t.children[0]? = some c ∧ c.tr = some .byParts := by
  have h : (search exactOracle 20 names false 3 ['x'] xSqCos).bind (fun T => match at? [0, 1, 0] T with
    | some t => .ok ((t.children[0]?.map fun c => isByParts c.tr) == some true) | none => .ok false) = .ok true := by
    set_option maxRecDepth 10000 in decide +kernel
  cases h1 : search exactOracle 20 names false 3 ['x'] xSqCos with
  | error er => rw [h1] at h; cases h
  | ok T =>
    rw [h1] at h
    simp only [Except.bind] at h
    cases h2 : at? [0, 1, 0] T with
    | none => rw [h2] at h; cases h
    | some t =>
      rw [h2] at h
      simp only [Except.ok.injEq, beq_iff_eq, Option.map_eq_some_iff] at h
      obtain ⟨c, h3, h4⟩ := h
      exact ⟨T, t, c, rfl, h2, h3, by
        revert h4
        rcases c with ⟨_, _, _ | tr, _, _, _, _⟩ <;> simp [Node.tr, isByParts]
        cases tr <;> simp⟩

end Simpy
