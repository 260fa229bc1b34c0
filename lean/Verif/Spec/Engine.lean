import Verif.Model.Engine
import Verif.Spec.Tree

/-!
# Specification: the states of the search
-/

namespace Simpy
namespace Node

/-- `integrate(e, v)` comes to call `_cycle` on the node at the path `p` of the tree `t`. -/
inductive Visits (O : Oracle) (n : Nat) (ν : Supply) (bf : Bool) (v : Str) (e : Expr) : Node → List Nat → Prop
  | start {t : Node} : startTree O n ν v e = .ok t → Visits O n ν bf v e t []
  | next {t t' : Node} {p q : List Nat} : Visits O n ν bf v e t p → cycle O n ν bf t p = .ok (t', .node q) →
      t'.isFinished = false → Visits O n ν bf v e t' q
  | solved {t t' : Node} {p q : List Nat} : Visits O n ν bf v e t p → cycle O n ν bf t p = .ok (t', .solved) →
      t'.isFinished = false → bfNext O t' = .ok (.node q) → Visits O n ν bf v e t' q

/-- The path leads to an unfinished leaf of the tree. -/
def OpenLeaf (t : Node) (p : List Nat) : Prop := ∃ l : Node, at? p t = some l ∧ l.children = [] ∧ l.isFinished = false

end Node
end Simpy
