import Verif.Model.Engine

/-! # Specification: the steps of which one is enough -/

namespace Simpy
open Expr
namespace Node

/-- The steps that the search tries on an integrand one beside the other, in the hope that one of them leads to a solution
(`HEURISTICS`, transforms.py:1115-1125). -/
def isAttempt : Option Transf → Bool
  | some (.polynomialUSub _) | some .productToSum | some (.trigUSub2 _) | some .byParts | some .rewriteTrig
  | some .rewritePythagorean | some (.inverseTrigUSub _) | some .completeTheSquare | some (.genericUSub _) => true
  | _ => false

/-- The children of the node are attempts, and there are several. -/
def Attempts (t : Node) : Prop := 2 ≤ t.children.length ∧ ∀ c ∈ t.children, isAttempt c.tr = true

end Node
end Simpy
