import Verif.Model.Engine
import Verif.Spec.Backward

/-!
# Specification: which symbols may occur
-/

namespace Simpy
open Expr

/-- The names drawn by the search are different from each other and from the symbols in `A`. -/
structure Fresh (A : Str → Prop) (ν : Supply) : Prop where
  new : ∀ l, ¬A (ν l)
  inj : ∀ l l', ν l = ν l' → l = l'

namespace Node

/-- The node was made by a u-substitution. -/
def isUSub (t : Node) : Bool := (t.tr.bind usubOf).isSome

/-- No filler node of ByParts has a child made by a u-substitution. (The AND filler stands for `u * v - Int(v du)` and its children
are those of an Additivity, whose solutions are added up as they are.) -/
def PartsApart (T : Node) : Prop :=
  ∀ p t c, at? p T = some t → isByParts t.tr = true → c ∈ t.children → c.isUSub = false

end Node
end Simpy
