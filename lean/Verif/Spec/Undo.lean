import Verif.Model.Engine

/-! # Specification: steps that only undo an earlier one -/

namespace Simpy
namespace Node

/-- Pulling a constant out of the integral and splitting a sum: they do not change what has to be integrated. -/
def Slight (t : Node) : Prop := (∃ c, t.tr = some (.pullConstant c)) ∨ t.tr = some .additivity

/-- … and multiplying out. -/
def SlightOrExpand (t : Node) : Prop := Slight t ∨ t.tr = some .expand

/-- The second step undoes the first: multiplying out a completed square; substituting `u = sin x` after `x = sin u`, and the other
way round. -/
inductive Undoes : Option Transf → Option Transf → Prop
  | expand : Undoes (some .completeTheSquare) (some .expand)
  | trig (q r) : Undoes (some (.inverseTrigUSub q)) (some (.trigUSub2 r))
  | inverse (q r) : Undoes (some (.trigUSub2 q)) (some (.inverseTrigUSub r))

end Node
end Simpy
