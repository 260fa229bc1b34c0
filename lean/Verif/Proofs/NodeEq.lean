import Verif.Model.Tree

/-! Equality of nodes is decidable (for the examples: the trees of searches run in the kernel). -/

namespace Simpy

deriving instance DecidableEq for Transf

namespace Node

mutual
def same : Node → Node → Bool
  | mk e v tr ty s f cs, mk e' v' tr' ty' s' f' cs' =>
    decide (e = e') && decide (v = v') && decide (tr = tr') && decide (ty = ty') && decide (s = s') && decide (f = f') && sameL cs cs'
def sameL : List Node → List Node → Bool
  | [], [] => true
  | a :: l, b :: r => same a b && sameL l r
  | _, _ => false
end

mutual
theorem same_iff : ∀ a b : Node, same a b = true ↔ a = b
  | mk e v tr ty s f cs, mk e' v' tr' ty' s' f' cs' => by
    simp only [same, Bool.and_eq_true, decide_eq_true_eq, sameL_iff, Node.mk.injEq, and_assoc]
theorem sameL_iff : ∀ a b : List Node, sameL a b = true ↔ a = b
  | [], [] => by simp [sameL]
  | [], b :: r => by simp [sameL]
  | a :: l, [] => by simp [sameL]
  | a :: l, b :: r => by simp only [sameL, Bool.and_eq_true, same_iff, sameL_iff, List.cons.injEq]
end

instance : DecidableEq Node := fun a b => decidable_of_iff _ (same_iff a b)

end Node
end Simpy
