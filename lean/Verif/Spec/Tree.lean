import Verif.Model.Tree

/-!
# Specification: integration trees
-/

namespace Simpy
namespace Node

mutual
/-- SOLUTION and FAILURE nodes are leaves, everywhere in the tree. -/
def Settled : Node → Prop
  | mk _ _ _ ty _ _ cs => (ty = .solution ∨ ty = .failure → cs = []) ∧ SettledL cs
def SettledL : List Node → Prop
  | [] => True
  | c :: r => Settled c ∧ SettledL r
end

/-- `l` is a leaf of the tree: reachable by going to children, and without children. -/
inductive IsLeafOf : Node → Node → Prop
  | here {t : Node} : t.children = [] → IsLeafOf t t
  | child {t c l : Node} : c ∈ t.children → IsLeafOf l c → IsLeafOf l t

/-- `t'` is a later state of the tree `t`: unfinished leaves may have become any tree (of any type, solved, failed, grown),
everything else is as it was. -/
inductive Later : Node → Node → Prop
  | work {t t' : Node} : t.children = [] → t.isFinished = false → Later t t'
  | same {e v tr ty s f e' v' tr' s' f' cs cs'} : List.Forall₂ Later cs cs' →
      Later (mk e v tr ty s f cs) (mk e' v' tr' ty s' f' cs')

mutual
/-- The minimax score of an unfinished tree: of an unfinished leaf, its complexity; of another node, the minimum (below OR)
or maximum (otherwise) of the scores of its unfinished children. `none` for a finished tree. -/
def minimax (m : Expr → Str → Nat) : Node → Option Nat
  | mk e v tr ty s f cs =>
    if (mk e v tr ty s f cs).isFinished then none
    else if cs.isEmpty then some (m e v)
    else minimaxL m (ty == .or) cs
def minimaxL (m : Expr → Str → Nat) (mn : Bool) : List Node → Option Nat
  | [] => none
  | c :: r =>
    match minimax m c, minimaxL m mn r with
    | none, b => b
    | some a, none => some a
    | some a, some b => some (if mn then min a b else max a b)
end

mutual
/-- No node of the tree, unless it is a filler, poses the problem (integrand and variable, up to renaming the variable) of a
proper ancestor, `as` being the problems of the ancestors of the root. -/
def NoRepeat (O : Oracle) (as : List (Expr × Str)) : Node → Prop
  | mk e v _ _ _ f cs =>
    (f = false → ∀ p ∈ as, eqWithVar O p.2 v p.1 e = false) ∧ NoRepeatL O ((e, v) :: as) cs
def NoRepeatL (O : Oracle) (as : List (Expr × Str)) : List Node → Prop
  | [] => True
  | c :: r => NoRepeat O as c ∧ NoRepeatL O as r
end

/-- `n` is a node of the tree `t`, its root included. -/
inductive Within : Node → Node → Prop
  | here {t : Node} : Within t t
  | child {t c n : Node} : c ∈ t.children → Within n c → Within n t

/-- `n` is a proper descendant of `p`. -/
def Descends (n p : Node) : Prop := ∃ c ∈ p.children, Within n c

/-- One mutation of an integration tree by the program: `node.add_child(child)` with a fresh child, or an assignment to
`node.type` and `node.solution`, `node` being given by its path from the root. -/
inductive Mut
  | add (path : List Nat) (child : Node)
  | set (path : List Nat) (ty : NType) (s : Option Expr)

/-- The tree after a mutation. -/
def Mut.apply (O : Oracle) : Mut → Node → Node
  | .add p c, t => modifyAt (fun as => addChild O as c) [] p t
  | .set p ty s, t => modifyAt (fun _ => setTypeSol ty s) [] p t

/-- A fresh child has no children yet. -/
def Mut.fresh : Mut → Prop
  | .add _ c => c.children = []
  | .set _ _ _ => True

end Node
end Simpy
