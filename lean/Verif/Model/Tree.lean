import Verif.Model.Regex

/-!
# The integration tree (transforms.py:44-175, integration.py:13-51)

A Python `Node` has a pointer to its parent; here a tree is an inductive value and the ancestors of a node are passed along
or given by a path of child indices. Mutation of a node is replacement of the subtree at its path.
-/

namespace Simpy
open Expr

/-- `Node.type` (transforms.py:66). -/
inductive NType
  | and | or | unset | solution | failure
  deriving DecidableEq

/-- `Node.transform` (transforms.py:64): the transform that led to a node, with the data that its `backward` reads. -/
inductive Transf
  | pullConstant (c : Expr)
  | polynomialDivision | expand | additivity
  | trigUSub2 (u : Expr) | inverseTrigUSub (u : Expr) | polynomialUSub (u : Expr) | linearUSub (u : Expr) | genericUSub (u : Expr)
  | rewriteTrig | productToSum | byParts | partialFractions | completeTheSquare | rewritePythagorean | simplify

/-- `Node` (transforms.py:44-79): expr, var, transform, type, solution, is_filler, children. -/
inductive Node
  | mk (expr : Expr) (var : Str) (tr : Option Transf) (type : NType) (sol : Option Expr) (filler : Bool) (children : List Node)

namespace Node

def expr : Node → Expr | mk e _ _ _ _ _ _ => e
def var : Node → Str | mk _ v _ _ _ _ _ => v
def tr : Node → Option Transf | mk _ _ t _ _ _ _ => t
def type : Node → NType | mk _ _ _ ty _ _ _ => ty
def sol : Node → Option Expr | mk _ _ _ _ s _ _ => s
def filler : Node → Bool | mk _ _ _ _ _ f _ => f
def children : Node → List Node | mk _ _ _ _ _ _ cs => cs

mutual
/-- `is_solved` (transforms.py:126-141). A FAILURE node with children falls off the end: None, which is falsy. -/
def isSolved : Node → Bool
  | mk _ _ _ ty _ _ cs =>
    match ty with
    | .solution => true
    | .and | .unset => !cs.isEmpty && allSolved cs
    | .or => !cs.isEmpty && anySolved cs
    | .failure => false
def allSolved : List Node → Bool
  | [] => true
  | c :: r => isSolved c && allSolved r
def anySolved : List Node → Bool
  | [] => false
  | c :: r => isSolved c || anySolved r
end

mutual
/-- `is_failed` (transforms.py:143-157). -/
def isFailed : Node → Bool
  | mk _ _ _ ty _ _ cs =>
    match ty with
    | .failure => true
    | .or => !cs.isEmpty && allFailed cs
    | _ => !cs.isEmpty && anyFailed cs
def allFailed : List Node → Bool
  | [] => true
  | c :: r => isFailed c && allFailed r
def anyFailed : List Node → Bool
  | [] => false
  | c :: r => isFailed c || anyFailed r
end

/-- `is_finished` (transforms.py:159-161). -/
def isFinished (t : Node) : Bool := t.isSolved || t.isFailed

mutual
/-- `leaves` (transforms.py:96-102). -/
def leaves : Node → List Node
  | mk e v tr ty s f [] => [mk e v tr ty s f []]
  | mk _ _ _ _ _ _ (c :: r) => leavesL (c :: r)
def leavesL : List Node → List Node
  | [] => []
  | c :: r => leaves c ++ leavesL r
end

/-- `unfinished_leaves` (transforms.py:104-107). -/
def unfinishedLeaves (t : Node) : List Node := t.leaves.filter (fun l => !l.isFinished)

/-- `unfinished_children` (transforms.py:163-167). -/
def unfinishedChildren (t : Node) : List Node := t.children.filter (fun c => !c.isFinished)

/-! ## Choosing the next leaf (integration.py:23-51) -/

/-- `fn(results)` for `fn` = `min` (`true`) or `max`: the first best value; an empty list is a ValueError. -/
def bestOf (mn : Bool) : List Nat → R Nat
  | [] => .error .value
  | a :: r => .ok (r.foldl (if mn then min else max) a)

/-- `_get_node_with_best_nesting(nodes, fn)` (integration.py:42-51), `nest e v` being `nesting(e, v)`. -/
def bestNesting (nest : Expr → Str → R Nat) (mn : Bool) (ns : List Node) : R Node := do
  let rs ← mapR (fun t : Node => nest t.expr t.var) ns
  let b ← bestOf mn rs
  match ns[rs.idxOf b]? with
  | some t => return t
  | none => .error .value

mutual
/-- `_get_best_leaf(root)` (integration.py:23-39). -/
def bestLeaf (nest : Expr → Str → R Nat) : Node → R Node
  | mk e v tr ty s f cs =>
    let u := cs.filter (fun c => !c.isFinished)
    match u with
    | [] => .ok (mk e v tr ty s f cs)
    | [_] => do
      let l ← bestLeafs nest cs
      match l with
      | b :: _ => return b
      | [] => .error .index
    | _ =>
      if u.all (fun c => c.unfinishedChildren.isEmpty) then bestNesting nest (ty == .or) u
      else do
        let l ← bestLeafs nest cs
        bestNesting nest (ty == .or) l
/-- `[_get_best_leaf(c) for c in unfinished children]`. -/
def bestLeafs (nest : Expr → Str → R Nat) : List Node → R (List Node)
  | [] => .ok []
  | c :: r =>
    if c.isFinished then bestLeafs nest r
    else do
      let b ← bestLeaf nest c
      let l ← bestLeafs nest r
      return b :: l
end

/-! ## Adding children -/

/-- The test of `add_child` (transforms.py:82-85) for a node whose ancestors, itself included, are `ps`: the child is refused
if an ancestor poses the same problem up to the name of the variable. -/
def refused (O : Oracle) (ps : List Node) (child : Node) : Bool :=
  !child.filler && ps.any (fun p => eqWithVar O p.var child.var p.expr child.expr)

/-- `add_child(child)` on a node with the proper ancestors `as` (transforms.py:81-86). -/
def addChild (O : Oracle) (as : List Node) (child : Node) : Node → Node
  | mk e v tr ty s f cs =>
    if refused O (mk e v tr ty s f cs :: as) child then mk e v tr ty s f cs
    else mk e v tr ty s f (cs ++ [child])

/-- `add_children(children)` (transforms.py:88-90). -/
def addChildren (O : Oracle) (as : List Node) : List Node → Node → Node
  | [], t => t
  | c :: r, t => addChildren O as r (addChild O as c t)

mutual
/-- Apply a mutation to the node at a path; it may look at the ancestors. A path that leaves the tree changes nothing. -/
def modifyAt (g : List Node → Node → Node) (as : List Node) : List Nat → Node → Node
  | [], t => g as t
  | i :: p, mk e v tr ty s f cs => mk e v tr ty s f (modifyChild g (mk e v tr ty s f cs :: as) i p cs)
def modifyChild (g : List Node → Node → Node) (as : List Node) : Nat → List Nat → List Node → List Node
  | _, _, [] => []
  | 0, p, c :: r => modifyAt g as p c :: r
  | i + 1, p, c :: r => c :: modifyChild g as i p r
end

/-- The node at a path. -/
def at? : List Nat → Node → Option Node
  | [], t => some t
  | i :: p, t => t.children[i]?.bind (at? p)

/-- Assigning to `node.type` and `node.solution`. -/
def setTypeSol (ty : NType) (s : Option Expr) : Node → Node
  | mk e v tr _ _ f cs => mk e v tr ty s f cs

end Node
end Simpy
