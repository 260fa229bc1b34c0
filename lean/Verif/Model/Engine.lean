import Verif.Model.Backward
import Verif.Model.Definite
import Verif.Model.Nesting

/-!
# The search (integration.py; the checks of transforms.py that look at the tree)

The root of the tree is a value, a node is given by its path from the root, and `lin` is a node followed by its ancestors,
nearest first (`_parents(node)`, transforms.py:697-701).

`generate_intermediate_var()` (transforms.py:1136-1137) draws a random name. Here the names come from a supply `ν`, a function
from places in the search to names, over which all theorems quantify; where it matters that the random names are distinct and new
this is an assumption about `ν`.

The clock (integration.py:238, 242-244) is replaced by the number of cycles that fit into the time limit. Logging, printing,
warnings and the debugger are left out.
-/

namespace Simpy
open Expr

/-- A supply of names. -/
abbrev Supply := List Nat → Str

/-- The part of the supply for child number `i` of a node. -/
def Supply.child (ν : Supply) (i : Nat) : Supply := fun l => ν ((2 * i + 1) :: l)

/-- The part of the supply for the `k`-th use by a node itself. -/
def Supply.own (ν : Supply) (k : Nat) : Supply := fun l => ν (2 * k :: l)

/-- The part of the supply for the node at a path. -/
def Supply.at (ν : Supply) : List Nat → Supply
  | [] => ν
  | i :: p => Supply.at (ν.child i) p

namespace Node

/-- A new node `Node(expr, var, transform, parent)` (transforms.py:62-69). -/
def leaf (e : Expr) (v : Str) (tr : Transf) : Node := mk e v (some tr) .unset none false []

/-- `node.type = ty`. -/
def setType (ty : NType) : Node → Node
  | mk e v tr _ s f cs => mk e v tr ty s f cs

/-- The node at a path replaced. -/
def replaceAt (t' : Node) : List Nat → Node → Node
  | [], _ => t'
  | i :: p, mk e v tr ty s f cs =>
    match cs[i]? with
    | some c => mk e v tr ty s f (cs.set i (replaceAt t' p c))
    | none => mk e v tr ty s f cs

/-- `_get_last_heuristic_transform(node, tup)` (transforms.py:360-377), `skip` being `isinstance(_, tup)`. -/
def lastTr (skip : Transf → Bool) : List Node → Option Transf
  | [] => none
  | t :: as =>
    match t.tr with
    | none => none
    | some tr => if skip tr then lastTr skip as else some tr

/-- `isinstance(_, (PullConstant, Additivity))`. -/
def isLinearity : Transf → Bool
  | .pullConstant _ | .additivity => true
  | _ => false

/-- `isinstance(_, (PullConstant, Additivity, Expand))`. -/
def isLinearityOrExpand : Transf → Bool
  | .pullConstant _ | .additivity | .expand => true
  | _ => false

def isSquare : Option Transf → Bool
  | some .completeTheSquare => true
  | _ => false

def isInverseSub : Option Transf → Bool
  | some (.inverseTrigUSub _) => true
  | _ => false

def isTrigSub : Option Transf → Bool
  | some (.trigUSub2 _) => true
  | _ => false

def isRewriteTrig : Option Transf → Bool
  | some .rewriteTrig => true
  | _ => false

def isByParts : Option Transf → Bool
  | some .byParts => true
  | _ => false

/-! ## Safe transforms -/

/-- What the `forward` of a transform does to its node: a new type, and children to add. -/
structure Plan where
  ty : Option NType := none
  kids : List Node := []

/-- Apply a plan to a node with the ancestors `as`. -/
def Plan.apply (O : Oracle) (as : List Node) (pl : Plan) (t : Node) : Node :=
  addChildren O as pl.kids (match pl.ty with | some ty => setType ty t | none => t)

/-- A plan with one child, if there is one. -/
def planOpt {α : Type} (f : α → Node) : Option α → Option Plan
  | some a => some { kids := [f a] }
  | none => none

/-- Try the next transform if this one's check says no. -/
def orElseR (a : R (Option Plan)) (b : R (Option Plan)) : R (Option Plan) :=
  match a with
  | .ok none => b
  | r => r

/-- `Additivity` (transforms.py:337-359). -/
def additivityPlan (v : Str) : Expr → R (Option Plan)
  | sum ts => .ok (some { ty := some .and, kids := ts.map fun t => leaf t v .additivity })
  | _ => .ok none

/-- The first of `SAFE_TRANSFORMS` (transforms.py:1126-1133) whose check says yes (integration.py:304-308), for the node `t`
with the ancestors `as`. -/
def safePlan (O : Oracle) (n : Nat) (ν : Supply) (as : List Node) (t : Node) : R (Option Plan) :=
  let e := t.expr
  let v := t.var
  orElseR (additivityPlan v e) <|
  orElseR ((pullConstant O n v e).map (planOpt fun p => leaf p.2 v (.pullConstant p.1))) <|
  orElseR ((partialFractions O n v e).map (planOpt fun g => leaf g v .partialFractions)) <|
  orElseR ((polyDiv O n n v e).map (planOpt fun g => leaf g v .polynomialDivision)) <|
  orElseR (if isSquare (lastTr isLinearity (t :: as)) then .ok none
    else (expandT O n e).map (planOpt fun g => leaf g v .expand)) <|
  (linearUSub O n v (ν.own 0 []) e).map (planOpt fun p => leaf p.2 (ν.own 0 []) (.linearUSub p.1))

/-- `f(i, x)` for the elements of a list with their indices, from left to right. -/
def mapIdxR (f : Nat → Node → R Node) : Nat → List Node → R (List Node)
  | _, [] => .ok []
  | i, c :: r => do
    let c' ← f i c
    let r' ← mapIdxR f (i + 1) r
    return c' :: r'

/-- `node._children` replaced. -/
def withChildren : Node → List Node → Node
  | mk e v tr ty s f _, cs => mk e v tr ty s f cs

/-- `_integrate_safely(node)` (integration.py:300-310); the fuel bounds the depth. -/
def safely (O : Oracle) (n : Nat) : Nat → Supply → List Node → Node → R Node
  | 0, _, _, _ => .error .recursion
  | k + 1, ν, as, t => do
    let pl ← safePlan O n ν as t
    let t' := (pl.getD {}).apply O as t
    let cs ← mapIdxR (fun i c => safely O n k (ν.child i) (t' :: as) c) 0 t'.children
    return t'.withChildren cs

/-! ## The table -/

mutual
/-- `for leaf in node.unfinished_leaves: _check_if_node_solvable(leaf)` (integration.py:154-155, 13-20). With `fail`, the leaves
that are not solved become failures (integration.py:135-138). -/
def tableAll (O : Oracle) (n : Nat) (fail : Bool) : Node → R Node
  | mk e v tr ty s f [] =>
    match ty with
    | .solution => .ok (mk e v tr ty s f [])
    | .failure => .ok (mk e v tr ty s f [])
    | _ =>
      match checkTable O n v e with
      | .error er => .error er
      | .ok (some r) => .ok (mk e v tr .solution (some r) f [])
      | .ok none => .ok (mk e v tr (if fail then .failure else ty) s f [])
  | mk e v tr ty s f (c :: cs) =>
    match tableAllL O n fail (c :: cs) with
    | .error er => .error er
    | .ok cs' => .ok (mk e v tr ty s f cs')
def tableAllL (O : Oracle) (n : Nat) (fail : Bool) : List Node → R (List Node)
  | [] => .ok []
  | c :: cs =>
    match tableAll O n fail c with
    | .error er => .error er
    | .ok c' =>
      match tableAllL O n fail cs with
      | .error er => .error er
      | .ok cs' => .ok (c' :: cs')
end

/-- `Integration.integrate_without_heuristics(integrand, var)` (integration.py:131-146). -/
def withoutHeuristics (O : Oracle) (n : Nat) (ν : Supply) (v : Str) (e : Expr) : R (Option Expr) := do
  let t ← safely O n n ν [] (mk e v none .unset none false [])
  let t' ← tableAll O n true t
  if t'.isFailed then return none
  else do
    let (S, _) ← goBackwards O n t'
    return some S

/-! ## Heuristics -/

/-- What a heuristic does: a plan, and for ByParts the division of a solution stored elsewhere: `some (j, f)` divides the
solution of the first child of the `j`-th ancestor by `1 - f` (transforms.py:828). -/
structure HPlan where
  plan : Plan := {}
  scale : Option (Nat × Expr) := none

/-- `ByParts._get_last_byparts_parent(node)` (transforms.py:717-724): how many levels up it is, and the node. -/
def lastByParts : Nat → List Node → Option (Nat × Node)
  | _, [] => none
  | j, t :: as =>
    match t.tr with
    | some .byParts => some (j, t)
    | some (.pullConstant _) | some .additivity => lastByParts (j + 1) as
    | _ => none

/-- `ByParts._get_first_factor(parent_byparts, node)` (transforms.py:783-788), `rel` being the path from `parent_byparts` to the
node. Nodes are compared by `==`, the field by field comparison of a dataclass. As it compares the parents too, nodes at
different depths are different, and as transforms are compared by identity so are siblings: it is identity. -/
def firstFactor (parent node : Node) (rel : List Nat) : R Expr :=
  if parent.children.length < 2 then .error .index
  else if rel = [1] then .ok (rat 1)
  else
    match node.tr with
    | some (.pullConstant c) => if rel = [1, 0] then .ok c else .error .value
    | _ => .error .value

/-- The SOLUTION filler that ByParts adds when it finds the whole solution (transforms.py:804-814, 830-840). -/
def solvedFiller (t : Node) (s : Expr) : Node := mk t.expr t.var (some .byParts) .solution (some s) true []

/-- The AND filler of ByParts with the children `u * v` and `integrand2` (transforms.py:846-861), below the node `t` with the
ancestors `as`. -/
def funky (O : Oracle) (as : List Node) (t : Node) (c g : Expr) : Node :=
  addChildren O (t :: as) [mk t.expr t.var (some .additivity) .solution (some c) true [], leaf g t.var .additivity]
    (mk t.expr t.var (some .byParts) .and none true [])

/-- The second special case of `ByParts.forward` (transforms.py:821-843), where the new integrand is a multiple of the integrand
of the last integration by parts: `none` if it is not. `rel` is the path from there to the node. The assertion that this solves
`parent_byparts` is evaluated with the node replaced by a solved one. -/
def byPartsTwice (O : Oracle) (n : Nat) (t : Node) (p : List Nat) (c g : Expr) : Option (Nat × Node) → R (Option HPlan)
  | none => .ok none
  | some (j, parent) => do
    let s ← opDiv (ctors O n) g parent.expr
    if s.contains t.var then return none
    else do
      let k ← firstFactor parent t (p.drop (p.length - j))
      let f ← opMul (ctors O n) k s
      let r ← byPartsSolution (ctors O n) c f
      if (replaceAt (setType .solution t) (p.drop (p.length - j)) parent).isSolved then
        return some { plan := { ty := some .or, kids := [solvedFiller t r] }, scale := some (j, f) }
      else .error .assertion

/-- `ByParts.check` and `forward` (transforms.py:746-861) for the node `t` with the ancestors `as` at the path `p`. -/
def byPartsPlan (O : Oracle) (n : Nat) (ν : Supply) (as : List Node) (p : List Nat) (t : Node) : R HPlan := do
  let old := (t :: as).filter fun a => isByParts a.tr
  let k ← byPartsCheck O n t.var (withoutHeuristics O n ν t.var) (fun g => old.any fun a => beq O g a.expr) t.expr
  match k with
  | none => return {}
  | some (u, du, w) => do
    let (c, g, f) ← byPartsParts O n t.expr u du w
    if !f.contains t.var then do
      let r ← byPartsSolution (ctors O n) c f
      return { plan := { ty := some .or, kids := [solvedFiller t r] } }
    else do
      let o ← byPartsTwice O n t p c g (lastByParts 0 (t :: as))
      match o with
      | some pl => return pl
      | none => return { plan := { kids := [funky O as t c g] } }

/-- The children of `RewriteTrig.forward` (transforms.py:467-469). -/
def rewriteTrigPlan (O : Oracle) (n : Nat) (as : List Node) (t : Node) : R Plan :=
  if isRewriteTrig (lastTr isLinearityOrExpand (t :: as)) then .ok {}
  else if containsCls isPlainTrig t.expr then do
    let gs ← rewriteTrig O n t.expr
    return { ty := some .or, kids := gs.map fun g => leaf g t.var .rewriteTrig }
  else .ok {}

/-- The node that `InverseTrigUSub.forward` makes, with the `Simplify` tacked on (transforms.py:500-513). -/
def inverseNode (O : Oracle) (n : Nat) (as : List Node) (t : Node) (u : Str) (q g : Expr) : R Node := do
  let s ← pythagoreanSimplification O n g
  return if replaceHit (pythPerf O) n g then addChild O (t :: as) (leaf s u .simplify) (leaf g u (.inverseTrigUSub q))
    else leaf g u (.inverseTrigUSub q)

/-- `InverseTrigUSub` (transforms.py:489-531). -/
def inversePlan (O : Oracle) (n : Nat) (u : Str) (as : List Node) (t : Node) : R Plan :=
  if isTrigSub (lastTr isLinearity (t :: as)) then .ok {}
  else do
    let k ← inverseTrigUSub O n t.var u t.expr
    match k with
    | none => return {}
    | some (q, g) => do
      let c ← inverseNode O n as t u q g
      return { kids := [c] }

/-- A plan that may be absent. -/
def planR (r : R (Option Plan)) : R HPlan := r.map fun o => { plan := o.getD {} }

/-- `HEURISTICS` (transforms.py:1115-1125) on the node `t` with the ancestors `as` at the path `p`, in order. -/
def heuristics (O : Oracle) (n : Nat) (ν : Supply) (as : List Node) (p : List Nat) (t : Node) : List (R HPlan) :=
  let e := t.expr
  let v := t.var
  [planR ((polynomialUSub O n v (ν.own 1 []) e).map (planOpt fun r => leaf r.2 (ν.own 1 []) (.polynomialUSub r.1))),
   planR ((productToSumUnit O n e).map (planOpt fun g => leaf g v .productToSum)),
   planR (if isInverseSub (lastTr isLinearity (t :: as)) then .ok none
     else (trigUSub2 O n v (ν.own 2 []) e).map (planOpt fun r => leaf r.2 (ν.own 2 []) (.trigUSub2 r.1))),
   byPartsPlan O n (ν.own 3) as p t,
   (rewriteTrigPlan O n as t).map fun pl => { plan := pl },
   planR ((rewritePythagorean O n e).map (planOpt fun g => leaf g v .rewritePythagorean)),
   (inversePlan O n (ν.own 4 []) as t).map fun pl => { plan := pl },
   planR ((completeTheSquare O n v e).map (planOpt fun g => leaf g v .completeTheSquare)),
   planR ((genericUSub O n v (ν.own 5 []) e).map (planOpt fun r => leaf r.2 (ν.own 5 []) (.genericUSub r.1)))]

/-- The `for transform in HEURISTICS` loop (integration.py:317-320): the node with its new children, and the division that
ByParts performed elsewhere. -/
def runHeuristics (O : Oracle) (as : List Node) : List (R HPlan) → Node → R (Node × Option (Nat × Expr))
  | [], t => .ok (t, none)
  | h :: hs, t => do
    let pl ← h
    let (t', sc) ← runHeuristics O as hs (pl.plan.apply O as t)
    return (t', pl.scale.or sc)

/-- `_integrate_heuristically(node)` (integration.py:313-334) for the node `t` with the ancestors `as` at the path `p`. -/
def heuristically (O : Oracle) (n : Nat) (ν : Supply) (as : List Node) (p : List Nat) (t : Node) :
    R (Node × Option (Nat × Expr)) := do
  let (t', sc) ← runHeuristics O as (heuristics O n ν as p t) t
  if t'.isSolved then return (t', sc)
  else if t'.children.isEmpty then return (setType .failure t', sc)
  else do
    let t2 := if 1 < t'.children.length then setType .or t' else t'
    let cs ← mapIdxR (fun i c => safely O n n (ν.child i) (t2 :: as) c) 0 t2.children
    return (t2.withChildren cs, sc)

/-! ## Choosing the next node -/

/-- The node at a path and its ancestors, nearest first. -/
def lineage (as : List Node) : List Nat → Node → Option (Node × List Node)
  | [], t => some (t, as)
  | i :: p, t => t.children[i]?.bind (lineage (t :: as) p)

mutual
/-- `unfinished_leaves` (transforms.py:104-107) with their paths. -/
def unfinishedPaths : Node → List (List Nat × Node)
  | mk e v tr ty s f [] => if (mk e v tr ty s f []).isFinished then [] else [([], mk e v tr ty s f [])]
  | mk _ _ _ _ _ _ (c :: r) => unfinishedPathsL 0 (c :: r)
def unfinishedPathsL (i : Nat) : List Node → List (List Nat × Node)
  | [] => []
  | c :: r => (unfinishedPaths c).map (fun q => (i :: q.1, q.2)) ++ unfinishedPathsL (i + 1) r
end

/-- `_get_node_with_best_nesting(nodes, fn)` (integration.py:42-51), with paths. -/
def bestNestingP (nest : Expr → Str → R Nat) (mn : Bool) (ns : List (List Nat × Node)) : R (List Nat × Node) := do
  let rs ← mapR (fun t : List Nat × Node => nest t.2.expr t.2.var) ns
  let b ← bestOf mn rs
  match ns[rs.idxOf b]? with
  | some t => return t
  | none => .error .value

/-- The unfinished ones among the children with their indices. -/
def unfinishedKids (i : Nat) : List Node → List (List Nat × Node)
  | [] => []
  | c :: r => if c.isFinished then unfinishedKids (i + 1) r else ([i], c) :: unfinishedKids (i + 1) r

mutual
/-- `_get_best_leaf(root)` (integration.py:23-39), with its path. -/
def bestLeafP (nest : Expr → Str → R Nat) : Node → R (List Nat × Node)
  | mk e v tr ty s f cs =>
    let u := cs.filter (fun c => !c.isFinished)
    match u with
    | [] => .ok ([], mk e v tr ty s f cs)
    | [_] => do
      let l ← bestLeafsP nest 0 cs
      match l with
      | b :: _ => return b
      | [] => .error .index
    | _ =>
      if u.all (fun c => c.unfinishedChildren.isEmpty) then bestNestingP nest (ty == .or) (unfinishedKids 0 cs)
      else do
        let l ← bestLeafsP nest 0 cs
        bestNestingP nest (ty == .or) l
def bestLeafsP (nest : Expr → Str → R Nat) (i : Nat) : List Node → R (List (List Nat × Node))
  | [] => .ok []
  | c :: r =>
    if c.isFinished then bestLeafsP nest (i + 1) r
    else do
      let b ← bestLeafP nest c
      let l ← bestLeafsP nest (i + 1) r
      return (i :: b.1, b.2) :: l
end

/-- What `_cycle` returns (integration.py:148-165): None, "SOLVED", or a node. -/
inductive Next
  | none | solved | node (p : List Nat)
  deriving DecidableEq

/-- `_get_next_node_post_heuristic_breadth_first(node)` (integration.py:173-183), `root` being `node.root`. The test
`root.unfinished_leaves == 0` compares a list with a number and is never true. -/
def bfNext (O : Oracle) (root : Node) : R Next :=
  match unfinishedPaths root with
  | [q] => .ok (.node q.1)
  | _ => do
    let b ← bestLeafP (fun e v => nesting O (some v) e) root
    return .node b.1

/-- `_check_if_depth_first_bad(ans)` (integration.py:215-231), `as` being the ancestors of `t`. -/
def depthBad (O : Oracle) (t : Node) (as : List Node) : R Bool := do
  let m ← nesting O none t.expr
  return decide (7 ≤ m) || isByParts (lastTr isLinearityOrExpand (t :: as))

/-- The choice among the unfinished leaves `l` of the node at the path `q` (integration.py:207-213). -/
def dfPick (O : Oracle) (root : Node) (q : List Nat) (l : List (List Nat × Node)) : R Next := do
  let b ← bestNestingP (fun e v => nesting O (some v) e) true l
  match lineage [] (q ++ b.1) root with
  | none => .error .index
  | some (t, as) => do
    let bad ← depthBad O t as
    if bad then bfNext O root else return .node (q ++ b.1)

/-- `len(parent.children) == 1 or parent.type == "AND"` (integration.py:195). -/
def passUp (t : Node) : Bool := t.children.length == 1 || t.type == .and

/-- `_get_next_node_post_heuristic_depth_first(node)` (integration.py:185-213) for the node with the reversed path `r`. With `up`
it is the loop of lines 197-203 that arrives at this node looking for an OR node with several children. -/
def dfNext (O : Oracle) (root : Node) : Bool → List Nat → R Next
  | up, r =>
    match at? r.reverse root with
    | none => .error .index
    | some t =>
      if up && passUp t then
        match r with
        | [] => .ok .none
        | _ :: r' => dfNext O root true r'
      else
        match unfinishedPaths t with
        | [] =>
          if t.isFailed then
            match r with
            | [] => .ok .none
            | _ :: r' => dfNext O root true r'
          else .ok .solved
        | l => dfPick O root r.reverse l

/-- `_get_next_node_post_heuristic(node)` (integration.py:167-171). -/
def nextNode (O : Oracle) (bf : Bool) (root : Node) (p : List Nat) : R Next :=
  if bf then bfNext O root else dfNext O root false p.reverse

/-- The division that ByParts performs on the solution stored at another node (transforms.py:828). -/
def rescale (O : Oracle) (n : Nat) (p : List Nat) : Option (Nat × Expr) → Node → R Node
  | none, root => .ok root
  | some (j, f), root =>
    match at? (p.take (p.length - j) ++ [0]) root with
    | none => .error .attribute
    | some t =>
      match t.sol with
      | none => .error .type
      | some s => do
        let r ← byPartsSolution (ctors O n) s f
        return replaceAt (setTypeSol t.type (some r) t) (p.take (p.length - j) ++ [0]) root

/-- `_cycle(node)` (integration.py:148-165) for the node at the path `p`: the new tree and what it returns. -/
def cycle (O : Oracle) (n : Nat) (ν : Supply) (bf : Bool) (root : Node) (p : List Nat) : R (Node × Next) := do
  match at? p root with
  | none => .error .index
  | some t => do
    let t' ← tableAll O n false t
    let root' := replaceAt t' p root
    match unfinishedPaths t' with
    | [] => return (root', .solved)
    | q :: _ => do
      match lineage [] (p ++ q.1) root' with
      | none => .error .index
      | some (l, as) => do
        let (l', sc) ← heuristically O n (ν.at (p ++ q.1)) as (p ++ q.1) l
        let root2 ← rescale O n (p ++ q.1) sc (replaceAt l' (p ++ q.1) root')
        let nx ← nextNode O bf root2 (p ++ q.1)
        return (root2, nx)

/-- The `while True` loop of `integrate` (integration.py:239-252), with at most `k + 1` cycles before the time is up. A missing
node is an AttributeError in the next cycle. -/
def searchLoop (O : Oracle) (n : Nat) (ν : Supply) (bf : Bool) : Nat → Node → List Nat → R Node
  | 0, root, p => do
    let (root', _) ← cycle O n ν bf root p
    return root'
  | k + 1, root, p => do
    let (root', ans) ← cycle O n ν bf root p
    if root'.isFinished then return root'
    else
      match ans with
      | .none => .error .attribute
      | .node q => searchLoop O n ν bf k root' q
      | .solved => do
        let nx ← bfNext O root'
        match nx with
        | .node q => searchLoop O n ν bf k root' q
        | _ => .error .attribute

/-- The tree with which `integrate` starts its loop (integration.py:235-237). -/
def startTree (O : Oracle) (n : Nat) (ν : Supply) (v : Str) (e : Expr) : R Node := do
  let s ← simplifyE O n e
  safely O n n ν [] (mk s v none .unset none false [])

/-- The tree with which the loop of `integrate` ends. -/
def search (O : Oracle) (n : Nat) (ν : Supply) (bf : Bool) (k : Nat) (v : Str) (e : Expr) : R Node := do
  let t ← startTree O n ν v e
  searchLoop O n ν bf k t []

/-- `Integration(breadth_first=bf).integrate(integrand, var, final)` (integration.py:233-272). -/
def integrate (O : Oracle) (n : Nat) (ν : Supply) (bf : Bool) (k : Nat) (final : Bool) (v : Str) (e : Expr) : R (Option Expr) := do
  let t ← search O n ν bf k v e
  if !t.isSolved then return none
  else do
    let (S, _) ← goBackwards O n t
    if final then do
      let r ← simplifyE O n S
      return some r
    else return some S

end Node

/-- The variable of integration if none is given (integration.py:86-95): the only symbol of the integrand. -/
def defaultVar (e : Expr) : R Str :=
  match (syms e).dedup with
  | [v] => .ok v
  | _ => .error .value

/-- The bounds that may be passed to `integrate` (integration.py:54-103). -/
inductive Bounds
  | nothing | var (v : Str) | between (a b : Expr) | full (v : Str) (a b : Expr)

/-- `integrate(expr, bounds, breadth_first=bf)` (integration.py:54-103). -/
def integrateTop (O : Oracle) (n : Nat) (ν : Supply) (bf : Bool) (k : Nat) (e : Expr) : Bounds → R (Option Expr)
  | .nothing => do
    let v ← defaultVar e
    Node.integrate O n ν bf k true v e
  | .var v => Node.integrate O n ν bf k true v e
  | .between a b => do
    let v ← defaultVar e
    integrateBounds O n v a b (Node.integrate O n ν bf k false v e)
  | .full v a b => integrateBounds O n v a b (Node.integrate O n ν bf k false v e)

end Simpy
