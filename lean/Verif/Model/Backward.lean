import Verif.Model.Transforms

/-!
# Walking back through a solved tree (`Integration._go_backwards`, integration.py:275-297; the `backward` methods, transforms.py)

A node is given by its path from the root (child indices).
-/

namespace Simpy
open Expr

namespace Node

/-- The solution that `tr.backward(node)` stores in the parent, for every transform but Additivity (transforms.py:216-218,
251-253, 309-311, 332-334, 484-486, 689-691, 863-865, 931-933, 1022-1024, 1080-1082, 1104-1106), from the variable `u` and the
solution `s` of the node. -/
def backStep (O : Oracle) (n : Nat) (tr : Transf) (u : Str) (s : Expr) : R Expr :=
  match tr with
  | .pullConstant c => opMul (ctors O n) c s
  | .trigUSub2 q | .inverseTrigUSub q | .polynomialUSub q | .linearUSub q | .genericUSub q => replaceOld O n s (sym u) q
  | _ => .ok s

/-- `child.solution for child in node.parent.children`, with the ValueError if one is missing (transforms.py:353-357). -/
def solutions : List Node → R (List Expr)
  | [] => .ok []
  | c :: r =>
    match c.sol with
    | none => .error .value
    | some s =>
      match solutions r with
      | .error er => .error er
      | .ok ss => .ok (s :: ss)

/-- `curr.transform.backward(curr)` (integration.py:291) for a node `c` with siblings `cs` (itself included): the solution of
the parent. A node that has a parent but no transform does not occur (AttributeError). -/
def backward (O : Oracle) (n : Nat) (c : Node) (cs : List Node) : R Expr :=
  match c.sol with
  | none => .error .value
  | some s =>
    match c.tr with
    | none => .error .attribute
    | some .additivity =>
      match solutions cs with
      | .error er => .error er
      | .ok ss => (ctors O n).sum ss
    | some tr => backStep O n tr c.var s

/-- The substitution `replace(s, u, q)` that `backward` performs, if any. -/
def substOf (c : Node) : List (Str × Expr × Expr) :=
  match c.tr, c.sol with
  | some (.trigUSub2 q), some s | some (.inverseTrigUSub q), some s | some (.polynomialUSub q), some s
  | some (.linearUSub q), some s | some (.genericUSub q), some s => [(c.var, q, s)]
  | _, _ => []

/-- The `while True` loop of `_go_backwards` (integration.py:287-294) from the node at the path up to this node: `true` if it
arrived here, `false` if a ValueError ended it below. The list records the substitutions performed; it has no effect. -/
def walk (O : Oracle) (n : Nat) : List Nat → Node → R (Node × Bool × List (Str × Expr × Expr))
  | [], t => .ok (t, true, [])
  | i :: p, mk e v tr ty s f cs =>
    match cs[i]? with
    | none => .error .index
    | some c =>
      match walk O n p c with
      | .error er => .error er
      | .ok (c', false, l) => .ok (mk e v tr ty s f (cs.set i c'), false, l)
      | .ok (c', true, l) =>
        match backward O n c' (cs.set i c') with
        | .ok s' => .ok (mk e v tr ty (some s') f (cs.set i c'), true, l ++ substOf c')
        | .error .value => .ok (mk e v tr ty s f (cs.set i c'), false, l)
        | .error er => .error er

mutual
/-- `[leaf for leaf in root.leaves if leaf.is_solved]` (integration.py:283), as paths. -/
def solvedLeaves : Node → List (List Nat)
  | mk _ _ _ ty _ _ [] => if ty == .solution then [[]] else []
  | mk _ _ _ _ _ _ (c :: r) => solvedLeavesL 0 (c :: r)
def solvedLeavesL (i : Nat) : List Node → List (List Nat)
  | [] => []
  | c :: r => (solvedLeaves c).map (i :: ·) ++ solvedLeavesL (i + 1) r
end

/-- The `for leaf in solved_leaves` loop (integration.py:284-294). -/
def walkAll (O : Oracle) (n : Nat) : List (List Nat) → Node → R (Node × List (Str × Expr × Expr))
  | [], t => .ok (t, [])
  | p :: r, t =>
    match walk O n p t with
    | .error er => .error er
    | .ok (t', _, l) =>
      match walkAll O n r t' with
      | .error er => .error er
      | .ok (t'', l') => .ok (t'', l ++ l')

/-- `_go_backwards(root)` (integration.py:275-297): the root's solution, and the substitutions performed. -/
def goBackwards (O : Oracle) (n : Nat) (t : Node) : R (Expr × List (Str × Expr × Expr)) :=
  if !t.isSolved then .error .value
  else
    match walkAll O n t.solvedLeaves t with
    | .error er => .error er
    | .ok (t', l) =>
      match t'.sol with
      | none => .error .value
      | some s => .ok (s, l)

end Node
end Simpy
