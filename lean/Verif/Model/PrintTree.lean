import Verif.Model.Tree
import Verif.Model.Nesting

/-!
# Printing the integration tree (debug/tree.py), as `integrate(..., debug=True)` does

A printed line is a record of its columns; `Line.text` puts them together. `print` itself is not modelled: the lines are returned.
-/

namespace Simpy
namespace Print
open Expr

/-- One column line of print_tree (debug/tree.py:62): distance from the root, nesting, integrand, solution, name of the transform, the remark
`x` and the ending. `nest` and `depth` are the numbers in `n` and `distance` (debug/tree.py:48, 60). The texts are those before `_wrap`. -/
structure Row where
  depth : Nat
  nest : Nat
  text : Str
  sol : Option Str
  cls : Str
  remark : Str
  ending : Str
  deriving DecidableEq

/-- What one call of `func` prints (debug/tree.py:62, 64). -/
inductive Line
  | row (r : Row)
  | blank
  deriving DecidableEq

/-- `_wrap(string, num)` (debug/tree.py:50-56). -/
def wrap (s : Str) (k : Nat) : Str := if s.length > k then s.take (k - 3) ++ ['.', '.', '.'] else s ++ List.replicate (k - s.length) ' '

/-- The line as it is printed (debug/tree.py:58-64). -/
def Line.text : Line → Str
  | .blank => []
  | .row r =>
    wrap ('[' :: intStr r.depth ++ [']']) 4 ++ [' ', '{'] ++ intStr r.nest ++ ['}', ' '] ++ wrap r.text 50 ++ [' ', ' '] ++
      (match r.sol with | some s => wrap s 50 | none => []) ++ [' ', ' ', '('] ++ r.cls ++ [')'] ++ r.remark ++ r.ending

/-- `root.transform.__class__.__name__`. -/
def clsName : Option Transf → Str
  | none => "NoneType".toList
  | some (.pullConstant _) => "PullConstant".toList
  | some .polynomialDivision => "PolynomialDivision".toList
  | some .expand => "Expand".toList
  | some .additivity => "Additivity".toList
  | some (.trigUSub2 _) => "TrigUSub2".toList
  | some (.inverseTrigUSub _) => "InverseTrigUSub".toList
  | some (.polynomialUSub _) => "PolynomialUSub".toList
  | some (.linearUSub _) => "LinearUSub".toList
  | some (.genericUSub _) => "GenericUSub".toList
  | some .rewriteTrig => "RewriteTrig".toList
  | some .productToSum => "ProductToSum".toList
  | some .byParts => "ByParts".toList
  | some .partialFractions => "PartialFractions".toList
  | some .completeTheSquare => "CompleteTheSquare".toList
  | some .rewritePythagorean => "RewritePythagorean".toList
  | some .simplify => "Simplify".toList

/-- `root.type`. -/
def typeName : NType → Str
  | .and => "AND".toList
  | .or => "OR".toList
  | .unset => "UNSET".toList
  | .solution => "SOLUTION".toList
  | .failure => "FAILURE".toList

/-- `_vardict` (debug/tree.py:10-11): the names that were met, with the names that are shown. -/
abbrev Names := List (Str × Str)

/-- `var.name.startswith("u_")` (debug/tree.py:19). -/
def isNew (v : Str) : Bool := ['u', '_'].isPrefixOf v

/-- The new entry for `v`, and the name shown for it (debug/tree.py:18-26). The test `not _vardict[...]` puts an entry into the
`defaultdict`, which `len(_vardict)` then counts. -/
def nameOf (d : Names) (v : Str) : Names × Str :=
  if isNew v then
    match d.lookup v with
    | some w => (d, w)
    | none => ((v, ['u', '_'] ++ intStr (d.length + 1 : ℕ)) :: d, ['u', '_'] ++ intStr (d.length + 1 : ℕ))
  else
    match d.lookup v with
    | some _ => (d, v)
    | none => ((v, v) :: d, v)

/-- `_exprify(expr)` (debug/tree.py:18-26): the variable of the node is replaced by its shown name, if it is a made-up one. -/
def exprify (O : Oracle) (n : Nat) (v : Str) (d : Names) (e : Expr) : R (Names × Expr) :=
  if isNew v then do
    let r ← replaceOld O n e (sym v) (sym (nameOf d v).2)
    return ((nameOf d v).1, r)
  else .ok ((nameOf d v).1, e)

/-- `repr(_exprify(expr))`, or `"filler"` (debug/tree.py:28-32). -/
def exprText (O : Oracle) (n : Nat) (t : Node) (d : Names) : R (Names × Str) :=
  if t.filler then .ok (d, "filler".toList)
  else do
    let (d', e) ← exprify O n t.var d t.expr
    let s ← (ctors O n).repr e
    return (d', s)

/-- `repr(_exprify(root.solution))`, if it is asked for (debug/tree.py:59). Without a solution `None` is passed on: it is returned for
an ordinary variable, and is an AttributeError in `replace` for a made-up one. -/
def solText (O : Oracle) (n : Nat) (sols : Bool) (t : Node) (d : Names) : R (Names × Option Str) :=
  if sols && t.isSolved then
    match t.sol with
    | some s => do
      let (d', e) ← exprify O n t.var d s
      let s ← (ctors O n).repr e
      return (d', some s)
    | none => if isNew t.var then .error .attribute else .ok ((nameOf d t.var).1, some "None".toList)
  else .ok (d, none)

/-- `root.is_stale` (transforms.py:121-124); `done`: some ancestor is finished. -/
def isStale (done : Bool) (t : Node) : Bool := !t.isFinished && done

/-- `x` (debug/tree.py:34-38). -/
def remark (done : Bool) (t : Node) : Str :=
  if t.children.isEmpty && (t.isSolved || t.isFailed) then []
  else if t.isSolved then " (solved)".toList
  else if t.isFailed then " (failed)".toList
  else if isStale done t then " (stale)".toList
  else []

/-- The line of one node (debug/tree.py:28-62). No transform has the attribute `_variable_change`, so `varchange` is empty. -/
def row (O : Oracle) (n : Nat) (sols done : Bool) (depth : Nat) (t : Node) (d : Names) : R (Names × Row) := do
  let (d1, text) ← exprText O n t d
  let k ← nesting O none t.expr
  let (d2, s) ← solText O n sols t d1
  return (d2, ⟨depth, k, text, s, clsName t.tr, remark done t,
    if t.children.isEmpty then " (".toList ++ typeName t.type ++ ")".toList else []⟩)

mutual
/-- `print_tree(root, show_stale, show_failures, show_solution, _vardict)` (debug/tree.py:9-67). -/
def printTree (O : Oracle) (n : Nat) (stale fails sols done : Bool) (depth : Nat) : Node → Names → R (Names × List Line)
  | .mk e v tr ty s f cs, d =>
    let t := Node.mk e v tr ty s f cs
    if !stale && isStale done t then .ok (d, [])
    else if !fails && t.isFailed then .ok (d, [])
    else
      match row O n sols done depth t d with
      | .error er => .error er
      | .ok (d', r) =>
        if cs.isEmpty then .ok (d', [.row r, .blank])
        else
          match printTreeL O n stale fails sols (done || t.isFinished) (depth + 1) cs d' with
          | .error er => .error er
          | .ok (d'', ls) => .ok (d'', .row r :: ls)
/-- The loop over the children (debug/tree.py:66-67). -/
def printTreeL (O : Oracle) (n : Nat) (stale fails sols done : Bool) (depth : Nat) : List Node → Names → R (Names × List Line)
  | [], d => .ok (d, [])
  | t :: r, d =>
    match printTree O n stale fails sols done depth t d with
    | .error er => .error er
    | .ok (d', ls) =>
      match printTreeL O n stale fails sols done depth r d' with
      | .error er => .error er
      | .ok (d'', ms) => .ok (d'', ls ++ ms)
end

/-- `print_tree(root)` (debug/tree.py:9). -/
def tree (O : Oracle) (n : Nat) (t : Node) : R (List Line) := (printTree O n true true false false 0 t []).map (·.2)

/-- `print_success_tree(root)` (debug/tree.py:80-81). -/
def successTree (O : Oracle) (n : Nat) (t : Node) : R (List Line) := (printTree O n false false false false 0 t []).map (·.2)

/-- `print_solution_tree(root)` (debug/tree.py:84-85). -/
def solutionTree (O : Oracle) (n : Nat) (t : Node) : R (List Line) := (printTree O n false false true false 0 t []).map (·.2)

end Print
end Simpy
