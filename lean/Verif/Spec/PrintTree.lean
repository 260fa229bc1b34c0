import Verif.Model.PrintTree

/-!
# Specification: what a printed search tree shows
-/

namespace Simpy
namespace Print

mutual
/-- The nodes of the tree in depth-first order from left to right, each with its ancestors (nearest first); `as` are those of the root. -/
def walk (as : List Node) : Node → List (List Node × Node)
  | .mk e v tr ty s f cs => (as, .mk e v tr ty s f cs) :: walkL (.mk e v tr ty s f cs :: as) cs
def walkL (as : List Node) : List Node → List (List Node × Node)
  | [] => []
  | c :: r => walk as c ++ walkL as r
end

/-- The nodes that are solved together with all their ancestors: the solution that was found. -/
def solvedPart (t : Node) : List (List Node × Node) := (walk [] t).filter fun p => p.2.isSolved && p.1.all Node.isSolved

/-- The rows among the printed lines. -/
def rows (ls : List Line) : List Row := ls.filterMap fun l => match l with | .row r => some r | .blank => none

/-- `text` is the text of the expression, the variable of integration being shown under the name `σ` gives to it. -/
def ShownAs (O : Oracle) (n : Nat) (σ : Str → Str) (v : Str) (e : Expr) (text : Str) : Prop :=
  if isNew v then ∃ e', replaceOld O n e (.sym v) (.sym (σ v)) = .ok e' ∧ (ctors O n).repr e' = .ok text
  else (ctors O n).repr e = .ok text

/-- The remark about a node below `as`. -/
inductive Remarks (as : List Node) (t : Node) : Str → Prop
  | solved : t.isSolved = true → t.children ≠ [] → Remarks as t " (solved)".toList
  | failed : t.isSolved = false → t.isFailed = true → t.children ≠ [] → Remarks as t " (failed)".toList
  | stale : t.isSolved = false → t.isFailed = false → (∃ a ∈ as, a.isFinished = true) → Remarks as t " (stale)".toList
  | open : t.isSolved = false → t.isFailed = false → (∀ a ∈ as, a.isFinished = false) → Remarks as t []
  | leaf : t.children = [] → t.isFinished = true → Remarks as t []

/-- The row describes the node: distance from the root, nesting, integrand (under shown names), transform that led to it, remark, and
the type of a leaf. -/
structure Describes (O : Oracle) (n : Nat) (σ : Str → Str) (p : List Node × Node) (r : Row) : Prop where
  depth : r.depth = p.1.length
  nest : nesting O none p.2.expr = .ok r.nest
  text : if p.2.filler then r.text = "filler".toList else ShownAs O n σ p.2.var p.2.expr r.text
  cls : r.cls = clsName p.2.tr
  remark : Remarks p.1 p.2 r.remark
  ending : r.ending = if p.2.children = [] then " (".toList ++ typeName p.2.type ++ ")".toList else []

/-- The row shows the solution of the node. -/
def Solves (O : Oracle) (n : Nat) (σ : Str → Str) (p : List Node × Node) (r : Row) : Prop :=
  ∀ s, p.2.sol = some s → ∃ txt, r.sol = some txt ∧ ShownAs O n σ p.2.var s txt

/-- The shown names of the made-up variables are different. -/
def Distinct (σ : Str → Str) (ts : List (List Node × Node)) : Prop :=
  ∀ p ∈ ts, ∀ q ∈ ts, p.2.filler = false → q.2.filler = false → isNew p.2.var = true → isNew q.2.var = true →
    σ p.2.var = σ q.2.var → p.2.var = q.2.var

end Print
end Simpy
