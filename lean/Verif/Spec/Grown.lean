import Verif.Model.Engine

/-!
# Specification: every node of the tree comes from its parent by the transform it carries

`Grown O n ν old t`: the tree `t` has been built by the transforms, with the name supply `ν` and with the integrands `old` of the
integrations by parts on the way from the root to `t` (inclusive).
-/

namespace Simpy
open Expr
namespace Node

/-- The integrands of the integrations by parts among the nodes of a list (transforms.py:740-744). -/
def oldsOf (l : List Node) : List Expr := (l.filter fun a => isByParts a.tr).map expr

/-- The same, from a node to its child. -/
def oldOf (c : Node) (old : List Expr) : List Expr := if isByParts c.tr then c.expr :: old else old

/-- The parts that ByParts computes for the integrand `e`: `c = u * v`, `g` the new integrand `-v * du` and `f = g / e`. -/
def PartsOf (O : Oracle) (n : Nat) (ν : Supply) (old : List Expr) (v : Str) (e c g f : Expr) : Prop :=
  ∃ u du w, byPartsCheck O n v (withoutHeuristics O n ν v) (fun g => old.any fun a => beq O g a) e = .ok (some (u, du, w)) ∧
    byPartsParts O n e u du w = .ok (c, g, f)

/-- What the filler node `t` of ByParts looks like. Either it has a solution, which is `c / (1 - f)` if `f` is a constant (and
otherwise is computed from the parts of another integration by parts), or it has a filler child with a solution and a child
with the new integrand. -/
def FillerOf (O : Oracle) (n : Nat) (v : Str) (e c g f : Expr) (t : Node) : Prop :=
  (t.type = .solution ∧ t.children = [] ∧ ∃ r, t.sol = some r ∧
    (f.contains v = false → byPartsSolution (ctors O n) c f = .ok r)) ∨
  (t.type = .and ∧ t.sol = none ∧ f.contains v = true ∧ ∃ (a : Node) (rest : List Node), t.children = a :: rest ∧
    a.expr = e ∧ a.var = v ∧ a.tr = some .additivity ∧ a.filler = true ∧ a.type = .solution ∧
    ∀ d ∈ rest, d.tr = some .additivity → d.filler = false ∧ d.var = v ∧ d.expr = g)

/-- The node `t` is made by its transform from a parent with the integrand `e` and the variable `v`; `bp` says whether the parent
is a filler node of ByParts itself. -/
def MadeBy (O : Oracle) (n : Nat) (ν : Supply) (old : List Expr) (e : Expr) (v : Str) (bp : Bool) (t : Node) : Transf → Prop
  | .pullConstant c => t.filler = false ∧ t.var = v ∧ pullConstant O n v e = .ok (some (c, t.expr))
  | .additivity => t.var = v ∧ (bp = true ∨ t.filler = false ∧ ∃ ts, e = sum ts ∧ t.expr ∈ ts)
  | .partialFractions => t.filler = false ∧ t.var = v ∧ partialFractions O n v e = .ok (some t.expr)
  | .polynomialDivision => t.filler = false ∧ t.var = v ∧ polyDiv O n n v e = .ok (some t.expr)
  | .expand => t.filler = false ∧ t.var = v ∧ expandT O n e = .ok (some t.expr)
  | .linearUSub q => t.filler = false ∧ t.var = ν.own 0 [] ∧ linearUSub O n v t.var e = .ok (some (q, t.expr))
  | .polynomialUSub q => t.filler = false ∧ t.var = ν.own 1 [] ∧ polynomialUSub O n v t.var e = .ok (some (q, t.expr))
  | .productToSum => t.filler = false ∧ t.var = v ∧ productToSumUnit O n e = .ok (some t.expr)
  | .trigUSub2 q => t.filler = false ∧ t.var = ν.own 2 [] ∧ trigUSub2 O n v t.var e = .ok (some (q, t.expr))
  | .byParts => t.filler = true ∧ t.var = v ∧ t.expr = e ∧
      ∃ c g f, PartsOf O n (ν.own 3) old v e c g f ∧ FillerOf O n v e c g f t
  | .rewriteTrig => t.filler = false ∧ t.var = v ∧ ∃ gs, rewriteTrig O n e = .ok gs ∧ t.expr ∈ gs
  | .rewritePythagorean => t.filler = false ∧ t.var = v ∧ rewritePythagorean O n e = .ok (some t.expr)
  | .inverseTrigUSub q => t.filler = false ∧ t.var = ν.own 4 [] ∧ inverseTrigUSub O n v t.var e = .ok (some (q, t.expr))
  | .simplify => t.filler = false ∧ t.var = v ∧ pythagoreanSimplification O n e = .ok t.expr
  | .completeTheSquare => t.filler = false ∧ t.var = v ∧ completeTheSquare O n v e = .ok (some t.expr)
  | .genericUSub q => t.filler = false ∧ t.var = ν.own 5 [] ∧ genericUSub O n v t.var e = .ok (some (q, t.expr))

/-- A node with a parent has a transform, which made it. -/
def Made (O : Oracle) (n : Nat) (ν : Supply) (old : List Expr) (e : Expr) (v : Str) (bp : Bool) (t : Node) : Prop :=
  ∃ tr, t.tr = some tr ∧ MadeBy O n ν old e v bp t tr

/-- Only SOLUTION nodes have solutions, which come from the table unless the node is a filler. -/
def Labelled (O : Oracle) (n : Nat) (t : Node) : Prop :=
  (t.sol = none ∧ t.type ≠ .solution ∨
    t.type = .solution ∧ ∃ S, t.sol = some S ∧ (t.filler = false → checkTable O n t.var t.expr = .ok (some S))) ∧
  (t.filler = true → (∀ ts, t.expr ≠ sum ts) ∧ (t.children = [] → t.type = .solution))

/-- Every node of the tree is made by its transform. -/
inductive Grown (O : Oracle) (n : Nat) : Supply → List Expr → Node → Prop
  | mk {ν : Supply} {old : List Expr} {t : Node} : Labelled O n t →
      (∀ (i : Nat) (c : Node), t.children[i]? = some c → Made O n ν old t.expr t.var (isByParts t.tr) c) →
      (∀ (i : Nat) (c : Node), t.children[i]? = some c → Grown O n (ν.child i) (oldOf c old) c) → Grown O n ν old t

end Node
end Simpy
