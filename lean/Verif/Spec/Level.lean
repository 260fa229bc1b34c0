import Verif.Model.Expr

/-!
# Specification: what the canonical order of terms looks at

How many operations lie around the deepest symbol of a term, where multiplying by constants does not count; and the exponent of a term.
-/

namespace Simpy
open Expr

/-- The greatest of some numbers, 0 if there are none. -/
def greatest : List ℕ → ℕ
  | [] => 0
  | k :: r => max k (greatest r)

/-- One more operation around symbols; around constants it does not count. -/
def deeper : ℕ → ℕ
  | 0 => 0
  | k + 1 => k + 2

mutual
/-- The number of operations around the deepest symbol, counting the symbol as one; 0 without symbols. A product counts as an operation
only if at least two of its factors contain symbols. -/
def symDepth : Expr → ℕ
  | sym _ => 1
  | any _ => 1
  | prod ts => if ((symDepths ts).filter (0 < ·)).length ≤ 1 then greatest (symDepths ts) else deeper (greatest (symDepths ts))
  | sum ts => deeper (greatest (symDepths ts))
  | pow b x => deeper (max (symDepth b) (symDepth x))
  | log i b => deeper (max (symDepth i) (symDepth b))
  | trig _ i => deeper (symDepth i)
  | absv i => deeper (symDepth i)
  | _ => 0
/-- of each -/
def symDepths : List Expr → List ℕ
  | [] => []
  | t :: r => symDepth t :: symDepths r
end

/-- The exponent of a power, if it is a number; of a product, the exponent of its only factor with symbols; otherwise 1. -/
def ownExponent : Expr → ℚ
  | pow _ (rat q) => q
  | prod ts => match ts.filter (fun t => 0 < symDepth t) with
    | [pow _ (rat q)] => q
    | _ => 1
  | _ => 1

mutual
/-- The depth of a term without symbols: 1 for a rational number, 2 for any other constant, and 2 more for each operation. -/
def constDepth : Expr → ℕ
  | rat _ => 1
  | sum ts => 2 + greatest (constDepths ts)
  | prod ts => 2 + greatest (constDepths ts)
  | pow b x => 2 + max (constDepth b) (constDepth x)
  | log i b => 2 + max (constDepth i) (constDepth b)
  | trig _ i => 2 + constDepth i
  | absv i => 2 + constDepth i
  | _ => 2
/-- of each -/
def constDepths : List Expr → List ℕ
  | [] => []
  | t :: r => constDepth t :: constDepths r
end

/-- `a` may stand before `b`: the term with the deeper symbol is later; of equally deep ones the one with the greater exponent; terms
without symbols come first, by their own depth. -/
def Before (a b : Expr) : Prop :=
  symDepth a < symDepth b ∨ symDepth a = symDepth b ∧ if symDepth a = 0 then constDepth a ≤ constDepth b else ownExponent a ≤ ownExponent b

mutual
/-- In every product in the expression the factors stand in this order, in every sum the terms in the reverse of it. -/
def Ordered : Expr → Prop
  | sum ts => ts.Pairwise (fun a b => Before b a) ∧ OrderedL ts
  | prod ts => ts.Pairwise Before ∧ OrderedL ts
  | pow b x => Ordered b ∧ Ordered x
  | log i b => Ordered i ∧ Ordered b
  | trig _ i => Ordered i
  | absv i => Ordered i
  | _ => True
/-- in each -/
def OrderedL : List Expr → Prop
  | [] => True
  | t :: r => Ordered t ∧ OrderedL r
end

end Simpy
