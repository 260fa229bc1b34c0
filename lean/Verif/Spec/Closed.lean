import Verif.Spec.Normal
import Verif.Model.Simplify

/-! # Specification: polynomials that are multiplied out -/

namespace Simpy
open Expr

/-- A polynomial, in any number of symbols, that is multiplied out. -/
structure OutPoly (O : Oracle) (e : Expr) : Prop where
  poly : PolyExpr O e
  out : MultipliedOut O e

/-- `c.expand() if c.expandable() else c`. -/
def outOf (O : Oracle) (n : Nat) (c : Expr) : R Expr := do
  if ← expandableE O n c then expandE O n c else return c

/-- `a * b`, multiplied out. -/
def mulOut (O : Oracle) (n : Nat) (a b : Expr) : R Expr := do
  let c ← opMul (ctors O n) a b
  outOf O n c

/-- `a ** k`, multiplied out. -/
def powOut (O : Oracle) (n : Nat) (a : Expr) (k : ℕ) : R Expr := do
  let c ← opPow O (ctors O n) a (rat k)
  outOf O n c

end Simpy
