import Verif.Spec.Normal

/-! # Specification: polynomials that `integrate` is given, not necessarily multiplied out -/

namespace Simpy
open Expr

/-- The product of some factors, as it is written. -/
def productOf : List Expr → Expr
  | [f] => f
  | ts => prod ts

/-- A polynomial expression, not a sum; if it is a product, it is multiplied out or all of its factors contain `v`: `3*a*x**2`,
`(x + a)**5`, `x*(x + a)*(x**2 + 1)**2`. -/
structure PolySummand (O : Oracle) (v : Str) (t : Expr) : Prop where
  poly : PolyExpr O t
  noSum : t.isSum = false
  shape : ∀ ts, t = prod ts → PolyTerm t ∨ ∀ f ∈ ts, v ∈ syms f

/-- One such term, or a sum of them: `x*(x + 1) + (x - a)**3 + a*b*x + 7`. -/
inductive PolySummands (O : Oracle) (v : Str) : Expr → Prop
  | term {t : Expr} : PolySummand O v t → PolySummands O v t
  | sum {ts : List Expr} : PolyExpr O (sum ts) → (∀ t ∈ ts, PolySummand O v t) → PolySummands O v (sum ts)

/-- One such term, a sum of them, or a number times one of those: `-2*(x + 1)**5`, `3*(x*(x + 1) + (x - a)**3)`. In the last case
the factors without the number are a product as well, if there are several, and the constructor finds that out within a
recursion depth of 8. -/
inductive PolyIntegrand (O : Oracle) (v : Str) : Expr → Prop
  | plain {e : Expr} : PolySummands O v e → PolyIntegrand O v e
  | scaled {q : ℚ} {pre r : List Expr} : PolyExpr O (prod (pre ++ rat q :: r)) → (∀ f ∈ pre ++ r, v ∈ syms f) →
      (ctors O 8).prod (pre ++ r) = .ok (productOf (pre ++ r)) → PolySummands O v (productOf (pre ++ r)) →
      PolyIntegrand O v (prod (pre ++ rat q :: r))

end Simpy
