import Verif.Spec.Closed
import Verif.Model.Engine

/-! # Specification: what the public functions return if the stack is deep enough -/

namespace Simpy
open Expr

/-- With a stack that is deep enough `f` returns `r`. -/
def Returns (f : Nat → R Expr) (r : Expr) : Prop := ∃ N, ∀ n ≥ N, f n = .ok r

/-- `integrate(e, v)` is `F`, whatever the strategy, the time limit and the random names. -/
def Antiderivative (O : Oracle) (v : Str) (e F : Expr) : Prop :=
  ∃ N, ∀ n ≥ N, ∀ (ν : Supply) (bf : Bool) (k : Nat), integrateTop O n ν bf k e (.var v) = .ok (some F)

/-- `integrate(e, (v, a, b))` is `r`, whatever the strategy, the time limit and the random names. -/
def DefiniteIntegral (O : Oracle) (v : Str) (a b e r : Expr) : Prop :=
  ∃ N, ∀ n ≥ N, ∀ (ν : Supply) (bf : Bool) (k : Nat), integrateTop O n ν bf k e (.full v a b) = .ok (some r)

/-- A bound: a number, a symbol, or a product of a number and powers of symbols. -/
structure Bound (O : Oracle) (a : Expr) : Prop where
  poly : PolyExpr O a
  term : PolyTerm a

end Simpy
