import Verif.Model.Simplify

/-!
# Definite integrals (`Integration.integrate_bounds`, integration.py:122-129)
-/

namespace Simpy
open Expr

/-- `subs({v: a})`. -/
def single (v : Str) (a : Expr) : Str → Option Expr := fun s => if s = v then some a else none

/-- The last line of `integrate_bounds` (integration.py:128): `(integral.subs({x: b}) - integral.subs({x: a})).simplify()`. -/
def boundsValue (O : Oracle) (n : Nat) (v : Str) (a b F : Expr) : R Expr := do
  let fb ← subsE O n (single v b) F
  let fa ← subsE O n (single v a) F
  let d ← opSub (ctors O n) fb fa
  simplifyE O n d

/-- `integrate_bounds(expr, (x, a, b))` (integration.py:122-129), `integral` being what `self.integrate(expr, x, final=False)`
returns. -/
def integrateBounds (O : Oracle) (n : Nat) (v : Str) (a b : Expr) (integral : R (Option Expr)) : R (Option Expr) := do
  let o ← integral
  match o with
  | none => return none
  | some F => do
    let r ← boundsValue O n v a b F
    return some r

end Simpy
