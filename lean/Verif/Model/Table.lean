import Verif.Model.Calculus
import Verif.Model.Regex

/-!
# The integral table (integral_table.py)
-/

namespace Simpy
open Expr

/-- The table's own variable `x = Symbol("x")` (integral_table.py:8). -/
def tableX : Expr := sym ['x']

/-- `STANDARD_TRIG_INTEGRALS` (integral_table.py:10-16), the integrands: what the constructors return for `sin(x)`, `cos(x)`,
`sec(x) ** 2` and `sec(x)`, with the integral as a function of the variable. -/
def standardTrig (O : Oracle) (n : Nat) : List (Expr × (Expr → R Expr)) :=
  [(trig .sin tableX, fun v => do
      let c ← trigCtor O n .cos v
      opNeg (ctors O n) c),
   (trig .cos tableX, fun v => trigCtor O n .sin v),
   (pow (trig .sec tableX) (rat 2), fun v => trigCtor O n .tan v),
   (trig .sec tableX, fun v => do
      let t ← trigCtor O n .tan v
      let s ← trigCtor O n .sec v
      let r ← opAdd (ctors O n) t s
      logCtor O r euler)]

/-- The loop over the table (integral_table.py:35-37). -/
def tableLoop (O : Oracle) (v : Str) (e : Expr) : List (Expr × (Expr → R Expr)) → R (Option Expr)
  | [] => .ok none
  | (f, g) :: r =>
    if eqWithVar O v ['x'] e f then do
      let F ← g (sym v)
      return some F
    else tableLoop O v e r

/-- The Power and Symbol cases (integral_table.py:26-33): `none` if none of them applies. -/
def tablePower (O : Oracle) (n : Nat) (v : Str) (e : Expr) : R (Option Expr) :=
  match e with
  | pow b x =>
    if beq O b (sym v) && !x.contains v then
      if beq O x (rat (-1)) then do
        let a ← (ctors O n).abs b
        let l ← logCtor O a euler
        return some l
      else do
        let x1 ← opAdd (ctors O n) x (rat 1)
        let i ← opDiv (ctors O n) (rat 1) x1
        let p ← (ctors O n).pow (sym v) x1
        let r ← opMul (ctors O n) i p
        return some r
    else if beq O x (sym v) && !b.contains v then do
      let l ← logCtor O b euler
      let i ← opDiv (ctors O n) (rat 1) l
      let r ← opMul (ctors O n) i e
      return some r
    else .ok none
  | sym s =>
    if s = v then do
      let p ← (ctors O n).pow (sym v) (rat 2)
      let r ← opMul (ctors O n) (rat (1 / 2)) p
      return some r
    else .ok none
  | _ => .ok none

/-- `check_integral_table(integrand, var)` (integral_table.py:19-39). -/
def checkTable (O : Oracle) (n : Nat) (v : Str) (e : Expr) : R (Option Expr) :=
  if !e.contains v then do
    let r ← opMul (ctors O n) e (sym v)
    return some r
  else do
    let t ← tablePower O n v e
    match t with
    | some r => return some r
    | none => tableLoop O v e (standardTrig O n)

end Simpy
