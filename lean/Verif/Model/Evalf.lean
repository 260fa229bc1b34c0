import Verif.Model.Trig

/-!
# Numerical evaluation (`Expr.evalf`)
-/

namespace Simpy
open Expr

/-- `x.value` of any `Num`, including `Pi` and `E` (expr.py:632, 643). -/
def numValue (O : Oracle) : Expr → PyNum
  | pi => .fin O.piVal
  | euler => .fin O.eVal
  | t => value t

/-- `e._evalf({})` with `n` Python stack levels left: Num (expr.py:415-416), Associative (383-384), Symbol (796-797: calls the abstract method
without its argument, a TypeError), Power (1489-1490), log (1615-1618; the base is evaluated but not used), TrigFunction (1802-1806),
Abs (2043-2044), Any_ (regex.py:48-49). `Float(math.sin(...))` never meets an infinity, so `Float` and `Const` agree. -/
def evalfE (O : Oracle) : Nat → Expr → R Expr
  | 0, _ => .error .recursion
  | n + 1, e =>
    match e with
    | rat q => do
      let v ← O.toFloat q
      return const v
    | flt v => .ok (flt v)
    | pi => .ok (flt (.fin O.piVal))
    | euler => .ok (flt (.fin O.eVal))
    | inf => .ok inf
    | neginf => .ok neginf
    | sym _ => .error .type
    | any _ => .error .notImplemented
    | sum ts => do
      let us ← mapR (evalfE O n) ts
      (ctors O n).sum us
    | prod ts => do
      let us ← mapR (evalfE O n) ts
      (ctors O n).prod us
    | pow b x => do
      let b' ← evalfE O n b
      let x' ← evalfE O n x
      (ctors O n).pow b' x'
    | log i b => do
      let i' ← evalfE O n i
      let b' ← evalfE O n b
      if i'.isNum && b'.isNum then
        let v ← O.log (numValue O i')
        return const v
      else logCtor O i' b'
    | trig f i => do
      let i' ← evalfE O n i
      if i'.isNum then
        let v ← O.trig f (numValue O i')
        return const v
      else trigCtor O n f i'
    | absv i => do
      let i' ← evalfE O n i
      (ctors O n).abs i'

end Simpy
