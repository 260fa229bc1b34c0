import Verif.Model.Ctors

/-!
# `debug_repr` (debug/utils.py)
-/

namespace Simpy
open Expr

/-- `", ".join(...)`. -/
def commaSep : Str := [',', ' ']

mutual
/-- `debug_repr(expr)` with `n` Python stack levels left for `repr` (debug/utils.py:11-29); the levels that `debug_repr` itself uses are not
counted. -/
def debugRepr (O : Oracle) (n : Nat) : Expr → R Str
  | pow b x => do
    let s ← debugRepr O n b
    let t ← debugRepr O n x
    return "Power(".toList ++ s ++ commaSep ++ t ++ [')']
  | prod ts => do
    let l ← debugReprL O n ts
    return "Prod(".toList ++ joinStr commaSep l ++ [')']
  | sum ts => do
    let l ← debugReprL O n ts
    return "Sum(".toList ++ joinStr commaSep l ++ [')']
  | e => (ctors O n).repr e
/-- `[debug_repr(t) for t in expr.terms]`. -/
def debugReprL (O : Oracle) (n : Nat) : List Expr → R (List Str)
  | [] => .ok []
  | t :: r => do
    let s ← debugRepr O n t
    let l ← debugReprL O n r
    return s :: l
end

/-- `debug_repr(expr, pedantic="always")` (debug/utils.py:6-29): the recursive calls do not pass `pedantic` on. -/
def debugReprAlways (O : Oracle) (n : Nat) : Expr → R Str
  | rat q => .ok ("Rat(".toList ++ ratStr q ++ [')'])
  | sym s => .ok ("Symbol(".toList ++ s ++ [')'])
  | flt x => do
    let s ← (ctors O n).repr (flt x)
    return "Float(".toList ++ s ++ [')']
  | e => debugRepr O n e

end Simpy
