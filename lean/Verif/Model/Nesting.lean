import Verif.Model.Ctors

/-!
# Complexity of an expression (expr.py:28-67)
-/

namespace Simpy
open Expr

/-- `expr.contains(var)`, or True for `var = None` (the guard of expr.py:47-48). -/
def inScope (v : Option Str) (e : Expr) : Bool :=
  match v with
  | none => true
  | some s => e.contains s

mutual
/-- `_nesting(expr, var)` (expr.py:46-61) for `skip = false`, `__nesting(e, v)` (expr.py:64-67) for `skip = true`. The cache
of `nesting` (expr.py:28-45) is left out. -/
def nest (O : Oracle) (v : Option Str) (skip : Bool) : Expr → R Nat
  | sym s => .ok (if inScope v (sym s) then 1 else 0)
  | sum ts =>
    if !inScope v (sum ts) then .ok 0
    else if ts.isEmpty then .ok 0
    else do
      let l ← nestL O v ts
      let m ← maxNat l
      return 1 + m
  | prod ts =>
    if !inScope v (prod ts) then .ok 0
    else do
      let l ← nestL O v ts
      match ts with
      | [] => .error .index
      | [c, _] =>
        if beq O c (rat (-1)) then return l.getD 1 0
        else do
          let m ← maxNat l
          return 1 + m
      | _ => do
        let m ← maxNat l
        return 1 + m
  | pow b x =>
    if skip && beq O x (rat (-1)) then nest O v false b
    else if !inScope v (pow b x) then .ok 0
    else do
      let m ← nest O v true b
      let k ← nest O v true x
      return 1 + max m k
  | log i b =>
    if !inScope v (log i b) then .ok 0
    else do
      let m ← nest O v true i
      let k ← nest O v true b
      return 1 + max m k
  | trig f i =>
    if !inScope v (trig f i) then .ok 0
    else do
      let m ← nest O v true i
      return 1 + m
  | absv i =>
    if !inScope v (absv i) then .ok 0
    else do
      let m ← nest O v true i
      return 1 + m
  | _ => .ok 0
/-- `[__nesting(sub_expr, var) for sub_expr in children]`. -/
def nestL (O : Oracle) (v : Option Str) : List Expr → R (List Nat)
  | [] => .ok []
  | t :: r => do
    let m ← nest O v true t
    let l ← nestL O v r
    return m :: l
end

/-- `nesting(expr, var)` (expr.py:28-45). -/
def nesting (O : Oracle) (v : Option Str) (e : Expr) : R Nat := nest O v false e

end Simpy
