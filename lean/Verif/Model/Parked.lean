import Verif.Model.Transforms

/-!
# The parked transforms (debug/_dead_transforms.py)

They are not in the lists of transforms that the engine tries. As in Model/Transforms each function is `check` followed by what `forward` computes.
-/

namespace Simpy
open Expr

/-- `_check` at one node, and `condition` (debug/_dead_transforms.py:12-16, 24-26): a sine or cosine of a sum of two terms. -/
def isCompound : Expr → Bool
  | trig .sin (sum [_, _]) => true
  | trig .cos (sum [_, _]) => true
  | _ => false

/-- `_perform` of `CompoundAngle` where `condition` holds (debug/_dead_transforms.py:28-33). -/
def compoundPerf (O : Oracle) (n : Nat) : Expr → R Rep
  | trig .sin (sum [a, b]) => do
    let p ← trigCtor O n .sin a
    let q ← trigCtor O n .cos b
    let x ← opMul (ctors O n) p q
    let p' ← trigCtor O n .cos a
    let q' ← trigCtor O n .sin b
    let y ← opMul (ctors O n) p' q'
    let r ← opAdd (ctors O n) x y
    return .hit r
  | trig .cos (sum [a, b]) => do
    let p ← trigCtor O n .cos a
    let q ← trigCtor O n .cos b
    let x ← opMul (ctors O n) p q
    let p' ← trigCtor O n .sin a
    let q' ← trigCtor O n .sin b
    let y ← opMul (ctors O n) p' q'
    let r ← opSub (ctors O n) x y
    return .hit r
  | _ => .ok .pass

/-- `CompoundAngle` (debug/_dead_transforms.py:4-41): the new integrand. `backward` takes over the solution of the child. -/
def compoundAngle (O : Oracle) (n : Nat) (e : Expr) : R (Option Expr) :=
  if generalContains isCompound e then do
    let r ← replaceE O (compoundPerf O) n e
    return some r
  else .ok none

/-- `is_constant_product_of_var(expr, var)` (debug/_dead_transforms.py:60-65). -/
def constTimesVar (O : Oracle) (n : Nat) (v : Str) (i : Expr) : R Bool :=
  if beq O i (sym v) then .ok true
  else do
    let q ← opDiv (ctors O n) i (sym v)
    return !decide (v ∈ syms q)

/-- The loop of `SinUSub.check` (debug/_dead_transforms.py:69-96): the arguments of the sines and cosines met so far, and the argument of `self._sin`. -/
def sinLoop (O : Oracle) (n : Nat) (v : Str) : List Expr → List Expr → List Expr → R (Option Expr)
  | _, _, [] => .ok none
  | sins, coses, t :: r =>
    match t with
    | trig .sin i => do
      let b ← constTimesVar O n v i
      if b then
        if coses.any (fun c => beq O i c) then return some i else sinLoop O n v (sins ++ [i]) coses r
      else sinLoop O n v sins coses r
    | trig .cos i => do
      let b ← constTimesVar O n v i
      if b then
        match sins.find? (fun s => beq O i s) with
        | some s => return some s
        | none => sinLoop O n v sins (coses ++ [i]) r
      else sinLoop O n v sins coses r
    | _ => sinLoop O n v sins coses r

/-- `SinUSub` (debug/_dead_transforms.py:44-106): the substituted expression and the new integrand; none also if `forward` gives up (103-104). -/
def sinUSub (O : Oracle) (n : Nat) (v u : Str) : Expr → R (Option (Expr × Expr))
  | prod ts => do
    let k ← sinLoop O n v [] [] ts
    match k with
    | none => return none
    | some i => do
      let d ← diffE O n v (trig .sin i)
      let r ← replaceOld O n (prod ts) (trig .sin i) (sym u)
      let g ← opDiv (ctors O n) r d
      if v ∈ syms g then return none else return some (trig .sin i, g)
  | _ => .ok none

/-- `SinUSub.backward`, inherited from `USub` (transforms.py:216-218): the solution of the parent. -/
def sinUSubBack (O : Oracle) (n : Nat) (u : Str) (q S : Expr) : R Expr := replaceOld O n S (sym u) q

end Simpy
