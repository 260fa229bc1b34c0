import Verif.Model.Regex
import Verif.Spec.Built

/-!
# Specification: value-preserving rewrite rules
-/

namespace Simpy
open Expr

/-- A number or a symbol. -/
def isLeaf : Expr → Bool
  | rat _ | pi | euler | sym _ => true
  | _ => false

/-- An `Abs` object. -/
def isAbs : Expr → Bool
  | absv _ => true
  | _ => false

/-- What the rules make of `b` is neither a power nor a product: they replace it by something that is neither, leave it alone
and it is neither, or have no verdict and it is a leaf or an absolute value. -/
def PlainP (perf : Nat → Expr → R Rep) (b : Expr) : Prop :=
  ∀ k v, perf k b = .ok v → match v with
    | .hit u => baseOk u = true
    | .stop => baseOk b = true
    | .pass => isLeaf b = true ∨ isAbs b = true

/-- `sin`, `cos`, `tan`, `csc`, `sec` or `cot`. -/
def isFwdTrig : Expr → Bool
  | trig f _ => !f.isInverse
  | _ => false

/-- What the rules make of `b` is not a `sin`, `cos`, ... -/
def NotTrigP (perf : Nat → Expr → R Rep) (b : Expr) : Prop :=
  ∀ k v, perf k b = .ok v → match v with
    | .hit u => isFwdTrig u = false
    | .stop => isFwdTrig b = false
    | .pass => isLeaf b = true

/-- The rules do not introduce functions of the class `p`. -/
def KeepsOut (p : Expr → Bool) (perf : Nat → Expr → R Rep) : Prop :=
  ∀ k e u, containsCls p e = false → perf k e = .ok (.hit u) → containsCls p u = false

mutual
/-- Every power has an integer literal as exponent or a plain base, every logarithm a plain argument, and no trig function
is applied to an inverse one or conversely, neither before nor after the replacement. -/
def TameP (perf : Nat → Expr → R Rep) : Expr → Prop
  | sum ts => TamePL perf ts
  | prod ts => TamePL perf ts
  | pow b x => TameP perf b ∧ TameP perf x ∧ (intExp x = true ∨ PlainP perf b)
  | log i b => TameP perf i ∧ TameP perf b ∧ PlainP perf i
  | trig f i => TameP perf i ∧ if f.isInverse
      then NotTrigP perf i ∨ containsCls isFwdTrig i = false ∧ KeepsOut isFwdTrig perf
      else containsCls isInvTrig i = false ∧ KeepsOut isInvTrig perf
  | absv i => TameP perf i
  | _ => True
def TamePL (perf : Nat → Expr → R Rep) : List Expr → Prop
  | [] => True
  | t :: r => TameP perf t ∧ TamePL perf r
end

/-- `replace(·, old, new)` leaves or turns `b` into something that is neither a power nor a product. -/
def plainArg (old new b : Expr) : Bool := if b = old then baseOk new else isLeaf b || isAbs b

/-- `replace(·, old, new)` leaves or turns `b` into something that is not a `sin`, `cos`, ... -/
def notTrigArg (old new b : Expr) : Bool := if b = old then !isFwdTrig new else isLeaf b

mutual
/-- Every power has an integer literal as exponent or a plain base, every logarithm a plain argument, and no trig function
is applied to an inverse one or conversely, neither before nor after the replacement. -/
def TameR (old new : Expr) : Expr → Bool
  | sum ts => TameRL old new ts
  | prod ts => TameRL old new ts
  | pow b x => TameR old new b && TameR old new x && (intExp x || plainArg old new b)
  | log i b => TameR old new i && TameR old new b && plainArg old new i
  | trig f i => TameR old new i && if f.isInverse
      then notTrigArg old new i || !containsCls isFwdTrig i && !containsCls isFwdTrig new
      else !containsCls isInvTrig i && !containsCls isInvTrig new
  | absv i => TameR old new i
  | _ => true
def TameRL (old new : Expr) : List Expr → Bool
  | [] => true
  | t :: r => TameR old new t && TameRL old new r
end

/-- The result, if there is one, satisfies the test. -/
def okR (f : Expr → Bool) : R Expr → Bool
  | .ok r => f r
  | .error _ => true

/-- In the run of `replace` with `n` stack levels on `e`, all rebuilt powers have an integer exponent or a base that is neither a
power nor a product, all arguments of rebuilt logarithms are neither powers nor products, and
no trig function is rebuilt around an inverse one or conversely. -/
def RunTame (O : Oracle) (perf : Nat → Expr → R Rep) : Nat → Expr → Bool
  | 0, _ => true
  | n + 1, e => match perf n e with
    | .ok .pass => match e with
      | sum ts => ts.all (RunTame O perf n)
      | prod ts => ts.all (RunTame O perf n)
      | pow b x => RunTame O perf n b && RunTame O perf n x && (!intExp x || okR intExp (replaceE O perf n x)) &&
          (okR intExp (replaceE O perf n x) || okR baseOk (replaceE O perf n b))
      | log i b => RunTame O perf n i && RunTame O perf n b && okR baseOk (replaceE O perf n i)
      | trig f i => RunTame O perf n i && if f.isInverse
          then okR (fun r => !isFwdTrig r) (replaceE O perf n i)
          else okR (fun r => !containsCls isInvTrig r) (replaceE O perf n i)
      | absv i => RunTame O perf n i
      | _ => true
    | _ => true

/-- Like `RunTame`, for `replace_class`. -/
def RunTameC (O : Oracle) (new : TrigFn → Option (Nat → Expr → R Expr)) : Nat → Expr → Bool
  | 0, _ => true
  | n + 1, e =>
    if !containsCls (listed new) e then true
    else match e with
      | sum ts => ts.all (RunTameC O new n)
      | prod ts => ts.all (RunTameC O new n)
      | pow b x => RunTameC O new n b && RunTameC O new n x && (!intExp x || okR intExp (replaceClass O new n x)) &&
          (okR intExp (replaceClass O new n x) || okR baseOk (replaceClass O new n b))
      | log i b => RunTameC O new n i && RunTameC O new n b && okR baseOk (replaceClass O new n i)
      | trig f i => RunTameC O new n i && if f.isInverse
          then okR (fun r => !isFwdTrig r) (replaceClass O new n i)
          else okR (fun r => !containsCls isInvTrig r) (replaceClass O new n i)
      | absv i => RunTameC O new n i
      | _ => true

/-- Every node that the run of `replace` with `n` stack levels on `e` looks at passes the test (which is told how many levels
are left there). -/
def Visits (perf : Nat → Expr → R Rep) (P : Nat → Expr → Bool) : Nat → Expr → Bool
  | 0, _ => true
  | n + 1, e => P n e && match perf n e with
    | .ok .pass => (Expr.children e).all (Visits perf P n)
    | _ => true

/-- `Visits` for a test that need not be decidable. -/
def VisitsP (perf : Nat → Expr → R Rep) (P : Nat → Expr → Prop) : Nat → Expr → Prop
  | 0, _ => True
  | n + 1, e => P n e ∧ (perf n e = .ok .pass → ∀ t ∈ Expr.children e, VisitsP perf P n t)

end Simpy
