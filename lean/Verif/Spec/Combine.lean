import Verif.Spec.Pyth

/-!
# Specification: products on which `_combine_trigs` is right

Like `Spec/Pyth.lean`: decidable conditions on a product under which the matches of `regex.Eq` are right.
-/

namespace Simpy
open Expr

/-- A function with a pattern as argument. -/
def trigQ (f : TrigFn) : Expr := trig f (any anyKey)

/-- The pairs of functions that `_combine_trigs` looks for. -/
def combinePairs : List (TrigFn × TrigFn) := [(.sec, .sin), (.cos, .csc)]

/-- The functions in them. -/
def combineFns : List TrigFn := [.sec, .sin, .cos, .csc]

/-- `f(any_)` matches `d` only if `d` is an `f`. -/
def trigMatch (O : Oracle) (C : Ctors) (f : TrigFn) (d : Expr) : Bool :=
  match eqN O C d (trigQ f) with
  | .ok (some _) => (trigArg f d).isSome
  | _ => true

/-- If it is a trig function, its argument has no inverse functions in it. -/
def argNoInv : Expr → Bool
  | trig _ i => !containsCls isInvTrig i
  | _ => true

/-- Products on which a hit of `_combine_trigs` is right. -/
def combineOk (O : Oracle) (n : Nat) (e : Expr) : Bool :=
  match e with
  | prod ts =>
    match tryCombine O n (prod ts) combineQueries with
    | .ok (.hit _) => decide ts.Nodup && ts.all (fun t => argNoInv t && combineFns.all (fun f => trigMatch O (ctors O n) f t))
    | _ => true
  | _ => true

end Simpy
