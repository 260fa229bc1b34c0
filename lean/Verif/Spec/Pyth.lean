import Verif.Model.Simplify
import Verif.Spec.Built

/-!
# Specification: sums on which the Pythagorean rules are right

`_pythagorean_perform` divides a term by a squared sine or cosine, and its second half goes through `regex.Eq`. Both are wrong
on some sums (see `Props/Pyth.lean`); the conditions here, all of them decidable for a given sum, exclude these.
-/

namespace Simpy
open Expr

/-- The factors of a term. -/
def scFactors : Expr → List Expr
  | prod ts => ts
  | t => [t]

/-- `f` is the square of a sine or cosine. -/
def isScSquare : Expr → Bool
  | pow (trig .sin _) (rat q) => q == 2
  | pow (trig .cos _) (rat q) => q == 2
  | _ => false

/-- A term whose factors are not products, with at most one squared sine or cosine among them and no other power of it. -/
def scTerm (t : Expr) : Bool :=
  ((scFactors t).filter isScSquare).length ≤ 1 &&
  match t with
  | prod ts => ts.all (fun u => !u.isProd) && ts.all (fun f => !isScSquare f ||
      (ts.filter (fun u => decide ((deconPow u).1 = (deconPow f).1))).length == 1)
  | _ => true

/-- The pairs found for the sines, and those for the cosines, are pairwise different. -/
def pairsDiffer (O : Oracle) (C : Ctors) (ts : List Expr) : Bool :=
  match mapR (thingSquared O C [.sin]) ts, mapR (thingSquared O C [.cos]) ts with
  | .ok s, .ok c => decide (s.filterMap id).Nodup && decide (c.filterMap id).Nodup
  | _, _ => false

/-- A function squared, with a pattern as argument. -/
def sqQ (f : TrigFn) : Expr := pow (trig f (any anyKey)) (rat 2)

/-- The argument of a squared function. -/
def sqArg (f : TrigFn) : Expr → Option Expr
  | pow (trig g i) (rat q) => if g = f ∧ q = 2 then some i else none
  | _ => none

/-- The argument of a function. -/
def trigArg (f : TrigFn) : Expr → Option Expr
  | trig g i => if g = f then some i else none
  | _ => none

/-- The terms have different reprs. -/
def reprsDiffer (C : Ctors) (ts : List Expr) : Bool :=
  match mapR C.repr ts with
  | .ok rs => decide rs.Nodup
  | _ => false

/-- `f(any_)**2` matches `d` only if `d` is the square of an `f`. -/
def squareMatch (O : Oracle) (C : Ctors) (f : TrigFn) (d : Expr) : Bool :=
  match eqN O C d (sqQ f) with
  | .ok (some _) => (sqArg f d).isSome
  | _ => true

/-- The argument of a power of a trig function has no inverse functions in it. -/
def sqNoInv : Expr → Bool
  | pow (trig _ i) _ => !containsCls isInvTrig i
  | _ => true

/-- The functions in the identities. -/
def identFns : List TrigFn := [.sin, .cos, .tan, .csc, .sec, .cot]

/-- Conditions on the terms of a sum under which the matches are right. -/
def identOk (O : Oracle) (n : Nat) (ts : List Expr) : Bool :=
  reprsDiffer (ctors O n) ts && ts.all (fun t => decide (scFactors t).Nodup &&
    (scFactors t).all (fun d => sqNoInv d && identFns.all (fun f => squareMatch O (ctors O n) f d)))

/-- Sums on which a hit of `_pythagorean_perform` is right: for `a sin² + a cos²`, every term has at most one squared sine or
cosine and the pairs differ; for the other identities, `identOk`. -/
def pythOk (O : Oracle) (n : Nat) (e : Expr) : Bool :=
  match e, pythPerf O n e with
  | sum ts, .ok (.hit _) =>
    match sinCosPairs O (ctors O n) ts with
    | .ok [] => identOk O n ts
    | _ => ts.all scTerm && pairsDiffer O (ctors O n) ts
  | _, _ => true

end Simpy
