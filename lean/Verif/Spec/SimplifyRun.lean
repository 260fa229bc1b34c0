import Verif.Spec.Combine
import Verif.Spec.PTS
import Verif.Spec.Logs
import Verif.Spec.Replace
import Verif.Spec.Expand

/-!
# Specification: runs of `trig_simplify` that are right

For each rule of the two passes of `trig_simplify` a decidable condition on the node it is applied to: the sums excluded are those
on which the rule is wrong (see `pythagorean_value_fails`, `product_to_sum_fails`), or on which intermediate results leave
the principal branches.
-/

namespace Simpy
open Expr

/-- Where `_reciprocate_trigs` is right: no inverse trig function in the argument, and an integer exponent unless the new
function simplifies to something other than a power or a product. -/
def recipOk (O : Oracle) (k : Nat) : Expr → Bool
  | pow (trig f i) x => !containsCls isInvTrig i && (intExp x || match f.recip with
      | some g => okR baseOk (trigCtor O k g i)
      | none => true)
  | _ => true

/-- The run of `replace` is tame and looks only at nodes that pass the test. -/
def runOk (O : Oracle) (perf : Nat → Expr → R Rep) (P : Nat → Expr → Bool) (n : Nat) (e : Expr) : Bool :=
  Visits perf P n e && RunTame O perf n e

/-- The sum as one fraction in sines and cosines, in `_pythagorean_complex_perform` (simplify.py:141-152). -/
def sinCosFraction (O : Oracle) (n : Nat) (e : Expr) : R (Option Expr) := do
  let s ← replaceClass O (toSinCos O) n e
  oneFraction O (ctors O n) false s

/-- Where `_pythagorean_complex_perform` is right: the three replacements in it are. -/
def pythComplexOk (O : Oracle) (n : Nat) (e : Expr) : Bool :=
  match pythComplexPerf O n e with
  | .ok (.hit _) => RunTameC O (toSinCos O) n e &&
    match sinCosFraction O n e with
    | .ok (some t) => runOk O (pythPerf O) (pythOk O) n t && okR (runOk O (recipPerf O) (recipOk O) n) (replaceE O (pythPerf O) n t)
    | _ => true
  | _ => true

/-- Where `product_to_sum` is right. -/
def ptsPerfOk (O : Oracle) (n : Nat) (e : Expr) : Bool :=
  match e with
  | sum ts =>
    match ptsPerf O n (sum ts) with
    | .ok (.hit _) => !containsCls isInvTrig (sum ts) && ts.all (fun t => ptsOk O n t none)
    | _ => true
  | _ => true

/-- No inverse trig functions in the argument of a secant. -/
def secOk (_ : Nat) : Expr → Bool
  | pow (trig .sec i) _ => !containsCls isInvTrig i
  | _ => true

/-- A term with secants, in `sectan`: the replacement is right, and the result has integer exponents, no logarithms and no inverse
functions. -/
def secTermOk (O : Oracle) (n : Nat) (s : Expr) : Bool :=
  runOk O (secToTan O) secOk n s &&
    okR (fun r => intPows r && !containsCls isLog r && !containsCls isInvTrig r) (replaceE O (secToTan O) n s)

/-- Where `sectan` is right. -/
def sectanOk (O : Oracle) (n : Nat) (e : Expr) : Bool :=
  match e with
  | sum ts =>
    match sectanPerf O n (sum ts), sectanSplit ts with
    | .ok (.hit _), .ok (secs, _) => secs.all (secTermOk O n)
    | _, _ => true
  | _ => true

/-- Where the rules of the first pass are right. -/
def pass1Ok (O : Oracle) (n : Nat) (e : Expr) : Bool := pythOk O n e && pythComplexOk O n e && recipOk O n e

/-- Where the rules of the second pass are right. -/
def pass2Ok (O : Oracle) (n : Nat) (e : Expr) : Bool := combineOk O n e && ptsPerfOk O n e && sectanOk O n e

/-- The runs of both passes of `trig_simplify(e)` with `n` stack levels are right. -/
def trigRunOk (O : Oracle) (n : Nat) (e : Expr) : Bool :=
  !containsCls isPlainTrig e ||
    runOk O (trigPass1 O) (pass1Ok O) n e && okR (runOk O (trigPass2 O) (pass2Ok O) n) (replaceE O (trigPass1 O) n e)

end Simpy
