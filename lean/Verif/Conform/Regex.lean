import Verif.Conform.Dsl
import Verif.Model.Match

/-! The assertions of /repo/tests/test_regex.py that can be said in the model, written by hand and evaluated in the kernel. Left out
are calls of `eq` without `up_to_factor` (the model has the calls that the program itself makes) and the results for queries without `any_`.
The assertions with `up_to_sum=True` alone are said with `up_to_factor=True` too, and ask for the factor 1.
These are tests of the model, not properties: they compare it with what the author of the program expects of it. -/

namespace Simpy.Conform
open Simpy Expr
set_option maxRecDepth 100000

/-- `any_`: regex.py:61. -/
def anyE : T := .ok (any anyKey)
/-- The query times `any_factor`, expanded: regex.py:196-199. -/
def query (q : T) : T := tExpand (tMul (.ok (any factorKey)) q)
/-- `any_factor` times a query that does not expand: regex.py:196-199. -/
def query1 (q : T) : T := tMul (.ok (any factorKey)) q
/-- `eq(e, q, up_to_factor=True) == {"success": True, "factor": f, "matches": m}`. -/
def finds (e q f m : T) : R Bool := do
  match ← eqFactor O C (← e) (← q) with
  | some (f', m') => return beq O f' (← f) && beq O m' (← m)
  | none => return false
/-- `not eq(e, q, up_to_factor=True)["success"]`. -/
def misses (e q : T) : R Bool := do return (← eqFactor O C (← e) (← q)).isNone
/-- The terms of a Sum. -/
def terms (e : T) : R (List Expr) := do
  match ← e with
  | sum ts => return ts
  | _ => .error .value
/-- `eq(e, q, up_to_factor=True, up_to_sum=True) == {"success": True, "factor": f, "matches": m, "rest": r}`. -/
def findsSum (e q f m r : T) : R Bool := do
  match ← eqSum O C (← terms e) (← terms q) with
  | some (f', m', r') => return beq O f' (← f) && beq O m' (← m) && beq O r' (← r)
  | none => return false
/-- `eq(e, q, up_to_factor=True, up_to_sum=True)["success"] is False`. -/
def missesSum (e q : T) : R Bool := do return (← eqSum O C (← terms e) (← terms q)).isNone

/-- `x` -/
abbrev rx := sy "x"
/-- `f(a) ** 2` -/
def sq (f : TrigFn) (a : T) : T := tPow (tTrig f a) (n 2)
/-- `1 + tan(any_) ** 2` -/
def tanQuery : T := query (tAdd (n 1) (sq .tan anyE))

/-! test_sort_anys -/

/-- Line 16: `sin(any_) * sec(any_) == sec(any_) * sin(any_)` -/
example : holds (strict (tMul (tTrig .sin anyE) (tTrig .sec anyE)) (tMul (tTrig .sec anyE) (tTrig .sin anyE))) = true := by decide +kernel

/-! test_any_tan -/

/-- Line 24 -/
example : holds (finds (tAdd (sq .tan (tMul (n 2) rx)) (n 1)) tanQuery (n 1) (tMul (n 2) rx)) = true := by decide +kernel

/-- Line 25 -/
example : holds (finds (tAdd (sq .tan (tAdd (tMul (n 2) rx) (sy "y"))) (n 1)) tanQuery (n 1) (tAdd (tMul (n 2) rx) (sy "y"))) = true := by
  decide +kernel

/-- Lines 26-29 -/
example : holds (finds (tAdd (tMul (n 3) (sq .tan (tAdd (tMul (n 2) rx) (sy "y")))) (n 3)) tanQuery (n 3)
    (tAdd (tMul (n 2) rx) (sy "y"))) = true := by decide +kernel

/-! test_factor_doesnt_overstep -/

/-- Line 60: `not eq(1 + sin(x) ** 2, 1 + tan(any_) ** 2, up_to_factor=True)["success"]` -/
example : holds (misses (tAdd (n 1) (sq .sin rx)) tanQuery) = true := by decide +kernel

/-! test_unlimited_sum -/

/-- Lines 64-68 -/
example : holds (findsSum (tAdd (tAdd (tAdd (n 2) rx) (sq .sin rx)) (sq .cos rx)) (query (tAdd (sq .sin anyE) (sq .cos anyE)))
    (n 1) rx (tAdd (n 2) rx)) = true := by decide +kernel

/-! test_up_to_sum -/

/-- `-sin(x) ** 2 - 5 ** cos(x) ** 2 + 1` -/
def upToSum : T := tAdd (tSub (tNeg (sq .sin rx)) (tPow (n 5) (sq .cos rx))) (n 1)

/-- Lines 72-75 -/
example : holds (findsSum upToSum (query (tSub (n 1) (sq .sin anyE))) (n 1) rx (tNeg (tPow (n 5) (sq .cos rx)))) = true := by decide +kernel

/-! test_up_to_sum_and_factor -/

/-- Lines 79-87 -/
example : holds (findsSum (tSub (tSub (sq .sin rx) (tPow (n 5) (sq .cos rx))) (n 1)) (query (tSub (n 1) (sq .sin anyE)))
    (n (-1)) rx (tNeg (tPow (n 5) (sq .cos rx)))) = true := by decide +kernel

/-! test_cofounder -/

/-- Lines 93-97 -/
example : holds (missesSum (tSub (tNeg (sq .sin (tMul (sy "t") (sy "w")))) (sq .cos (tMul (sy "t") (sy "w"))))
    (query (tAdd (tNeg (sq .sin anyE)) (n 1)))) = true := by decide +kernel

end Simpy.Conform
