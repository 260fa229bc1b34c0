import Verif.Model.Exact
import Verif.Model.Engine
import Verif.Model.Latex
import Verif.Model.Nesting

/-!
# The language of the project's own tests

What /repo/tests says in Python, said about the model: expressions are built by the operators and constructors (an exception
anywhere is the result), and the assertions of tests/test_utils.py are Booleans. The files next to this one are the tests. They are
evaluated by the kernel, with the exact oracle and 40 levels of recursion; assertions about floats are left out.
-/

namespace Simpy.Conform
open Simpy Expr

/-- A Python expression that is an Expr or raises. -/
abbrev T := R Expr
/-- The oracle the tests run with. -/
abbrev O : Oracle := exactOracle
/-- The recursion limit the tests run with. -/
abbrev fuel : Nat := 40
/-- The constructors the tests run with. -/
abbrev C : Ctors := ctors exactOracle 40
/-- A number: expr.py:70-102 (`_cast`, `cast`). -/
def n (q : ℚ) : T := .ok (rat q)
/-- `Symbol(s)`: expr.py:780-812. -/
def sy (s : String) : T := .ok (sym s.toList)
/-- A function of one expression. -/
def un (f : Expr → R Expr) (a : T) : T := do f (← a)
/-- A function of two expressions. -/
def bin (f : Expr → Expr → R Expr) (a b : T) : T := do f (← a) (← b)
/-- `a + b`: expr.py:134-139. -/
def tAdd := bin (opAdd C)
/-- `a - b`: expr.py:142-147. -/
def tSub := bin (opSub C)
/-- `a * b`: expr.py:150-155. -/
def tMul := bin (opMul C)
/-- `a / b`: expr.py:170-179. -/
def tDiv := bin (opDiv C)
/-- `a ** b`: expr.py:158-163. -/
def tPow := bin (opPow O C)
/-- `-a`: expr.py:181-182. -/
def tNeg := un (opNeg C)
/-- `sqrt(a)`: expr.py:1622-1624. -/
def tSqrt := un (opSqrt O C)
/-- `abs(a)`: expr.py:184-185. -/
def tAbs := un C.abs
/-- `Power(a, b)`: expr.py:1347. -/
def tPower := bin C.pow
/-- `sin(a)`, ...: expr.py:1657-2005. -/
def tTrig (f : TrigFn) := un (trigCtor O fuel f)
/-- `log(a)`: expr.py:1550-1619. -/
def tLog := un (fun i => logCtor O i euler)
/-- `Sum(l)`: expr.py:869. -/
def tSum (l : List T) : T := do C.sum (← l.mapM id)
/-- `Prod(l)`: expr.py:1141. -/
def tProd (l : List T) : T := do C.prod (← l.mapM id)
/-- `a.diff(v)`: expr.py:241 and the overrides. -/
def tDiff (v : String) := un (diffE O fuel v.toList)
/-- `a.expand()`: expr.py:192-195. -/
def tExpand := un (expandE O fuel)
/-- `a.simplify()`: simplify/simplify.py:247-270. -/
def tSimplify := un (simplifyE O fuel)
/-- `a.factor()`: expr.py:956-1026. -/
def tFactor := un (fun e => match e with | sum ts => factorSum C ts | e => .ok e)
/-- `e.subs({v: a})`: expr.py:212-216 and the overrides. -/
def tSubs (v : String) (a e : T) : T := do subsE O fuel (single v.toList (← a)) (← e)
/-- The value of an optional result; None is the ValueError that `isNone` asks for. -/
def given (r : R (Option Expr)) : T := do
  match ← r with
  | some r => return r
  | none => .error .value
/-- `product_to_sum_unit(a)`: simplify/product_to_sum.py:28-35. -/
def tPtsU := un (fun e => given (productToSumUnit O fuel e))
/-- Names for new variables: `random_id` (utils.py), different at different nodes. -/
def names : Supply := fun l => 'u' :: '_' :: (l.map (fun i => Char.ofNat (97 + i)))
/-- The time limit, in cycles. -/
def cycles : Nat := 200
/-- `integrate(e)`: integration.py:55-108. -/
def tInt (e : T) : T := do given (integrateTop O fuel names false cycles (← e) .nothing)
/-- `integrate(e, v)`: integration.py:55-108. -/
def tIntV (v : String) (e : T) : T := do given (integrateTop O fuel names false cycles (← e) (.var v.toList))
/-- `integrate(e, (a, b))`: integration.py:55-108. -/
def tIntB (a b e : T) : T := do given (integrateTop O fuel names false cycles (← e) (.between (← a) (← b)))
/-- `integrate(e, (v, a, b))`: integration.py:55-108. -/
def tIntF (v : String) (a b e : T) : T := do given (integrateTop O fuel names false cycles (← e) (.full v.toList (← a) (← b)))

/-- `assert_eq_strict(a, b)`, `a == b`: tests/test_utils.py:70-74. -/
def strict (a b : T) : R Bool := do return beq O (← a) (← b)
/-- `simplify_to_same_standard(e)`: tests/test_utils.py:45-57. -/
def standard (e : Expr) : R Expr := do
  let e2 ← if ← expandableE O fuel e then expandE O fuel e else .ok e
  let e3 ← trigPart O fuel e2
  logPart O fuel e3.1
/-- `assert_eq_value(a, b)`: tests/test_utils.py:61-67. -/
def sameValue (a b : T) : R Bool := do
  if beq O (← a) (← b) then return true
  else do
    let d ← standard (← tSub a b)
    return beq O d (rat 0)
/-- `assert_eq_plusc(a, b, *vs)`: tests/test_utils.py:23-42. -/
def plusC (vs : List String) (a b : T) : R Bool := do
  let d ← tSub a b
  let vs := vs.map String.toList
  if (syms d).isEmpty || (!vs.isEmpty && vs.all (fun v => !(syms d).contains v)) then return true
  else do
    let d ← standard d
    if vs.isEmpty then return (syms d).isEmpty else return vs.all (fun v => !(syms d).contains v)
/-- `not b`. -/
def fails (b : R Bool) : R Bool := do return !(← b)
/-- `a.expandable()`: expr.py:187-190. -/
def able (a : T) : R Bool := do expandableE O fuel (← a)
/-- `repr(a) == s`. -/
def text (a : T) (s : String) : R Bool := do return (← C.repr (← a)) == s.toList
/-- `repr(a) == repr(b)`. -/
def sameText (a b : T) : R Bool := do return (← C.repr (← a)) == (← C.repr (← b))
/-- `s.replace(" ", "")`. -/
def strip (s : Str) : Str := s.filter (· != ' ')
/-- `assert_latex(a, s)`: tests/test_latex.py:8-10. -/
def tex (a : T) (s : String) : R Bool := do return strip (← latexE O fuel (← a)) == strip s.toList
/-- `nesting(a, v) == k`: expr.py:28-45. -/
def nests (v : String) (a : T) (k : Nat) : R Bool := do return (← nesting O (some v.toList) (← a)) == k
/-- `count(a, q) == k`: regex.py:361-365. -/
def counts (a q : T) (k : Nat) : R Bool := do return count O (← q) (← a) == k
/-- `a.is_subtraction is b`: expr.py:267-269. -/
def isSub (a : T) (b : Bool) : R Bool := do return isSubtraction (← a) == b
/-- `r is None`. -/
def isNone (r : T) : R Bool :=
  match r with
  | .error .value => .ok true
  | .error e => .error e
  | .ok _ => .ok false
/-- `a and b`. -/
def rand (a b : R Bool) : R Bool := do if ← a then b else return false
/-- `a or b`. -/
def ror (a b : R Bool) : R Bool := do if ← a then return true else b
/-- The assertion passes: it is true and nothing is raised. -/
def holds (b : R Bool) : Bool :=
  match b with
  | .ok true => true
  | _ => false

end Simpy.Conform
