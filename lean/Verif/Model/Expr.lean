import Verif.Model.Py

/-!
# Expressions

`Expr` has one constructor per class of `/repo/src/simpy/expr.py` (and `Any_` of regex.py) that can occur
inside an expression.  Not modelled: `NaN` objects (expr.py:693-700; no code path of the library creates
one, since `value == float("NaN")` is always false), the private `_strictly_positive` flag (always
`False` unless a caller pokes it) and the per-object caches, which only memoise.
-/

namespace Simpy

/-- expr.py:463 `Float`, 497 `Rat`, 631 `Pi`, 642 `E`, 655 `Infinity`, 674 `NegInfinity`, 780 `Symbol`,
869 `Sum`, 1141 `Prod`, 1347 `Power`, 1550 `log`, 1823-2005 trig classes, 2008 `Abs`; regex.py:15 `Any_`
(without its unused `is_multiple_terms` flag). -/
inductive Expr
  | rat (q : ℚ)
  | flt (x : F64)
  | pi
  | euler
  | inf
  | neginf
  | sym (name : Str)
  | any (key : Str)
  | sum (ts : List Expr)
  | prod (ts : List Expr)
  | pow (base exponent : Expr)
  | log (inner base : Expr)
  | trig (f : TrigFn) (inner : Expr)
  | absv (inner : Expr)

namespace Expr

/-- `e.children()`: expr.py:228, 312-313, 408-409, 805-806, 1492-1493, 1521-1522, 1576-1577 and the overrides. -/
def children : Expr → List Expr
  | sum ts => ts
  | prod ts => ts
  | pow b x => [b, x]
  | log i b => [i, b]
  | trig _ i => [i]
  | absv i => [i]
  | _ => []

mutual
/-- Identity of trees (used to run the model and in specifications; not a Python function). -/
def same : Expr → Expr → Bool
  | rat a, rat b => a == b
  | flt a, flt b => a == b
  | pi, pi => true
  | euler, euler => true
  | inf, inf => true
  | neginf, neginf => true
  | sym a, sym b => a == b
  | any a, any b => a == b
  | sum a, sum b => sameL a b
  | prod a, prod b => sameL a b
  | pow a b, pow c d => same a c && same b d
  | log a b, log c d => same a c && same b d
  | trig f a, trig g b => f == g && same a b
  | absv a, absv b => same a b
  | _, _ => false
def sameL : List Expr → List Expr → Bool
  | [], [] => true
  | a :: r, b :: s => same a b && sameL r s
  | _, _ => false
end

mutual
theorem same_iff : ∀ a b : Expr, same a b = true ↔ a = b := by
  intro a b
  cases a <;> cases b <;> simp [same]
  · exact sameL_iff _ _
  · exact sameL_iff _ _
  · rw [same_iff, same_iff]
  · rw [same_iff, same_iff]
  · intro _; exact same_iff _ _
  · exact same_iff _ _
theorem sameL_iff : ∀ a b : List Expr, sameL a b = true ↔ a = b := by
  intro a b
  cases a with
  | nil => cases b <;> simp [sameL]
  | cons x r =>
    cases b with
    | nil => simp [sameL]
    | cons y s => simp only [sameL, Bool.and_eq_true, List.cons.injEq]; rw [same_iff, sameL_iff]
end

instance : DecidableEq Expr := fun a b => decidable_of_iff _ (same_iff a b)

/-- `isinstance(e, AccumulaTuple)` (expr.py:710): Rat, Infinity, NegInfinity, Float. -/
def isAcc : Expr → Bool
  | rat _ | flt _ | inf | neginf => true
  | _ => false

/-- `isinstance(e, Num)`. -/
def isNum : Expr → Bool
  | rat _ | flt _ | inf | neginf | pi | euler => true
  | _ => false

/-- `isinstance(e, Rat)`. -/
def isRat : Expr → Bool
  | rat _ => true
  | _ => false

/-- `isinstance(e, Sum)`. -/
def isSum : Expr → Bool
  | sum _ => true
  | _ => false

/-- `isinstance(e, Prod)`. -/
def isProd : Expr → Bool
  | prod _ => true
  | _ => false

/-- `isinstance(e, Power)`. -/
def isPow : Expr → Bool
  | pow _ _ => true
  | _ => false

/-- `isinstance(e, Float)`. -/
def isFlt : Expr → Bool
  | flt _ => true
  | _ => false

/-- `isinstance(e, Symbol)`. -/
def isSym : Expr → Bool
  | sym _ => true
  | _ => false

mutual
/-- Names in `e.symbols()` (expr.py:244-252, 808-809), with repetitions and in tree order.  Python removes
duplicates through a `set`, so its order is unspecified; callers only use membership and emptiness
(or the single element when there is exactly one name). -/
def syms : Expr → List Str
  | sym s => [s]
  | sum ts => symsL ts
  | prod ts => symsL ts
  | pow b x => syms b ++ syms x
  | log i b => syms i ++ syms b
  | trig _ i => syms i
  | absv i => syms i
  | _ => []
def symsL : List Expr → List Str
  | [] => []
  | t :: r => syms t ++ symsL r
end

mutual
/-- Keys in `get_anys(e)` (regex.py:89-104), with repetitions. -/
def anys : Expr → List Str
  | any k => [k]
  | sum ts => anysL ts
  | prod ts => anysL ts
  | pow b x => anys b ++ anys x
  | log i b => anys i ++ anys b
  | trig _ i => anys i
  | absv i => anys i
  | _ => []
def anysL : List Expr → List Str
  | [] => []
  | t :: r => anys t ++ anysL r
end

/-- `len(t.symbols()) > 0 or len(get_anys(t)) > 0` (expr.py:2090, and negated at 331). -/
def varies (t : Expr) : Bool := !(syms t).isEmpty || !(anys t).isEmpty

mutual
/-- `e.contains(var)` (expr.py:231-233). -/
def contains (v : Str) : Expr → Bool
  | sym s => s == v
  | sum ts => containsL v ts
  | prod ts => containsL v ts
  | pow b x => contains v b || contains v x
  | log i b => contains v i || contains v b
  | trig _ i => contains v i
  | absv i => contains v i
  | _ => false
def containsL (v : Str) : List Expr → Bool
  | [] => false
  | t :: r => contains v t || containsL v r
end

mutual
/-- `e.is_subtraction`: expr.py:267-269 (default), 443-444 (Num: value < 0), 1029-1030 (Sum: all terms),
1266-1267 (Prod: first factor is a negative Rat), 1507-1509 (Power). A NaN float compares false. -/
def isSubtraction : Expr → Bool
  | rat q => decide (q < 0)
  | flt (.fin q) => decide (q < 0)
  | neginf => true
  | sum ts => isSubtractionL ts
  | prod (rat q :: _) => decide (q < 0)
  | _ => false
def isSubtractionL : List Expr → Bool
  | [] => true
  | t :: r => isSubtraction t && isSubtractionL r
end

mutual
/-- `a == b`. Rat/Float/Infinity: `Num.__eq__` (expr.py:423-424) compares values, so a Rat can equal a Float;
`Pi` has the dataclass `__eq__`, which defers to the other operand's `Num.__eq__`; `E.__eq__` is
`isinstance(other, E)` (expr.py:651-652); Symbol: expr.py:802-803; Any_: regex.py:33-39; Sum, Prod, Power, log,
and SingleFunc subclasses: dataclass `__eq__`, same class and equal fields.
Simplification: CPython's list comparison treats identical objects as equal, which differs from `==`
only for a NaN float. -/
def beq (O : Oracle) : Expr → Expr → Bool
  | rat a, rat b => a == b
  | rat a, flt (.fin b) => a == b
  | flt (.fin a), rat b => a == b
  | flt (.fin a), flt (.fin b) => a == b
  | rat a, pi => O.isPi a
  | pi, rat a => O.isPi a
  | flt (.fin a), pi => O.isPi a
  | pi, flt (.fin a) => O.isPi a
  | rat a, euler => O.isE a
  | flt (.fin a), euler => O.isE a
  | pi, pi => true
  | euler, euler => true
  | inf, inf => true
  | neginf, neginf => true
  | sym a, sym b => a == b
  | any a, any b => a == b
  | sum a, sum b => beqL O a b
  | prod a, prod b => beqL O a b
  | pow a b, pow c d => beq O a c && beq O b d
  | log a b, log c d => beq O a c && beq O b d
  | trig f a, trig g b => f == g && beq O a b
  | absv a, absv b => beq O a b
  | _, _ => false
/-- `==` on lists of expressions. -/
def beqL (O : Oracle) : List Expr → List Expr → Bool
  | [], [] => true
  | a :: r, b :: s => beq O a b && beqL O r s
  | _, _ => false
end

/-- `c.value` of an accumulateable constant. -/
def value : Expr → PyNum
  | rat q => .frac q
  | flt (.fin q) => .fin q
  | flt .nan => .nan
  | inf => .pinf
  | neginf => .ninf
  | _ => .nan

/-- `Const(value)` (expr.py:455-460) with `Float.__new__` (expr.py:468-478). -/
def const : PyNum → Expr
  | .frac q => rat q
  | .fin q => flt (.fin q)
  | .pinf => inf
  | .ninf => neginf
  | .nan => flt .nan

end Expr
end Simpy
