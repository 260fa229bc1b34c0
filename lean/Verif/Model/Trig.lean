import Verif.Model.Ctors

/-!
# `log(...)` and the trigonometric constructors (expr.py:1549-2005)

`trigCtor O n f i` is `f(i)` with `n` stack levels left; it uses the constructor stack `ctors O (n-1)` for
arithmetic.  The class-level cache of special values is not modelled (it cannot change results), and only the
entry that is looked up is computed (Python computes the whole table on first use).
-/

namespace Simpy
open Expr

mutual
/-- `contains_cls(expr, cls)` (regex.py:368-372), `expr.has(cls)` (expr.py:235-238), for the class recognised
by `p`. -/
def containsCls (p : Expr → Bool) : Expr → Bool
  | sum ts => p (sum ts) || containsClsL p ts
  | prod ts => p (prod ts) || containsClsL p ts
  | pow b x => p (pow b x) || (containsCls p b || containsCls p x)
  | log i b => p (log i b) || (containsCls p i || containsCls p b)
  | trig f i => p (trig f i) || containsCls p i
  | absv i => p (absv i) || containsCls p i
  | t => p t
def containsClsL (p : Expr → Bool) : List Expr → Bool
  | [] => false
  | t :: r => containsCls p t || containsClsL p r
end

/-- `isinstance(e, Pi)`. -/
def isPiE : Expr → Bool
  | pi => true
  | _ => false

/-- `isinstance(e, log)`. -/
def isLog : Expr → Bool
  | log _ _ => true
  | _ => false

/-- `expr.has(Pi)`. -/
def hasPi (e : Expr) : Bool := containsCls isPiE e

/-- `log.__new__` followed by `__init__` (expr.py:1589-1610). If `__new__` returns an existing `log`, Python runs
`__init__` on it and ties it into a cycle: `Err.cyclic`. -/
def logCtor (O : Oracle) (i b : Expr) : R Expr :=
  let back (r : Expr) : R Expr :=
    match r with
    | log _ _ => .error .cyclic
    | r => .ok r
  let rest : R Expr :=
    match i with
    | flt v =>
      let x : PyNum := match v with | .nan => .nan | .fin q => .fin q
      if beq O b euler then do
        let l ← O.log x
        return const l
      else
        match b with
        | flt w => do
          let y : PyNum := match w with | .nan => .nan | .fin q => .fin q
          let l ← O.log x
          let m ← O.log y
          let d ← O.div l m
          return const d
        | _ => .ok (log i b)
    | _ => .ok (log i b)
  if beq O i (rat 1) then .ok (rat 0)
  else if beq O i b then .ok (rat 1)
  else
    match i with
    | pow c x => if beq O c b then back x else rest
    | _ => rest

/-- `sqrt(x)` (expr.py:1622-1624). -/
def opSqrt (O : Oracle) (C : Ctors) (x : Expr) : R Expr := opPow O C x (rat (1 / 2))

/-- `_SPECIAL_KEYS` (expr.py:1661-1678). -/
def specialKeys : List ℚ :=
  [0, 1 / 6, 1 / 4, 1 / 3, 1 / 2, 2 / 3, 3 / 4, 5 / 6, 1, 7 / 6, 5 / 4, 4 / 3, 3 / 2, 5 / 3, 7 / 4, 11 / 6]

/-- `1 / sqrt(2)`, `-1 / sqrt(2)`. -/
def overSqrt2 (O : Oracle) (C : Ctors) (k : ℚ) : R Expr := do
  let s ← opSqrt O C (rat 2)
  opDiv C (rat k) s

/-- `sqrt(3) / 2`. -/
def sqrt3Over2 (O : Oracle) (C : Ctors) : R Expr := do
  let s ← opSqrt O C (rat 3)
  opDiv C s (rat 2)

/-- `-sqrt(3) / 2`. -/
def negSqrt3Over2 (O : Oracle) (C : Ctors) : R Expr := do
  let s ← opSqrt O C (rat 3)
  let m ← opNeg C s
  opDiv C m (rat 2)

/-- `sin.special_values` (expr.py:1832-1851). -/
def sinSpecial (O : Oracle) (C : Ctors) (k : ℚ) : R Expr :=
  if k = 0 then .ok (rat 0)
  else if k = 1 / 6 then .ok (rat (1 / 2))
  else if k = 1 / 4 then overSqrt2 O C 1
  else if k = 1 / 3 then sqrt3Over2 O C
  else if k = 1 / 2 then .ok (rat 1)
  else if k = 2 / 3 then sqrt3Over2 O C
  else if k = 3 / 4 then overSqrt2 O C 1
  else if k = 5 / 6 then .ok (rat (1 / 2))
  else if k = 1 then .ok (rat 0)
  else if k = 7 / 6 then opNeg C (rat (1 / 2))
  else if k = 5 / 4 then overSqrt2 O C (-1)
  else if k = 4 / 3 then negSqrt3Over2 O C
  else if k = 3 / 2 then opNeg C (rat 1)
  else if k = 5 / 3 then negSqrt3Over2 O C
  else if k = 7 / 4 then overSqrt2 O C (-1)
  else if k = 11 / 6 then opNeg C (rat (1 / 2))
  else .error .key

/-- `cos.special_values` (expr.py:1871-1890). -/
def cosSpecial (O : Oracle) (C : Ctors) (k : ℚ) : R Expr :=
  if k = 0 then .ok (rat 1)
  else if k = 1 / 6 then sqrt3Over2 O C
  else if k = 1 / 4 then overSqrt2 O C 1
  else if k = 1 / 3 then .ok (rat (1 / 2))
  else if k = 1 / 2 then .ok (rat 0)
  else if k = 2 / 3 then opNeg C (rat (1 / 2))
  else if k = 3 / 4 then overSqrt2 O C (-1)
  else if k = 5 / 6 then negSqrt3Over2 O C
  else if k = 1 then .ok (rat (-1))
  else if k = 7 / 6 then negSqrt3Over2 O C
  else if k = 5 / 4 then overSqrt2 O C (-1)
  else if k = 4 / 3 then opNeg C (rat (1 / 2))
  else if k = 3 / 2 then opNeg C (rat 0)
  else if k = 5 / 3 then .ok (rat (1 / 2))
  else if k = 7 / 4 then overSqrt2 O C 1
  else if k = 11 / 6 then sqrt3Over2 O C
  else .error .key

/-- `cls.special_values[key]` for every class (expr.py:1832-2005). The tables of the inverse functions are
comprehensions `{v: k for k, v in sin.special_values}` over the dict's *keys*, which are strings: unpacking
`"0"` raises ValueError. -/
def specialValue (O : Oracle) (C : Ctors) (f : TrigFn) (k : ℚ) : R Expr :=
  match f with
  | .sin => sinSpecial O C k
  | .cos => cosSpecial O C k
  | .tan => do
    let s ← sinSpecial O C k
    let c ← cosSpecial O C k
    opDiv C s c
  | .csc => do
    let s ← sinSpecial O C k
    opDiv C (rat 1) s
  | .sec => do
    let c ← cosSpecial O C k
    opDiv C (rat 1) c
  | .cot => do
    let c ← cosSpecial O C k
    let s ← sinSpecial O C k
    opDiv C c s
  | .asin | .acos | .atan => .error .value

/-- `cls._period` (expr.py:1818-1820, 1909, 1959). -/
def TrigFn.period : TrigFn → ℚ
  | .tan | .cot => 1
  | _ => 2

/-- `Fraction % Fraction`. -/
def ratMod (a m : ℚ) : ℚ := a - m * ⌊a / m⌋

/-- The loop of expr.py:1751-1759: the first term of the sum that is a multiple of the period; `none` if there
is none. -/
def findPeriod (C : Ctors) (per : ℚ) : List Expr → R (Option Expr)
  | [] => .ok none
  | t :: r =>
    if hasPi t then do
      let c ← opDiv C t pi
      match c with
      | rat q => if ratMod q per = 0 then return some t else findPeriod C per r
      | _ => findPeriod C per r
    else findPeriod C per r

/-- `cls.reciprocal_class` for the classes that have one (expr.py:1827-1830, ...). -/
def TrigFn.recip : TrigFn → Option TrigFn
  | .sin => some .csc
  | .cos => some .sec
  | .tan => some .cot
  | .csc => some .sin
  | .sec => some .cos
  | .cot => some .tan
  | _ => none

/-- `_double_simplification_dict` (expr.py:1687-1706); the entries for asec, acsc, acot are unreachable because
those classes do not exist. -/
def doubleSimp (O : Oracle) (C : Ctors) (f g : TrigFn) (x : Expr) : R Expr := do
  let x2 ← opPow O C x (rat 2)
  match f, g with
  | .sin, .acos => do
    let z ← opSub C (rat 1) x2
    opSqrt O C z
  | .sin, .atan => do
    let z ← opAdd C (rat 1) x2
    let s ← opSqrt O C z
    opDiv C x s
  | .cos, .asin => do
    let z ← opSub C (rat 1) x2
    opSqrt O C z
  | .cos, .atan => do
    let z ← opAdd C (rat 1) x2
    let s ← opSqrt O C z
    opDiv C (rat 1) s
  | .tan, .asin => do
    let z ← opSub C (rat 1) x2
    let s ← opSqrt O C z
    opDiv C x s
  | .tan, .acos => do
    let z ← opSub C (rat 1) x2
    let s ← opSqrt O C z
    opDiv C s x
  | _, _ => .error .key

/-- The condition of expr.py:1769-1774: `inner.is_inverse and inner.func == cls.reciprocal_class.func or not
inner.is_inverse and inner.reciprocal_class.func == cls.func`. -/
def recipMatch (f g : TrigFn) : Bool :=
  if g.isInverse then (match f.recip with | some h => g.func == h.func | none => false)
  else (match g.recip with | some h => h.func == f.func | none => false)

/-- Step 2 of `TrigFunction.__new__` (expr.py:1761-1786): a trig function of an inverse trig function or vice
versa; `none` means "not applicable". -/
def trigOfTrig (O : Oracle) (C : Ctors) (f : TrigFn) (i : Expr) : R (Option Expr) :=
  match i with
  | trig g w =>
    if g.isInverse != f.isInverse then
      if g.func == f.func then .ok (some w)
      else if recipMatch f g then do
        let r ← opDiv C (rat 1) w
        return some r
      else if !f.isInverse then
        match f with
        | .sin | .cos | .tan => do
          let r ← doubleSimp O C f g w
          return some r
        | _ => do
          let r ← doubleSimp O C (f.recip.getD f) g w
          let r' ← opDiv C (rat 1) r
          return some r'
      else .ok none
    else .ok none
  | _ => .ok none

/-- Steps 2-3 and the default (expr.py:1761-1793). -/
def trigRest (O : Oracle) (C : Ctors) (f : TrigFn) (i : Expr) : R Expr := do
  match ← trigOfTrig O C f i with
  | some r => return r
  | none =>
    match i with
    | flt v => do
      let r ← O.trig f (match v with | .nan => .nan | .fin q => .fin q)
      return const r
    | _ => return trig f i

/-- The period part of step 1 (expr.py:1750-1759). -/
def trigPeriod (O : Oracle) (C : Ctors) (f : TrigFn) (i : Expr) : R Expr :=
  match i with
  | sum ts => do
    match ← findPeriod C f.period ts with
    | some t => do
      let j ← opSub C i t
      return trig f j
    | none => trigRest O C f i
  | _ => trigRest O C f i

/-- `TrigFunction.__new__` without skip_checks (expr.py:1735-1793). -/
def trigNew (O : Oracle) (C : Ctors) (f : TrigFn) (i : Expr) : R Expr :=
  if beq O i (rat 0) then specialValue O C f 0
  else if !f.isInverse && hasPi i then do
    match ← opDiv C i pi with
    | rat q =>
      if ratMod q 2 ∈ specialKeys then specialValue O C f (ratMod q 2)
      else trigPeriod O C f i
    | _ => trigPeriod O C f i
  else trigRest O C f i

/-- `sin.__new__`, `tan.__new__` (expr.py:1856-1860, 1915-1919): odd; `cos.__new__` (1895-1905): a `cos` object
gets the negated argument; all other classes use `TrigFunction.__new__`. -/
def trigCtor (O : Oracle) : Nat → TrigFn → Expr → R Expr
  | 0, _, _ => .error .recursion
  | n + 1, f, i =>
    let C := ctors O n
    let odd : R Expr :=
      if i.isSubtraction then do
        let ni ← opNeg C i
        let s ← trigCtor O n f ni
        opNeg C s
      else trigNew O C f i
    match f with
    | .sin => odd
    | .tan => odd
    | .cos => do
      let r ← trigNew O C .cos i
      match r with
      | trig .cos _ =>
        if i.isSubtraction then do
          let ni ← opNeg C i
          return trig .cos ni
        else return r
      | _ => return r
    | _ => trigNew O C f i

end Simpy
