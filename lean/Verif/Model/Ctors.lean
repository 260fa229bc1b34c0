import Verif.Model.Expr
import Verif.Model.Sort

/-!
# The simplifying constructors `Sum`, `Prod`, `Power`, `Abs` and `repr`

Every function takes `C : Ctors`, the entry points it may call (one Python stack level further down);
the bottom of this file ties the knot with fuel.
-/

namespace Simpy
open Expr

/-- Entry points that call each other recursively: `Sum(ts)`, `Prod(ts)`, `Power(b, x)`, `Abs(e)` and
`repr(e)`. -/
structure Ctors where
  sum : List Expr → R Expr
  prod : List Expr → R Expr
  pow : Expr → Expr → R Expr
  abs : Expr → R Expr
  repr : Expr → R Str

/-! ## `skip_checks=True` construction -/

/-- `Prod(terms, skip_checks=True)` (expr.py:1147-1153, 1178-1182).  With a single term `__new__` returns that
term, and if it is itself a `Prod` then `__init__` runs on it again and `assert len(self.terms) >= 2` fails. -/
def mkProdSkip : List Expr → R Expr
  | [] => .ok (rat 1)
  | [t] => if t.isProd then .error .assertion else .ok t
  | ts => .ok (prod ts)

/-- `Sum(terms, skip_checks=True)` (expr.py:881-886, 903-910). -/
def mkSumSkip : List Expr → R Expr
  | [] => .ok (rat 0)
  | [t] => if t.isSum then .error .assertion else .ok t
  | ts => .ok (sum ts)

/-! ## Operators -/

/-- `a + b`: expr.py:133-139, Rat overrides 524-534. -/
def opAdd (C : Ctors) (a b : Expr) : R Expr :=
  match a, b with
  | rat p, rat q => .ok (rat (p + q))
  | _, _ => C.sum [a, b]

/-- `a * b`: expr.py:149-155, Rat overrides 548-558. -/
def opMul (C : Ctors) (a b : Expr) : R Expr :=
  match a, b with
  | rat p, rat q => .ok (rat (p * q))
  | _, _ => C.prod [a, b]

/-- `a - b`: expr.py:141-147 (`self + (-1 * other)`), Rat overrides 536-546. -/
def opSub (C : Ctors) (a b : Expr) : R Expr :=
  match a, b with
  | rat p, rat q => .ok (rat (p - q))
  | _, _ => do
    let m ← opMul C (rat (-1)) b
    opAdd C a m

/-- `a / b`: expr.py:169-179, Rat overrides 560-570. -/
def opDiv (C : Ctors) (a b : Expr) : R Expr :=
  match a, b with
  | rat p, rat q =>
    if q ≠ 0 then .ok (rat (p / q))
    else do
      let i ← C.pow b (rat (-1))
      C.prod [a, i]
  | _, _ => do
    let i ← C.pow b (rat (-1))
    C.prod [a, i]

/-- `Fraction ** int` (fractions.py `__pow__`): exact, or ZeroDivisionError for `0 ** negative`. -/
def fracPowInt (q : ℚ) (n : ℤ) : R ℚ :=
  if q = 0 ∧ n < 0 then .error .zeroDivision else .ok (q ^ n)

/-- `a ** b`: expr.py:157-163, Rat overrides 575-587. -/
def opPow (O : Oracle) (C : Ctors) (a b : Expr) : R Expr :=
  match a, b with
  | rat p, rat q =>
    if q.den = 1 then do
      let v ← fracPowInt p q.num
      return rat v
    else do
      let _ ← O.ratPow p q
      C.pow a b
  | _, _ => C.pow a b

mutual
/-- `-a`: expr.py:181-182 (`-1 * self`), Float 489-490, Rat 572-573, Infinity 670-671, NegInfinity 689-690,
Sum 918-919 (`Sum([-t for t in self.terms])`). -/
def opNeg (C : Ctors) : Expr → R Expr
  | rat q => .ok (rat (-q))
  | flt .nan => .ok (flt .nan)
  | flt (.fin q) => .ok (flt (.fin (-q)))
  | inf => .ok neginf
  | neginf => .ok inf
  | sum ts =>
    match opNegL C ts with
    | .error e => .error e
    | .ok ts' => C.sum ts'
  | t => C.prod [rat (-1), t]
def opNegL (C : Ctors) : List Expr → R (List Expr)
  | [] => .ok []
  | t :: r =>
    match opNeg C t with
    | .error e => .error e
    | .ok t' =>
      match opNegL C r with
      | .error e => .error e
      | .ok r' => .ok (t' :: r')
end

/-! ## Flattening -/

mutual
/-- `Sum._flatten_terms` on one term (expr.py:292-310). The in-place `t._flatten()` of nested sums is a
mutation of `t` that does not change its value; it is not modelled. -/
def flatS : Expr → List Expr
  | sum ts => flatSL ts
  | t => [t]
def flatSL : List Expr → List Expr
  | [] => []
  | t :: r => flatS t ++ flatSL r
end

mutual
/-- `Prod._flatten_terms` on one term (expr.py:292-310). -/
def flatP : Expr → List Expr
  | prod ts => flatPL ts
  | t => [t]
def flatPL : List Expr → List Expr
  | [] => []
  | t :: r => flatP t ++ flatPL r
end

/-! ## Accumulating constants -/

/-- `x + y` of two constants' values: exact on Fractions, floating point otherwise. -/
def numAdd (O : Oracle) : PyNum → PyNum → R PyNum
  | .frac a, .frac b => .ok (.frac (a + b))
  | a, b => O.add a b

/-- `x * y` of two constants' values. -/
def numMul (O : Oracle) : PyNum → PyNum → R PyNum
  | .frac a, .frac b => .ok (.frac (a * b))
  | a, b => O.mul a b

/-- `reduce(op, values, acc)`. -/
def foldNum (op : PyNum → PyNum → R PyNum) : PyNum → List PyNum → R PyNum
  | acc, [] => .ok acc
  | acc, v :: r =>
    match op acc v with
    | .error e => .error e
    | .ok acc' => foldNum op acc' r

/-- `accumulate(*consts)` (expr.py:713-729), type "sum". -/
def accumulateSum (O : Oracle) : List Expr → R Expr
  | [c] => .ok c
  | cs =>
    match foldNum (numAdd O) (.frac 0) (cs.map value) with
    | .error e => .error e
    | .ok v => .ok (const v)

/-- `accumulate(*consts, type_="prod")` (expr.py:713-729). -/
def accumulateProd (O : Oracle) : List Expr → R Expr
  | [c] => .ok c
  | cs =>
    match foldNum (numMul O) (.frac 1) (cs.map value) with
    | .error e => .error e
    | .ok v => .ok (const v)

/-! ## Like terms of a sum -/

/-- `_deconstruct_prod(expr)` (expr.py:1033-1061): the numeric factors (or `[1]`) and the other factors. -/
def deconProd : Expr → List Expr × List Expr
  | prod ts =>
    let cs := ts.filter isAcc
    (if cs.isEmpty then [rat 1] else cs, ts.filter (fun t => !isAcc t))
  | t => ([rat 1], [t])

/-- The term that replaces a group of like terms (expr.py:851-857): nothing if the coefficients cancel. -/
def likeTerm (O : Oracle) (coeffs ncf : List Expr) : R (Option Expr) := do
  let coeff ← accumulateSum O coeffs
  if beq O coeff (rat 0) then return none
  else if beq O coeff (rat 1) then
    let t ← mkProdSkip ncf
    return some t
  else
    let t ← mkProdSkip (coeff :: ncf)
    return some t

/-- The main loop of `_combine_like_terms_sum` (expr.py:818-857): returns `(non_constant_terms, consts)`.
The Python loop blanks out later like terms with `None`; here they are removed from the remaining list.
The first argument bounds the number of iterations (the length of the list suffices). -/
def combineSumLoop (O : Oracle) : Nat → List Expr → R (List Expr × List Expr)
  | 0, _ => .ok ([], [])
  | _ + 1, [] => .ok ([], [])
  | n + 1, t :: r =>
    if t.isAcc then do
      let (nc, cs) ← combineSumLoop O n r
      return (nc, t :: cs)
    else
      let d := deconProd t
      let hits := r.filter (fun u => beqL O d.2 (deconProd u).2)
      let rest := r.filter (fun u => !beqL O d.2 (deconProd u).2)
      if hits.isEmpty then do
        let (nc, cs) ← combineSumLoop O n rest
        return (t :: nc, cs)
      else do
        let o ← likeTerm O (d.1 ++ (hits.map (fun u => (deconProd u).1)).flatten) d.2
        let (nc, cs) ← combineSumLoop O n rest
        return (o.toList ++ nc, cs)

/-- `_combine_like_terms_sum(terms)` (expr.py:815-865). -/
def combineSum (O : Oracle) (ts : List Expr) : R (List Expr) := do
  let (nc, cs) ← combineSumLoop O ts.length ts
  if cs.isEmpty then return nc
  else
    let c ← accumulateSum O cs
    if beq O c (rat 0) then return nc else return nc ++ [c]

/-! ## Sorting -/

/-- `remove_const_factor(expr)` (expr.py:2082-2105). -/
def removeConstFactor : Expr → R Expr
  | prod ts => mkProdSkip (ts.filter varies)
  | t => .ok t

/-- `max` of a non-empty list of naturals; `max([])` raises ValueError. -/
def maxNat : List Nat → R Nat
  | [] => .error .value
  | a :: r => .ok (r.foldl max a)

mutual
/-- `_nesting_without_factor` (expr.py:317-336): complexity, not counting constant factors. -/
def nwf : Expr → R Nat
  | sym _ => .ok 1
  | any _ => .ok 1
  | prod ts =>
    match ts.filter varies with
    | [] => .ok 0
    | [t] => if t.isProd then .error .assertion else do
        let l ← nwfKeep ts
        return l.headD 0
    | _ => do
        let l ← nwfKeep ts
        let m ← maxNat l
        return 1 + m
  | sum ts => if varies (sum ts) then do
        let l ← nwfAll ts
        let m ← maxNat l
        return 1 + m
      else .ok 0
  | pow b x => if varies (pow b x) then do
        let m ← nwf b
        let k ← nwf x
        return 1 + max m k
      else .ok 0
  | log i b => if varies (log i b) then do
        let m ← nwf i
        let k ← nwf b
        return 1 + max m k
      else .ok 0
  | trig f i => if varies (trig f i) then do
        let m ← nwf i
        return 1 + m
      else .ok 0
  | absv i => if varies (absv i) then do
        let m ← nwf i
        return 1 + m
      else .ok 0
  | _ => .ok 0
/-- over all children -/
def nwfAll : List Expr → R (List Nat)
  | [] => .ok []
  | t :: r => do
    let m ← nwf t
    let l ← nwfAll r
    return m :: l
/-- over the children that contain a symbol (those `remove_const_factor` keeps) -/
def nwfKeep : List Expr → R (List Nat)
  | [] => .ok []
  | t :: r =>
    if varies t then do
      let m ← nwf t
      let l ← nwfKeep r
      return m :: l
    else nwfKeep r
end

mutual
/-- `_symboless_nest` (expr.py:338-341). -/
def symbolessNest : Expr → Nat
  | rat _ => 1
  | sum ts => 2 + symbolessNestL ts
  | prod ts => 2 + symbolessNestL ts
  | pow b x => 2 + max (symbolessNest b) (symbolessNest x)
  | log i b => 2 + max (symbolessNest i) (symbolessNest b)
  | trig _ i => 2 + symbolessNest i
  | absv i => 2 + symbolessNest i
  | _ => 2
def symbolessNestL : List Expr → Nat
  | [] => 0
  | t :: r => max (symbolessNest t) (symbolessNestL r)
end

/-- `_deconstruct_const_power` (expr.py:360-364). -/
def constPower (t : Expr) : R ℚ := do
  match ← removeConstFactor t with
  | pow _ (rat q) => return q
  | _ => return 1

/-- `_compare(a, b) < 0` (expr.py:343-378). -/
def cmpLt (C : Ctors) (a b : Expr) : R Bool := do
  let na ← nwf a
  let nb ← nwf b
  if na = 0 ∧ nb = 0 then
    let sa := symbolessNest a
    let sb := symbolessNest b
    if sa ≠ sb then return decide (sa < sb)
    else
      let ra ← C.repr a
      let rb ← C.repr b
      return !strLt rb ra
  else if na ≠ nb then return decide (na < nb)
  else
    let pa ← constPower a
    let pb ← constPower b
    if pa ≠ pb then return decide (pa < pb)
    else
      let ra ← C.repr a
      let rb ← C.repr b
      return !strLt rb ra

/-- `Associative._sort_terms` (expr.py:315-381). -/
def sortTerms (C : Ctors) (ts : List Expr) : R (List Expr) := pySorted (cmpLt C) ts

/-! ## `Sum(terms)` -/

/-- `Sum.__new__` without skip_checks (expr.py:874-901), with the reversed sort of expr.py:912-916. -/
def sumCtor (O : Oracle) (C : Ctors) (ts : List Expr) : R Expr := do
  let fs ← combineSum O (flatSL ts)
  match fs with
  | [] => return rat 0
  | [t] => return t
  | _ =>
    let s ← sortTerms C fs
    return sum s.reverse

/-! ## Like terms of a product -/

/-- `deconstruct_power(expr)` (expr.py:1064-1076). -/
def deconPow : Expr → Expr × Expr
  | pow b x => (b, x)
  | t => (t, rat 1)

/-- `expo += other_expo` for each hit. -/
def foldAdd (C : Ctors) : Expr → List Expr → R Expr
  | acc, [] => .ok acc
  | acc, x :: r =>
    match opAdd C acc x with
    | .error e => .error e
    | .ok acc' => foldAdd C acc' r

/-- What a group of factors with equal bases becomes (expr.py:1123-1129). -/
def likeFactor (O : Oracle) (C : Ctors) (base expo : Expr) : R (Option Expr) :=
  if beq O expo (rat 0) then .ok none
  else if beq O expo (rat 1) then .ok (some base)
  else
    match C.pow base expo with
    | .error e => .error e
    | .ok t => .ok (some t)

/-- The main loop of `_combine_like_terms` (expr.py:1098-1129): returns `(non_constant_terms, consts)`, with
`_add_term` (1092-1096) sorting results into the two lists. -/
def combineProdLoop (O : Oracle) (C : Ctors) : Nat → List Expr → R (List Expr × List Expr)
  | 0, _ => .ok ([], [])
  | _ + 1, [] => .ok ([], [])
  | n + 1, t :: r =>
    let base := (deconPow t).1
    let hits := r.filter (fun u => beq O (deconPow u).1 base)
    let rest := r.filter (fun u => !beq O (deconPow u).1 base)
    if hits.isEmpty then do
      let (nc, cs) ← combineProdLoop O C n rest
      if t.isAcc then return (nc, t :: cs) else return (t :: nc, cs)
    else do
      let expo ← foldAdd C (deconPow t).2 (hits.map (fun u => (deconPow u).2))
      let o ← likeFactor O C base expo
      let (nc, cs) ← combineProdLoop O C n rest
      match o with
      | none => return (nc, cs)
      | some t' => if t'.isAcc then return (nc, t' :: cs) else return (t' :: nc, cs)

/-- `_combine_like_terms(initial_terms)` (expr.py:1083-1137). -/
def combineProd (O : Oracle) (C : Ctors) (ts : List Expr) : R (List Expr) := do
  let (nc, cs) ← combineProdLoop O C ts.length ts
  if cs.isEmpty then return nc
  else
    let c ← accumulateProd O cs
    if beq O c (rat 0) then return [c]
    else if beq O c (rat 1) then return nc
    else return nc ++ [c]

/-- `Prod.__new__` without skip_checks (expr.py:1147-1176). -/
def prodCtor (O : Oracle) (C : Ctors) (ts : List Expr) : R Expr := do
  let fs ← combineProd O C (flatPL ts)
  match fs with
  | [] => return rat 1
  | [t] => return t
  | _ =>
    let s ← sortTerms C fs
    match s with
    | [c, sum us] => if beq O c (rat (-1)) then opNeg C (sum us) else return prod s
    | _ => return prod s

/-! ## `Power(b, x)` -/

/-- `n ** abs(x)` with the `isint` test (expr.py:746-749): exact for an integral exponent. -/
def intPowTest (O : Oracle) (n : ℤ) (x : ℚ) : R (Option ℤ) :=
  if x.den = 1 then .ok (some (n ^ x.num.toNat)) else O.intPow n x

/-- `Rat(a, b)` with integers; `Fraction(a, 0)` raises. -/
def mkRat2 (a b : ℤ) : R Expr :=
  if b = 0 then .error .zeroDivision else .ok (rat (a / b))

/-- `_accumulate_power(b, x)` for two rationals (expr.py:737-777); `none` is "cannot be simplified". -/
def accumulatePowerRat (O : Oracle) (C : Ctors) (b x : ℚ) : R (Option Expr) :=
  if b = 0 then
    if x > 0 then .ok (some (rat 0)) else .ok (some inf)
  else do
    let num ← intPowTest O b.num |x|
    let den ← intPowTest O b.den |x|
    match num, den with
    | some n, some d =>
      if x > 0 then
        let r ← mkRat2 n d
        return some r
      else
        let r ← mkRat2 d n
        return some r
    | _, _ =>
      if b.num = 1 ∨ (b.den ≠ 1 ∧ x < 0) then
        let r ← C.pow (rat (1 / b)) (rat (-x))
        return some r
      else if x.den % 2 = 0 ∧ b < 0 then return none
      else if b < 0 then
        let p ← C.pow (rat (-b)) (rat x)
        let r ← opMul C (rat (-1)) p
        return some r
      else
        let ans : Option Expr :=
          match num, den with
          | some n, _ =>
            if n ≠ 1 then some (prod [rat n, pow (rat b.den) (rat (-x))])
            else none
          | none, some d =>
            if d ≠ 1 then some (prod [rat (1 / d), pow (rat b.num) (rat x)]) else none
          | none, none => none
        match ans with
        | none => return none
        | some a =>
          if x > 0 then return some a
          else
            let r ← opDiv C (rat 1) a
            return some r

/-- `_accumulate_power(b, x)` (expr.py:732-777). -/
def accumulatePower (O : Oracle) (C : Ctors) (b x : Expr) : R (Option Expr) :=
  match b, x with
  | rat p, rat q => accumulatePowerRat O C p q
  | _, _ =>
    match O.pow b.value x.value with
    | .error e => .error e
    | .ok v => .ok (some (const v))

/-- `x1 % 2 == 0` for a Rat. -/
def ratEven (q : ℚ) : Bool := q.den == 1 && q.num % 2 == 0

/-- `_multiply_exponents(b, x1, x2)` (expr.py:1328-1343). -/
def multiplyExponents (O : Oracle) (C : Ctors) (b x1 x2 : Expr) : R Expr :=
  let general : R Expr := do
    let m ← opMul C x1 x2
    opPow O C b m
  match x1, x2 with
  | rat p, rat q =>
    if ratEven p then
      if q = 0 then .error .zeroDivision
      else if p = 1 / q then C.abs b
      else general
    else general
  | _, _ => general

/-- `isinstance(t, log) and t.base == b`: the inner expression of such a log. -/
def logWithBase (O : Oracle) (b : Expr) : Expr → Option Expr
  | log i b' => if beq O b' b then some i else none
  | _ => none

/-- The loop of expr.py:1425-1433: the first factor of the exponent that is a log to base `b`, with the other
factors (before ++ after). -/
def findLog (O : Oracle) (b : Expr) : List Expr → List Expr → Option (Expr × List Expr)
  | _, [] => none
  | pre, t :: r =>
    match logWithBase O b t with
    | some i => some (i, pre ++ r)
    | none => findLog O b (pre ++ [t]) r

/-- `all(isinstance(t, Num) for t in b.terms)`. -/
def allNum (ts : List Expr) : Bool := ts.all isNum

/-- `isinstance(b, Num) or isinstance(b, Prod) and all(isinstance(t, Num) for t in b.terms)` (expr.py:1440-1442). -/
def numericBase : Expr → Bool
  | prod ts => allNum ts
  | b => b.isNum

/-- The infinite exponents, and otherwise the stored object (expr.py:1440-1448). -/
def powInf (O : Oracle) (b x : Expr) : R Expr :=
  if numericBase b && !b.isSubtraction then
    if beq O x inf then .ok inf
    else if beq O x neginf then .ok (rat 0)
    else .ok (pow b x)
  else .ok (pow b x)

/-- The tail of `Power.__new__` (expr.py:1434-1448). -/
def powTail (O : Oracle) (C : Ctors) (b x : Expr) : R Expr :=
  match x with
  | rat q =>
    if b.isSubtraction && q.den == 1 then do
      let nb ← opNeg C b
      if q.num % 2 = 0 then C.pow nb x
      else
        let p ← C.pow nb x
        opNeg C p
    else powInf O b x
  | _ => powInf O b x

/-- expr.py:1423-1433: exponents that contain a log to the base `b`. -/
def powLog (O : Oracle) (C : Ctors) (b x : Expr) : R Expr :=
  match x with
  | log i b' => if beq O b b' then .ok i else powTail O C b x
  | prod ts =>
    match findLog O b [] ts with
    | some (i, rest) => do
      let y ← mkProdSkip rest
      C.pow i y
    | none => powTail O C b x
  | _ => powTail O C b x

/-- `[Power(term, x) for term in terms]`. -/
def powEach (C : Ctors) (x : Expr) (ts : List Expr) : R (List Expr) := mapR (fun t => C.pow t x) ts

/-- `Power.__new__` without skip_checks (expr.py:1388-1448). -/
def powCtor (O : Oracle) (C : Ctors) (b x : Expr) : R Expr :=
  if beq O x (rat 0) then .ok (rat 1)
  else if beq O x (rat 1) then .ok b
  else if beq O b (rat 1) then .ok (rat 1)
  else if b.isAcc && x.isAcc then
    match accumulatePower O C b x with
    | .error e => .error e
    | .ok none => .ok (pow b x)
    | .ok (some r) => .ok r
  else
    match b with
    | pow b' x' => multiplyExponents O C b' x' x
    | prod ts =>
      if !b.isSubtraction then do
        let ps ← powEach C x ts
        C.prod ps
      else powLog O C b x
    | _ => powLog O C b x

/-! ## `Abs(e)` -/

mutual
/-- `_is_strictly_positive` (expr.py:2047-2058), with the private flag always false. -/
def strictlyPositive : Expr → Bool
  | rat q => decide (0 ≤ q)
  | flt (.fin q) => decide (0 ≤ q)
  | pi => true
  | euler => true
  | inf => true
  | sum ts => strictlyPositiveL ts
  | prod ts => strictlyPositiveL ts
  | pow b _ => strictlyPositive b
  | _ => false
def strictlyPositiveL : List Expr → Bool
  | [] => true
  | t :: r => strictlyPositive t && strictlyPositiveL r
end

/-- `Abs.__new__` (expr.py:2022-2037).  For a subtraction `Abs(-inner)` is built; if that is an `Abs` object,
`__init__` then runs on it with the *original* inner (dataclass `__init__` of SingleFunc), so the result is
`Abs` of the original. The `for t in inner.terms` loop tests `isinstance(inner, Num)` and is dead. -/
def absCtor (C : Ctors) (i : Expr) : R Expr :=
  match i with
  | euler => .ok euler
  | pi => .ok pi
  | rat q => .ok (rat |q|)
  | flt (.fin q) => .ok (flt (.fin |q|))
  | flt .nan => .ok (flt .nan)
  | inf => .ok inf
  | neginf => .ok inf
  | _ =>
    if i.isSubtraction then
      match opNeg C i with
      | .error er => .error er
      | .ok ni =>
        match C.abs ni with
        | .error er => .error er
        | .ok (absv _) => .ok (absv i)
        | .ok r => .ok r
    else if strictlyPositive i then .ok i
    else .ok (absv i)

/-! ## numerator/denominator and `repr` -/

/-- `isinstance(x, Num) and x.value < 0`. -/
def negNum : Expr → Bool
  | rat q => decide (q < 0)
  | flt (.fin q) => decide (q < 0)
  | neginf => true
  | _ => false

/-- One factor in the loop of `Prod._numerator_denominator` (expr.py:1238-1253): what it adds to the numerator and to the
denominator. -/
def numDenTerm (O : Oracle) (C : Ctors) (t : Expr) : R (List Expr × List Expr) :=
  match t with
  | rat q => .ok (if q.num ≠ 1 then [rat q.num] else [], if q.den ≠ 1 then [rat q.den] else [])
  | _ =>
    if negNum (deconPow t).2 then
      if beq O (deconPow t).2 (rat (-1)) then .ok ([], [(deconPow t).1])
      else do
        let nx ← opNeg C (deconPow t).2
        let p ← C.pow (deconPow t).1 nx
        return ([], [p])
    else .ok ([t], [])

/-- The loop of `Prod._numerator_denominator` (expr.py:1238-1253): numerators and denominators. -/
def numDenLoop (O : Oracle) (C : Ctors) : List Expr → R (List Expr × List Expr)
  | [] => .ok ([], [])
  | t :: r => do
    let here ← numDenTerm O C t
    let (n, d) ← numDenLoop O C r
    return (here.1 ++ n, here.2 ++ d)

/-- `Prod.numerator_denominator` (expr.py:1236-1263). -/
def numDen (O : Oracle) (C : Ctors) (ts : List Expr) : R (Expr × Expr) := do
  let (n, d) ← numDenLoop O C ts
  let ne ← mkProdSkip n
  let de ← mkProdSkip d
  return (ne, de)

/-- `islongsymbol` (expr.py:1080). -/
def isLongSymbol : Expr → Bool
  | sym s => decide (s.length > 1)
  | any k => decide (k.length > 1)
  | _ => false

/-- `isfractionorneg` (expr.py:1079). -/
def isFractionOrNeg : Expr → Bool
  | rat q => q.den != 1 || decide (q < 0)
  | _ => false

/-- `"(" + s + ")"`. -/
def parens (s : Str) : Str := '(' :: s ++ [')']

/-- `_repr(inner, label)` (expr.py:1542-1546); indexing an empty string raises IndexError. -/
def wrapRepr (s label : Str) : R Str :=
  match s with
  | [] => .error .index
  | c :: _ => if c = '(' ∧ s.getLast? = some ')' then .ok (label ++ s) else .ok (label ++ parens s)

/-- `_term_repr` of Prod (expr.py:1185-1188). -/
def prodTermRepr (C : Ctors) (t : Expr) : R Str := do
  let s ← C.repr t
  return if t.isSum || isLongSymbol t then parens s else s

/-- `_term_repr` of Power (expr.py:1354-1357). -/
def powTermRepr (C : Ctors) (t : Expr) : R Str := do
  let s ← C.repr t
  return if t.isSum || t.isProd || isFractionOrNeg t || isLongSymbol t then parens s else s

/-- `Sum.__repr__` after the first term (expr.py:932-942). -/
def sumReprRest (C : Ctors) : List Expr → R Str
  | [] => .ok []
  | t :: r =>
    if t.isSubtraction then do
      let nt ← opNeg C t
      let s ← C.repr nt
      let rest ← sumReprRest C r
      return [' ', '-', ' '] ++ s ++ rest
    else do
      let s ← C.repr t
      let rest ← sumReprRest C r
      return [' ', '+', ' '] ++ s ++ rest

/-- `Sum.__repr__` (expr.py:932-942). -/
def sumRepr (C : Ctors) : List Expr → R Str
  | [] => .ok []
  | t :: r => do
    let s ← C.repr t
    let rest ← sumReprRest C r
    return s ++ rest

/-- `Prod.__repr__` (expr.py:1184-1212). -/
def prodRepr (O : Oracle) (C : Ctors) (ts : List Expr) : R Str :=
  if (prod ts).isSubtraction then do
    let np ← C.prod [prod ts, rat (-1)]
    if !np.isProd then
      let s ← prodTermRepr C np
      return '-' :: s
    else if np.isSubtraction then throw .value
    else
      let s ← C.repr np
      return '-' :: s
  else do
    let (n, d) ← numDen O C ts
    if !beq O d (rat 1) then
      let sn ← if n.isProd then C.repr n else prodTermRepr C n
      let sd ← if d.isProd then (do let s ← C.repr d; return parens s) else prodTermRepr C d
      return sn ++ '/' :: sd
    else
      let ss ← mapR (prodTermRepr C) ts
      return joinStr ['*'] ss

/-- `Power.__repr__` (expr.py:1353-1370). -/
def powRepr (O : Oracle) (C : Ctors) (b x : Expr) : R Str :=
  if beq O x (rat (-1)) then do
    let s ← powTermRepr C b
    return '1' :: '/' :: s
  else if (x.isRat || x.isFlt) && negNum x then do
    let nx ← opNeg C x
    let p ← C.pow b nx
    let s ← C.repr p
    return '1' :: '/' :: s
  else if beq O x (rat (1 / 2)) then do
    let s ← C.repr b
    wrapRepr s ['s', 'q', 'r', 't']
  else do
    let s ← powTermRepr C b
    let u ← powTermRepr C x
    return s ++ '^' :: u

/-- `log._label` (expr.py:1554-1561); `"log" + Rat` goes to `Rat.__radd__("log")`, whose cast raises
NotImplementedError. -/
def logLabel (O : Oracle) (C : Ctors) (b : Expr) : R Str :=
  if beq O b euler then .ok ['l', 'n']
  else
    match b with
    | rat q => if q.den = 1 then .error .notImplemented else do
        let s ← C.repr b
        return "log[base=".toList ++ s ++ [']']
    | _ => do
      let s ← C.repr b
      return "log[base=".toList ++ s ++ [']']

/-- `cls.func` (expr.py:1823-2005), e.g. "sin" for both `sin` and `asin`. -/
def TrigFn.func : TrigFn → Str
  | .sin | .asin => ['s', 'i', 'n']
  | .cos | .acos => ['c', 'o', 's']
  | .tan | .atan => ['t', 'a', 'n']
  | .csc => ['c', 's', 'c']
  | .sec => ['s', 'e', 'c']
  | .cot => ['c', 'o', 't']

/-- `cls.is_inverse`. -/
def TrigFn.isInverse : TrigFn → Bool
  | .asin | .acos | .atan => true
  | _ => false

/-- `TrigFunction._label` (expr.py:1731-1733). -/
def TrigFn.label (f : TrigFn) : Str := if f.isInverse then 'a' :: f.func else f.func

/-- `repr(e)` of every class. -/
def reprOf (O : Oracle) (C : Ctors) : Expr → R Str
  | rat q => .ok (ratStr q)
  | flt .nan => .ok ['n', 'a', 'n']
  | flt (.fin q) => .ok (O.frepr q)
  | pi => .ok ['p', 'i']
  | euler => .ok ['e']
  | inf => .ok ['i', 'n', 'f']
  | neginf => .ok ['-', 'i', 'n', 'f']
  | sym s => .ok s
  | any k => .ok ('a' :: 'n' :: 'y' :: '_' :: k)
  | sum ts => sumRepr C ts
  | prod ts => prodRepr O C ts
  | pow b x => powRepr O C b x
  | log i b => do
    let s ← C.repr i
    let l ← logLabel O C b
    wrapRepr s l
  | trig f i => do
    let s ← C.repr i
    wrapRepr s f.label
  | absv i => do
    let s ← C.repr i
    return '|' :: s ++ ['|']

/-! ## Tying the knot -/

/-- One more Python stack level. -/
def step (O : Oracle) (C : Ctors) : Ctors where
  sum := sumCtor O C
  prod := prodCtor O C
  pow := powCtor O C
  abs := absCtor C
  repr := reprOf O C

/-- The constructors with `n` stack levels left; at 0 every call is a RecursionError. -/
def ctors (O : Oracle) : Nat → Ctors
  | 0 => ⟨fun _ => .error .recursion, fun _ => .error .recursion, fun _ _ => .error .recursion,
      fun _ => .error .recursion, fun _ => .error .recursion⟩
  | n + 1 => step O (ctors O n)

end Simpy
