import Verif.Model.Ctors
import Verif.Model.Calculus
import Verif.Model.Engine

/-!
# Python values as operands: `_cast`, reflected operators, numbers, `symbols`, `diff`
-/

namespace Simpy
open Expr

/-- A Python value handed to the library. `num` is an `int` or `Fraction` (`PyNum.frac`) or a `float`; `bool` is apart although
`bool` is a subclass of `int`, since `_cast` tests `x is True or x is False` first (expr.py:73). `cls` is a subclass of `Expr`
(the class object), `other` everything else (strings, complex numbers, sets, functions, other classes, …).
Simplification: the keys of dictionaries are strings. -/
inductive PyVal
  | none
  | bool (b : Bool)
  | num (c : PyNum)
  | expr (e : Expr)
  | cls (name : Str)
  | dict (kvs : List (Str × PyVal))
  | tuple (xs : List PyVal)
  | list (xs : List PyVal)
  | other

mutual
/-- `_cast(x)` (expr.py:70-93). -/
def castV : PyVal → R PyVal
  | .none => .ok .none
  | .bool b => .ok (.bool b)
  | .expr e => .ok (.expr e)
  | .num c => .ok (.expr (const c))
  | .dict kvs =>
    match castKV kvs with
    | .error e => .error e
    | .ok kvs => .ok (.dict kvs)
  | .tuple xs =>
    match castL xs with
    | .error e => .error e
    | .ok xs => .ok (.tuple xs)
  | .list xs =>
    match castL xs with
    | .error e => .error e
    | .ok xs => .ok (.list xs)
  | .cls c => .ok (.cls c)
  | .other => .error .notImplemented
/-- The comprehensions `_cast(v) for v in x` (expr.py:85-87). -/
def castL : List PyVal → R (List PyVal)
  | [] => .ok []
  | x :: xs =>
    match castV x with
    | .error e => .error e
    | .ok y =>
      match castL xs with
      | .error e => .error e
      | .ok ys => .ok (y :: ys)
/-- `{k: _cast(v) for k, v in x.items()}` (expr.py:83). -/
def castKV : List (Str × PyVal) → R (List (Str × PyVal))
  | [] => .ok []
  | (k, x) :: xs =>
    match castV x with
    | .error e => .error e
    | .ok y =>
      match castKV xs with
      | .error e => .error e
      | .ok ys => .ok ((k, y) :: ys)
end

/-- An operand of an arithmetic operator: a Python number or an expression. Simplification: booleans, `None` and containers
are not operands in the model (the program casts them to themselves and then mostly fails with AttributeError). -/
inductive Operand
  | num (c : PyNum)
  | expr (e : Expr)

/-- `_cast` of an operand (expr.py:73-78). -/
def Operand.cast : Operand → Expr
  | .num c => const c
  | .expr e => e

/-- The operand as a Python value. -/
def Operand.toVal : Operand → PyVal
  | .num c => .num c
  | .expr e => .expr e

/-- `Expr.__radd__`, expr.py:137-139; `Rat.__radd__`, 528-532. `other` is cast already. -/
def rAdd (C : Ctors) (self other : Expr) : R Expr :=
  match self, other with
  | rat p, rat q => .ok (rat (q + p))
  | _, _ => C.sum [other, self]

/-- `Expr.__rmul__`, expr.py:153-155; `Rat.__rmul__`, 552-556. -/
def rMul (C : Ctors) (self other : Expr) : R Expr :=
  match self, other with
  | rat p, rat q => .ok (rat (q * p))
  | _, _ => C.prod [other, self]

/-- `Expr.__rsub__`, expr.py:145-147 (`other + (-1 * self)`: the product is `self.__rmul__(-1)`); `Rat.__rsub__`, 540-544. -/
def rSub (C : Ctors) (self other : Expr) : R Expr :=
  match self, other with
  | rat p, rat q => .ok (rat (q - p))
  | _, _ => do
    let m ← rMul C self (rat (-1))
    opAdd C other m

/-- `Expr.__rtruediv__`, expr.py:177-179; `Rat.__rtruediv__`, 564-568. -/
def rDiv (C : Ctors) (self other : Expr) : R Expr :=
  match self, other with
  | rat p, rat q =>
    if p ≠ 0 then .ok (rat (q / p))
    else do
      let i ← C.pow self (rat (-1))
      C.prod [other, i]
  | _, _ => do
    let i ← C.pow self (rat (-1))
    C.prod [other, i]

/-- `Expr.__rpow__`, expr.py:161-163; `Rat.__rpow__`, 581-585. -/
def rPow (O : Oracle) (C : Ctors) (self other : Expr) : R Expr :=
  match self, other with
  | rat _, rat _ => opPow O C other self
  | _, _ => C.pow other self

/-- The five binary operators. -/
inductive BinOp
  | add | sub | mul | div | pow
  deriving DecidableEq, Repr

/-- The method `__add__`, … of an expression (expr.py:132-175, 522-579). -/
def forward (O : Oracle) (C : Ctors) : BinOp → Expr → Expr → R Expr
  | .add => opAdd C
  | .sub => opSub C
  | .mul => opMul C
  | .div => opDiv C
  | .pow => opPow O C

/-- The method `__radd__`, … of an expression: `reflected op self other` is `other op self`. -/
def reflected (O : Oracle) (C : Ctors) : BinOp → Expr → Expr → R Expr
  | .add => rAdd C
  | .sub => rSub C
  | .mul => rMul C
  | .div => rDiv C
  | .pow => rPow O C

/-- Python's `a op b` for operands of which at least one is an expression: the method of the left operand if that is an
expression, otherwise (`int`, `float` and `Fraction` return NotImplemented for an expression on the right) the reflected method
of the right one. Two numbers are not the library's business (`TypeError` stands for that).
Simplification: in Python < 3.12 `Fraction ** Expr` turns the fraction into a float first; the model is of 3.12 and later. -/
def binop (O : Oracle) (C : Ctors) (op : BinOp) : Operand → Operand → R Expr
  | .expr a, b => forward O C op a b.cast
  | .num c, .expr b => reflected O C op b (const c)
  | .num _, .num _ => .error .type

/-! ## Rational numbers -/

/-- `Fraction // Fraction` (CPython `Fraction._floordiv`: `(a.numerator * b.denominator) // (a.denominator * b.numerator)`),
as used by `Rat.__floordiv__` (expr.py:592-596). -/
def ratFloorDiv (a b : ℚ) : R ℚ :=
  if b = 0 then .error .zeroDivision
  else .ok (Int.fdiv (a.num * b.den) (a.den * b.num) : ℤ)

/-- `Fraction % Fraction` (CPython `Fraction._mod`: `Fraction((a.n * db) % (b.n * da), da * db)`), as used by `Rat.__mod__`
(expr.py:608-613). -/
def fracMod (a b : ℚ) : R ℚ :=
  if b = 0 then .error .zeroDivision
  else .ok ((Int.fmod (a.num * b.den) (b.num * a.den) : ℤ) / ((a.den * b.den : ℕ) : ℚ))

/-- `Rat.reciprocal` (expr.py:605-606): `Fraction(denominator, numerator)`. -/
def ratReciprocal (a : ℚ) : R ℚ :=
  if a.num = 0 then .error .zeroDivision else .ok ((a.den : ℚ) / (a.num : ℚ))

/-- `Fraction._richcmp` for `<` (CPython: cross multiplication), as used by `Num.__lt__` on rationals (expr.py:437-439). -/
def ratLt (a b : ℚ) : Bool := decide (a.num * b.den < a.den * b.num)

/-- `Num.__le__` on rationals (expr.py:433-435). -/
def ratLe (a b : ℚ) : Bool := decide (a.num * b.den ≤ a.den * b.num)

/-- `Rat.is_int` (expr.py:615-617). -/
def ratIsInt (a : ℚ) : Bool := decide (a.den = 1)

/-! ## symbols() -/

/-- CPython's `s.split(" ")`: the pieces between consecutive spaces, empty pieces included. -/
def splitSpace : Str → List Str
  | [] => [[]]
  | c :: s =>
    if c = ' ' then [] :: splitSpace s
    else
      match splitSpace s with
      | [] => [[c]]
      | w :: ws => (c :: w) :: ws

/-- `Symbol(name)` (expr.py:785-787: the name must not be empty). -/
def symbolCtor (name : Str) : R Expr :=
  if name.length > 0 then .ok (sym name) else .error .assertion

/-- What `symbols()` returns: a symbol or a list. -/
inductive SymbolsResult
  | one (e : Expr)
  | many (es : List Expr)
  deriving DecidableEq

/-- `symbols(s)` (expr.py:2061-2064). -/
def symbolsOf (s : Str) : R SymbolsResult := do
  let l ← mapR symbolCtor (splitSpace s)
  match l with
  | [e] => return .one e
  | l => return .many l

/-! ## diff() -/

/-- What the function `diff` returns: an expression or (expr.py:2076) an exception object, returned, not raised. -/
inductive DiffResult
  | expr (e : Expr)
  | exception (e : Err)

/-- `diff(expr, var)` (expr.py:2067-2079). Every expression has the attribute `diff`. -/
def diffTop (O : Oracle) (n : Nat) (e : Expr) (v : Option Str) : R DiffResult := do
  match v with
  | some v => return .expr (← diffE O n v e)
  | none =>
    match (syms e).dedup with
    | [v] => return .expr (← diffE O n v e)
    | _ => return .exception .value

end Simpy
