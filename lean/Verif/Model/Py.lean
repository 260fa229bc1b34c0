import Mathlib.Data.Rat.Defs
import Mathlib.Data.Rat.Floor

/-!
# Python-level base layer

Exceptions are values (`R`), the interpreter's recursion limit is fuel (see `Model/Ctors.lean`),
strings are lists of characters, and everything CPython computes in IEEE-754 arithmetic is a field of
`Oracle`, over which all theorems quantify.
-/

namespace Simpy

/-- Python `str` (code point sequence). -/
abbrev Str := List Char

/-- The exceptions the modelled code can raise.  `cyclic` is not an exception: it marks the calls after
which CPython has built a self-referential object (`log.__new__` returning a `log`, expr.py:1589-1610),
which no finite expression can represent. -/
inductive Err
  | recursion | assertion | value | zeroDivision | notImplemented | type | overflow | index | key
  | attribute | cyclic
  deriving DecidableEq, Repr

/-- Result of a Python call: a value or a raised exception. -/
abbrev R (α : Type) := Except Err α

/-- The value of a `Float` object (expr.py:463-494): never infinite, because `Float.__new__`
turns infinities into `Infinity()`/`NegInfinity()`; a finite binary64 is a rational. -/
inductive F64
  | nan
  | fin (q : ℚ)
  deriving DecidableEq, Repr

/-- Values of numeric constants as they occur in `c.value`: a `Fraction` or a Python float. -/
inductive PyNum
  | frac (q : ℚ)
  | fin (q : ℚ)
  | pinf
  | ninf
  | nan
  deriving DecidableEq, Repr

/-- The nine trigonometric classes (expr.py:1823-2005). -/
inductive TrigFn
  | sin | cos | tan | csc | sec | cot | asin | acos | atan
  deriving DecidableEq, Repr

/-- Everything that CPython computes in floating point, or by comparing with a binary64 constant.
Nothing is assumed about these functions unless a theorem says so.

* `add`/`mul`/`pow`: `x + y`, `x * y`, `x ** y` when at least one operand is a float
  (expr.py:726-729, 734-735); a complex result of `**` is the `AssertionError` of `Float.__new__`.
* `intPow n x`: for a non-integral `x > 0`, the test `isint(n ** x)` of `_accumulate_power`
  (expr.py:746-749): `some k` if the float `n ** x` equals the integer `k`, `none` if it is no integer.
* `ratPow b x`: `Fraction ** Fraction` with non-integral exponent (expr.py:576-581) is a float or complex,
  which the caller discards; only the exception it may raise matters.
* `isPi q`, `isE q`: `Fraction(q) == 3.141592653589793`, `Fraction(q) == 2.718281828459045`
  (expr.py:423-424 with the class attributes of `Pi`, `E`, expr.py:632, 643).
* `piVal`, `eVal`: those two binary64 constants.
* `toFloat`: `float(Fraction)` (expr.py:415-416).
* `log`, `trig`: `math.log`, `math.sin`, ... (expr.py:1599-1603, 1789-1790).
* `frepr`: `repr` of a finite float. -/
structure Oracle where
  add : PyNum → PyNum → R PyNum
  mul : PyNum → PyNum → R PyNum
  pow : PyNum → PyNum → R PyNum
  intPow : ℤ → ℚ → R (Option ℤ)
  ratPow : ℚ → ℚ → R Unit
  isPi : ℚ → Bool
  isE : ℚ → Bool
  piVal : ℚ
  eVal : ℚ
  toFloat : ℚ → R PyNum
  log : PyNum → R PyNum
  div : PyNum → PyNum → R PyNum
  trig : TrigFn → PyNum → R PyNum
  frepr : ℚ → Str

/-- `[f(x) for x in xs]`, left to right, stopping at the first exception. -/
def mapR {α β : Type} (f : α → R β) : List α → R (List β)
  | [] => .ok []
  | a :: r =>
    match f a with
    | .error e => .error e
    | .ok b =>
      match mapR f r with
      | .error e => .error e
      | .ok bs => .ok (b :: bs)

/-- `str(int)`. -/
def intStr (n : ℤ) : Str := (toString n).toList

/-- `str(Fraction)`: `n` or `n/d`. -/
def ratStr (q : ℚ) : Str :=
  if q.den = 1 then intStr q.num else intStr q.num ++ '/' :: intStr (q.den : ℤ)

/-- `sep.join(xs)`. -/
def joinStr (sep : Str) : List Str → Str
  | [] => []
  | [a] => a
  | a :: b :: r => a ++ sep ++ joinStr sep (b :: r)

/-- `a < b` on Python strings: lexicographic by code point. -/
def strLt : Str → Str → Bool
  | [], [] => false
  | [], _ :: _ => true
  | _ :: _, [] => false
  | a :: r, b :: s => if a.toNat < b.toNat then true else if a.toNat = b.toNat then strLt r s else false

end Simpy
