import Verif.Model.Engine

/-!
# Specification: linear combinations of the functions in the table of integrals

`c0 + c1 * f1(x) + c2 * f2(x) + ...` with rational coefficients, where every `fi(x)` is a rational power of `x` (so also `1/x`,
`1/x^2`, `sqrt(x)`), or `e^L`, `sin(L)` or `cos(L)` with `L = a*x + b` for some rational numbers `a` other than 0 and `b` (different
functions may have different `L`).
-/

namespace Simpy
open Expr

/-- `a*x + b`, as simpy writes it: `x`, `a*x`, `x + b` or `a*x + b`. -/
inductive LinearArg (v : Str) : Expr → Prop
  | var : LinearArg v (sym v)
  | times (a : ℚ) : a ≠ 0 → a ≠ 1 → LinearArg v (prod [rat a, sym v])
  | plus (b : ℚ) : b ≠ 0 → LinearArg v (sum [sym v, rat b])
  | both (a b : ℚ) : a ≠ 0 → a ≠ 1 → b ≠ 0 → LinearArg v (sum [prod [rat a, sym v], rat b])

/-- `x`, `x ** q` with a rational number `q` other than 0 and 1, `e ** L`, `sin(L)`, `cos(L)` with `L` linear. (`sin(-x)` and
`cos(-x)` do not exist: the constructors turn them into `-sin(x)` and `cos(x)`. `sin(-2*x + 1)` exists, `sin(-2*x - 1)` does not.) -/
inductive TableFn (v : Str) : Expr → Prop
  | var : TableFn v (sym v)
  | power (q : ℚ) : q ≠ 0 → q ≠ 1 → TableFn v (pow (sym v) (rat q))
  | exp {L : Expr} : LinearArg v L → TableFn v (pow euler L)
  | sin {L : Expr} : LinearArg v L → L.isSubtraction = false → TableFn v (trig .sin L)
  | cos {L : Expr} : LinearArg v L → L.isSubtraction = false → TableFn v (trig .cos L)

/-- A number, such a function, or a number times such a function. -/
inductive TableTerm (v : Str) : Expr → Prop
  | const (c : ℚ) : TableTerm v (rat c)
  | unit {u : Expr} : TableFn v u → TableTerm v u
  | scaled (c : ℚ) {u : Expr} : TableFn v u → TableTerm v (prod [rat c, u])

/-- A term, or a sum of terms. -/
def IsCombination (v : Str) (e : Expr) : Prop :=
  TableTerm v e ∨ ∃ ts, e = sum ts ∧ ts ≠ [] ∧ ∀ t ∈ ts, TableTerm v t

/-- The expression is a negative power. -/
def isRecipPower : Expr → Bool
  | pow _ (rat q) => decide (q < 0)
  | _ => false

/-- No sines and cosines, or no negative powers. -/
def Separate (e : Expr) : Prop := containsCls isPlainTrig e = false ∨ containsCls isRecipPower e = false

end Simpy
