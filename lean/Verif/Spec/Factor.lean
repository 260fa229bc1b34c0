import Verif.Model.Poly

/-! # Specification: what `Sum.factor` takes out of a sum of monomials in one variable -/

namespace Simpy
namespace TakenOut
open Expr

/-- `c * x ** q`: the number `c` if `q = 0`, without the coefficient if that is 1, without the exponent if that is 1. -/
def monomial (v : Str) (c q : ℚ) : Expr :=
  let power := if q = 1 then sym v else pow (sym v) (rat q)
  if q = 0 then rat c else if c = 1 then power else prod [rat c, power]

/-- The name of a variable: it begins neither with a digit nor with a minus sign. -/
def Name (v : Str) : Prop := ∃ c r, v = c :: r ∧ c ≠ '-' ∧ c.isDigit = false

/-- `b` is a whole multiple of `a`. -/
def Divides (a b : ℚ) : Prop := ∃ z : ℤ, b = z * a

/-- `k` is a common divisor of the numbers `cs`, up to its sign one of them, and negative exactly if they all are. -/
def CommonNumber (cs : List ℚ) (k : ℚ) : Prop :=
  (∀ c ∈ cs, Divides k c) ∧ (∃ c ∈ cs, |k| = |c|) ∧ (k < 0 ↔ ∀ c ∈ cs, c < 0)

/-- `m` is the exponent of the power of `x` common to the powers with exponents `qs`: the least of them if all are positive, the
greatest if all are negative, and 0 otherwise. -/
def CommonExponent (qs : List ℚ) (m : ℚ) : Prop :=
  ((∀ q ∈ qs, 0 < q) → m ∈ qs ∧ ∀ q ∈ qs, m ≤ q) ∧
  ((∀ q ∈ qs, q < 0) → m ∈ qs ∧ ∀ q ∈ qs, q ≤ m) ∧
  ((∃ q ∈ qs, q ≤ 0) → (∃ q ∈ qs, 0 ≤ q) → m = 0)

end TakenOut
end Simpy
