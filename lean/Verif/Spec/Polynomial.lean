import Verif.Model.Engine

/-! # Specification: polynomials with rational coefficients in one variable -/

namespace Simpy
open Expr

/-- `x` or `x ** k` with a natural number `k ≥ 2`. -/
inductive VarPower (v : Str) : Expr → Prop
  | var : VarPower v (sym v)
  | power (k : Nat) : 2 ≤ k → VarPower v (pow (sym v) (rat k))

/-- `c`, `x`, `x ** k`, `c * x`, `c * x ** k` with a rational number `c` and a natural number `k ≥ 2`. -/
inductive Monomial (v : Str) : Expr → Prop
  | const (c : ℚ) : Monomial v (rat c)
  | unit {u : Expr} : VarPower v u → Monomial v u
  | scaled (c : ℚ) {u : Expr} : VarPower v u → Monomial v (prod [rat c, u])

/-- A monomial, or a sum of monomials. -/
def IsPolynomial (v : Str) (e : Expr) : Prop :=
  Monomial v e ∨ ∃ ts, e = sum ts ∧ ts ≠ [] ∧ ∀ t ∈ ts, Monomial v t

end Simpy
