import Verif.Spec.Factor
import Verif.Spec.Normal

/-!
# Specification: what `Sum.factor` takes out of a polynomial in several symbols
-/

namespace Simpy
open Expr TakenOut

/-- The coefficients of a polynomial. -/
noncomputable def coeffs (p : MvPolynomial Str ℚ) : List ℚ := p.support.toList.map fun d => p.coeff d

/-- `k * x ** g x * y ** g y * …` is what all the terms of `p` have in common:
* each symbol with its least exponent, so that a product of powers of symbols divides all the terms if and only if it divides this one;
* a number that divides all the coefficients, is one of them up to its sign and negative exactly if they all are, or the number 1 if
  there are two coefficients neither of which divides the other. -/
structure TakenTerm (p : MvPolynomial Str ℚ) (k : ℚ) (g : Str →₀ ℕ) : Prop where
  powers : ∀ h : Str →₀ ℕ, h ≤ g ↔ ∀ d ∈ p.support, h ≤ d
  number : CommonNumber (coeffs p) k ∨ k = 1 ∧ ∃ a ∈ coeffs p, ∃ b ∈ coeffs p, ¬ Divides a b ∧ ¬ Divides b a

end Simpy
