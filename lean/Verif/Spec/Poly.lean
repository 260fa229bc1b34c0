import Verif.Spec.Expand

/-!
# Specification: polynomials as coefficient lists
-/

namespace Simpy
open Expr

/-- `Σ cᵢ tⁱ`, coefficients from the constant term up. -/
noncomputable def polyVal (ρ : Str → ℝ) : List Expr → ℝ → ℝ
  | [], _ => 0
  | c :: r, t => den ρ c + t * polyVal ρ r t

mutual
/-- No summand of `e` is a number times a Sum or a Prod. -/
def plainTerms : Expr → Bool
  | sum ts => plainTermsL ts
  | prod [rat _, w] => !w.isSum && !w.isProd
  | _ => true
def plainTermsL : List Expr → Bool
  | [] => true
  | t :: r => plainTerms t && plainTermsL r
end

/-- `v` or a power of `v` with a positive integer exponent. -/
def varPower (v : Str) : Expr → Bool
  | sym s => s == v
  | pow (sym s) (rat q) => s == v && q.den == 1 && decide (1 ≤ q)
  | _ => false

/-- A rational number, a power of `v`, or a rational number times a power of `v`. -/
def ratTerm (v : Str) : Expr → Bool
  | rat _ => true
  | prod [rat _, w] => varPower v w
  | t => varPower v t

/-- A polynomial in `v` with rational coefficients, written as a sum of monomials (a Sum has to contain `v`). -/
def ratPoly (v : Str) : Expr → Bool
  | sum ts => ts.all (ratTerm v) && containsL v ts
  | t => ratTerm v t

end Simpy
