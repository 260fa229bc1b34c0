import Verif.Proofs.RewriteSound
import Verif.Proofs.PolyFrac
import Verif.Spec.Pyth
import Verif.Spec.PTS

/-!
# Specification: where the rewriting steps of the search keep the value of an integrand

`RewriteOk O n ρ v tr e g`: the step `tr` from the integrand `e` (in the variable `v`) to `g` keeps to principal branches at the
point `ρ`. But for `kept` the conditions speak about `e` and about the calls of library functions that the step makes, not about `g`.
-/

namespace Simpy
open Expr

/-- What is asked of an expression that `CompleteTheSquare` visits and takes for a quadratic polynomial: it has integer
exponents, no logs and no inverse trig functions, after expanding it is a polynomial with rational coefficients, and it has no
real roots. -/
def SquareOk (O : Oracle) (v : Str) (k : Nat) (e : Expr) : Prop :=
  ∀ a0 a1 a2, toConstPoly O k v e = .ok [a0, a1, a2] → Easy e ∧ ∃ (e' : Expr) (q0 q1 q2 : ℚ),
    expandOr (expandableE O k) (expandE O k) e = .ok e' ∧ ratPoly v e' = true ∧ [a0, a1, a2] = [q0, q1, q2].map rat ∧
      q1 ^ 2 < 4 * q0 * q2

/-- `g` is defined where `e` is, with the same value. -/
structure Keeps (ρ : Str → ℝ) (e g : Expr) : Prop where
  wf : WF g
  reg : Regular ρ g
  value : den ρ g = den ρ e

/-- Where the rewriting steps keep the value. -/
inductive RewriteOk (O : Oracle) (n : Nat) (ρ : Str → ℝ) (v : Str) : Transf → Expr → Expr → Prop
  /-- The new integrand is defined at this point, with the same value. -/
  | kept {tr : Transf} {e g : Expr} : Keeps ρ e g → RewriteOk O n ρ v tr e g
  /-- Expand: the powers that `expand` multiplies out are principal. -/
  | expand {e g : Expr} : ExpandOk O ρ n e → RewriteOk O n ρ v .expand e g
  /-- Expand: integer exponents, no logs, no inverse trig functions. -/
  | expandEasy {e g : Expr} : Easy e → RewriteOk O n ρ v .expand e g
  /-- RewriteTrig: no sine or cosine of an argument of a trig function vanishes. -/
  | rewriteTrig {e g : Expr} :
      (∀ f i, Sub (trig f i) e → f.isInverse = false → Real.sin (den ρ i) ≠ 0 ∧ Real.cos (den ρ i) ≠ 0) →
      RunTameC O (toSinCos O) n e = true → RunTameC O (toTanCsc O) n e = true → RunTameC O (toCotSec O) n e = true →
      RewriteOk O n ρ v .rewriteTrig e g
  /-- RewritePythagorean: no inverse trig functions. -/
  | rewritePythagorean {e g : Expr} : containsCls isInvTrig e = false → RewriteOk O n ρ v .rewritePythagorean e g
  /-- ProductToSum: no inverse trig functions, and no power is multiplied out wrongly. -/
  | productToSum {e g : Expr} : containsCls isInvTrig e = false → ptsOk O n e none = true → RewriteOk O n ρ v .productToSum e g
  /-- The simplification after InverseTrigUSub: only true identities are applied. -/
  | simplify {e g : Expr} : Visits (pythPerf O) (pythOk O) n e = true → RunTame O (pythPerf O) n e = true → RewriteOk O n ρ v .simplify e g
  /-- CompleteTheSquare: only polynomials without real roots are rewritten. -/
  | completeTheSquare {e g : Expr} : VisitsP (squarePerf O v) (SquareOk O v) n e → RunTame O (squarePerf O v) n e = true →
      RewriteOk O n ρ v .completeTheSquare e g
  /-- PolynomialDivision: numerator and denominator are polynomials with rational coefficients. -/
  | polynomialDivision {ts : List Expr} {a b a' b' g : Expr} : (∀ t ∈ ts, Easy t) → numDen O (ctors O n) ts = .ok (a, b) →
      expandOr (expandableE O n) (expandE O n) a = .ok a' → ratPoly v a' = true →
      expandOr (expandableE O n) (expandE O n) b = .ok b' → ratPoly v b' = true →
      (∀ dl, toConstPoly O n v b = .ok dl → dl.getLast? ≠ some (rat 0)) → RewriteOk O n ρ v .polynomialDivision (prod ts) g
  /-- PartialFractions: the factors of the denominator are polynomials with rational coefficients; if `factor` finds them by
  taking out a common factor, then this factor does not vanish. -/
  | partialFractions {ts : List Expr} {a b a' d1 d2 g : Expr} : (∀ t ∈ ts, Easy t) → numDen O (ctors O n) ts = .ok (a, b) →
      expandOr (expandableE O n) (expandE O n) a = .ok a' → plainTerms a' = true →
      denomFactors (ctors O n) b = .ok (some [d1, d2]) → ratPoly v d1 = true → ratPoly v d2 = true →
      (∀ us c, b = sum us → factorCommon (ctors O n) us = .ok c → Regular ρ c ∧ den ρ c ≠ 0) →
      RewriteOk O n ρ v .partialFractions (prod ts) g

end Simpy
