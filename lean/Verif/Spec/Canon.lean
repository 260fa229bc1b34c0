import Verif.Spec.Built

/-!
# Specification: canonical form of sums, products and powers
-/

namespace Simpy
open Expr

/-- The factors of a term that are not numbers (`[t]` if `t` is not a product). -/
def nonNumFactors : Expr → List Expr
  | prod ts => ts.filter fun t => !t.isAcc
  | t => [t]

/-- The terms `a` and `b` do not have equal (`==` both ways) non-numeric factors. -/
def Unlike (O : Oracle) (a b : Expr) : Prop :=
  ¬ (beqL O (nonNumFactors a) (nonNumFactors b) = true ∧ beqL O (nonNumFactors b) (nonNumFactors a) = true)

/-- At least two terms; at most one number among them, which is not 0; no two like terms. -/
def SumCanon (O : Oracle) (ts : List Expr) : Prop :=
  2 ≤ ts.length ∧ (ts.filter isAcc).length ≤ 1 ∧ (∀ c ∈ ts, c.isAcc = true → beq O c (rat 0) = false) ∧
    (ts.filter fun t => !t.isAcc).Pairwise (Unlike O)

/-- At least two factors; at most one number among them, which is neither 0 nor 1. -/
def ProdCanon (O : Oracle) (ts : List Expr) : Prop :=
  2 ≤ ts.length ∧ (ts.filter isAcc).length ≤ 1 ∧
    ∀ c ∈ ts, c.isAcc = true → beq O c (rat 0) = false ∧ beq O c (rat 1) = false

/-- The exponent is neither 0 nor 1. -/
def PowCanon (O : Oracle) (x : Expr) : Prop := beq O x (rat 0) = false ∧ beq O x (rat 1) = false

mutual
/-- Every sum, product and power in the expression is canonical. -/
def Canon (O : Oracle) : Expr → Prop
  | sum ts => SumCanon O ts ∧ CanonL O ts
  | prod ts => ProdCanon O ts ∧ CanonL O ts
  | pow b x => PowCanon O x ∧ Canon O b ∧ Canon O x
  | log i b => Canon O i ∧ Canon O b
  | trig _ i => Canon O i
  | absv i => Canon O i
  | _ => True
def CanonL (O : Oracle) : List Expr → Prop
  | [] => True
  | t :: r => Canon O t ∧ CanonL O r
end

/-- `u` is one of the summands of `t` (after removing nested sums). -/
inductive Summand : Expr → Expr → Prop
  | self {t : Expr} : t.isSum = false → Summand t t
  | term {u t : Expr} {ts : List Expr} : t ∈ ts → Summand u t → Summand u (sum ts)

/-- `u` is one of the factors of `t` (after removing nested products). -/
inductive Factor : Expr → Expr → Prop
  | self {t : Expr} : t.isProd = false → Factor t t
  | term {u t : Expr} {ts : List Expr} : t ∈ ts → Factor u t → Factor u (prod ts)

end Simpy
