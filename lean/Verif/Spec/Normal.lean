import Verif.Spec.Built
import Verif.Spec.Canon
import Verif.Spec.Read
import Verif.Model.Calculus
import Mathlib.Algebra.MvPolynomial.Basic

/-!
# Specification: polynomials in several symbols, and polynomials that are multiplied out
-/

namespace Simpy
open Expr

mutual
/-- The polynomial that an expression made of numbers, symbols, sums, products and natural powers stands for. -/
noncomputable def toMv : Expr → MvPolynomial Str ℚ
  | rat q => MvPolynomial.C q
  | sym s => MvPolynomial.X s
  | sum ts => toMvS ts
  | prod ts => toMvP ts
  | pow b (rat q) => toMv b ^ q.num.toNat
  | _ => 0
/-- the sum -/
noncomputable def toMvS : List Expr → MvPolynomial Str ℚ
  | [] => 0
  | t :: r => toMv t + toMvS r
/-- the product -/
noncomputable def toMvP : List Expr → MvPolynomial Str ℚ
  | [] => 1
  | t :: r => toMv t * toMvP r
end

/-- Polynomial expressions as a user has them: numbers, symbols, sums, products and powers with a natural number, where
* names can be told apart in the printed form (`goodName`);
* every sum, product and power is what its constructor returns for these parts (so there is no sum directly inside a sum), and no
  product stands directly inside a product;
* the base of an odd power does not have only negative coefficients when it is multiplied out. -/
inductive PolyExpr (O : Oracle) : Expr → Prop
  | rat (q : ℚ) : PolyExpr O (rat q)
  | sym (s : Str) : goodName s = true → PolyExpr O (sym s)
  | sum (n : Nat) {ts : List Expr} : (∀ t ∈ ts, PolyExpr O t) → (ctors O n).sum ts = .ok (sum ts) → PolyExpr O (sum ts)
  | prod (n : Nat) {ts : List Expr} : (∀ t ∈ ts, PolyExpr O t) → (∀ t ∈ ts, t.isProd = false) → (ctors O n).prod ts = .ok (prod ts) →
      PolyExpr O (prod ts)
  | pow (n : Nat) {b : Expr} (k : ℕ) : PolyExpr O b → 2 ≤ k → (ctors O n).pow b (rat k) = .ok (pow b (rat k)) →
      (Odd k → toMv b ≠ 0 → ∃ d, 0 < (toMv b).coeff d) → PolyExpr O (pow b (rat k))

/-- A symbol, or a natural power of one. -/
inductive SymPower : Str → Expr → Prop
  | one (s : Str) : SymPower s (sym s)
  | power (s : Str) (k : ℕ) : 2 ≤ k → SymPower s (pow (sym s) (rat k))

/-- A product of powers of different symbols, without a number. -/
def PowerProduct (ts : List Expr) : Prop := ∃ ss : List Str, ss.Nodup ∧ List.Forall₂ SymPower ss ts

/-- A number, a power of a symbol, or a product of powers of different symbols, with or without a number (not 0 or 1) in front. -/
inductive PolyTerm : Expr → Prop
  | num (q : ℚ) : PolyTerm (rat q)
  | power {s : Str} {t : Expr} : SymPower s t → PolyTerm t
  | prod {ts : List Expr} : 2 ≤ ts.length → PowerProduct ts → PolyTerm (prod ts)
  | scaled {q : ℚ} {ts : List Expr} : q ≠ 0 → q ≠ 1 → ts ≠ [] → PowerProduct ts → PolyTerm (prod (rat q :: ts))

/-- Multiplied out: a single term, or a sum of at least two terms, none of them 0, no two of them alike. -/
inductive MultipliedOut (O : Oracle) : Expr → Prop
  | term {t : Expr} : PolyTerm t → MultipliedOut O t
  | sum {ts : List Expr} : 2 ≤ ts.length → (∀ t ∈ ts, PolyTerm t ∧ t ≠ rat 0) → ts.Pairwise (Unlike O) → (ts.filter isAcc).length ≤ 1 →
      MultipliedOut O (sum ts)

mutual
/-- How deep an expression is. -/
def height : Expr → Nat
  | sum ts => 1 + heightL ts
  | prod ts => 1 + heightL ts
  | pow b x => 1 + max (height b) (height x)
  | log i b => 1 + max (height i) (height b)
  | trig _ i => 1 + height i
  | absv i => 1 + height i
  | _ => 0
/-- the deepest one -/
def heightL : List Expr → Nat
  | [] => 0
  | t :: r => max (height t) (heightL r)
end

end Simpy
