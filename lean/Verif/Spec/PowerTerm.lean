import Verif.Spec.Read
import Verif.Model.Ctors

/-!
# Specification: products of powers of symbols
-/

namespace Simpy
open Expr

/-- What a user gets by multiplying, dividing and raising to powers, starting with numbers (not 0) and symbols: `x ** q` for a symbol `x`
and a rational number `q`, products, quotients, negatives, and powers with whole numbers. -/
inductive FromMul (O : Oracle) : Expr → Prop
  | num {q : ℚ} : q ≠ 0 → FromMul O (rat q)
  | sym {s : Str} : goodName s = true → FromMul O (sym s)
  | root (n : Nat) {s : Str} {q : ℚ} {r : Expr} : goodName s = true → opPow O (ctors O n) (sym s) (rat q) = .ok r → FromMul O r
  | mul (n : Nat) {a b r : Expr} : FromMul O a → FromMul O b → opMul (ctors O n) a b = .ok r → FromMul O r
  | div (n : Nat) {a b r : Expr} : FromMul O a → FromMul O b → opDiv (ctors O n) a b = .ok r → FromMul O r
  | neg (n : Nat) {a r : Expr} : FromMul O a → opNeg (ctors O n) a = .ok r → FromMul O r
  | pow (n : Nat) {a r : Expr} (k : ℤ) : FromMul O a → opPow O (ctors O n) a (rat k) = .ok r → FromMul O r

/-- A symbol, or a power of one. -/
inductive RootOf : Str → Expr → Prop
  | one (s : Str) : RootOf s (sym s)
  | power (s : Str) {q : ℚ} : q ≠ 0 → q ≠ 1 → RootOf s (pow (sym s) (rat q))

/-- Powers of different symbols. -/
def RootProduct (ts : List Expr) : Prop := ∃ ss : List Str, ss.Nodup ∧ List.Forall₂ RootOf ss ts

/-- A number, a power of a symbol, or a product of powers of different symbols, with or without a number (not 0 or 1) in front. -/
inductive PowerTerm : Expr → Prop
  | num {q : ℚ} : q ≠ 0 → PowerTerm (rat q)
  | power {s : Str} {t : Expr} : RootOf s t → PowerTerm t
  | prod {ts : List Expr} : 2 ≤ ts.length → RootProduct ts → PowerTerm (prod ts)
  | scaled {q : ℚ} {ts : List Expr} : q ≠ 0 → q ≠ 1 → ts ≠ [] → RootProduct ts → PowerTerm (prod (rat q :: ts))

end Simpy
