import Verif.Spec.Eval
import Verif.Model.Trig

/-!
# Specification: which expressions a user can have, and the plain real domain
-/

namespace Simpy
open Expr

/-- Expressions a user can build through the public constructors (in any Python process: each call with its
own remaining stack depth). -/
inductive Built (O : Oracle) : Expr → Prop
  | rat (q : ℚ) : Built O (rat q)
  | flt (v : F64) : Built O (flt v)
  | pi : Built O pi
  | euler : Built O euler
  | inf : Built O inf
  | neginf : Built O neginf
  | sym (s : Str) : Built O (sym s)
  | any (s : Str) : Built O (any s)
  | sum (n : Nat) {ts : List Expr} {r : Expr} : (∀ t ∈ ts, Built O t) → (ctors O n).sum ts = .ok r → Built O r
  | prod (n : Nat) {ts : List Expr} {r : Expr} : (∀ t ∈ ts, Built O t) → (ctors O n).prod ts = .ok r → Built O r
  | pow (n : Nat) {b x r : Expr} : Built O b → Built O x → (ctors O n).pow b x = .ok r → Built O r
  | abs (n : Nat) {i r : Expr} : Built O i → (ctors O n).abs i = .ok r → Built O r
  | log {i b r : Expr} : Built O i → Built O b → logCtor O i b = .ok r → Built O r
  | trig (n : Nat) (f : TrigFn) {i r : Expr} : Built O i → trigCtor O n f i = .ok r → Built O r

mutual
/-- Plain real domain with principal roots: no division by zero, the base of a power with a non-integer
exponent is not negative, logarithms have positive arguments. -/
def DomR (ρ : Str → ℝ) : Expr → Prop
  | rat _ => True
  | pi => True
  | euler => True
  | sym _ => True
  | sum ts => DomRL ρ ts
  | prod ts => DomRL ρ ts
  | pow b x => DomR ρ b ∧ DomR ρ x ∧ (den ρ b ≠ 0 ∨ 0 ≤ den ρ x) ∧ (intExp x = false → 0 ≤ den ρ b)
  | log i b => DomR ρ i ∧ DomR ρ b ∧ 0 < den ρ i ∧ 0 < den ρ b ∧ den ρ b ≠ 1
  | trig f i => DomR ρ i ∧ f.ok (den ρ i)
  | absv i => DomR ρ i
  | flt _ => False
  | inf => False
  | neginf => False
  | any _ => False
def DomRL (ρ : Str → ℝ) : List Expr → Prop
  | [] => True
  | t :: r => DomR ρ t ∧ DomRL ρ r
end

/-- `isinstance(e, (asin, acos, atan))` -/
def isInvTrig : Expr → Bool
  | trig f _ => f.isInverse
  | _ => false

end Simpy
