import Verif.Model.Compare
import Mathlib.Data.EReal.Inv

/-!
# Specification: numbers and infinities as extended real numbers
-/

namespace Simpy
open Expr

/-- The extended real number that a value stands for. -/
noncomputable def PyNum.ext : PyNum → Option EReal
  | .frac q => some ((q : ℝ) : EReal)
  | .fin q => some ((q : ℝ) : EReal)
  | .pinf => some ⊤
  | .ninf => some ⊥
  | .nan => none

/-- The extended real number that a number stands for. -/
noncomputable def ext : Expr → Option EReal
  | rat q => some ((q : ℝ) : EReal)
  | flt (.fin q) => some ((q : ℝ) : EReal)
  | inf => some ⊤
  | neginf => some ⊥
  | _ => none

/-- A rational number or an infinity. -/
inductive Ext : Expr → Prop
  | rat (q : ℚ) : Ext (rat q)
  | inf : Ext inf
  | neginf : Ext neginf

def Infinite (x : EReal) : Prop := x = ⊤ ∨ x = ⊥

/-- 0, or neither too large nor too small for a (normal) float. CPython turns a Fraction into a float before it combines it with one: outside
this range it raises OverflowError or computes with 0.0. -/
def FloatRange (q : ℚ) : Prop := q = 0 ∨ 1 / 2 ^ 1022 ≤ |q| ∧ |q| ≤ 2 ^ 1022

def PyNum.InRange : PyNum → Prop
  | .frac q => FloatRange q
  | _ => True

/-- The rational numbers among `a` are in the range of floats. -/
def InRange : Expr → Prop
  | rat q => FloatRange q
  | _ => True

/-- IEEE 754 (and C's `pow`) for operations with infinities, and `q * 0.0`. Everything else is left open. -/
structure Oracle.Ieee (O : Oracle) : Prop where
  add : ∀ {a b x y}, a.ext = some x → b.ext = some y → a.InRange → b.InRange → Infinite x ∨ Infinite y →
    O.add a b = .ok (if x = ⊤ ∧ y = ⊥ ∨ x = ⊥ ∧ y = ⊤ then .nan else if x = ⊤ ∨ y = ⊤ then .pinf else .ninf)
  mul : ∀ {a b x y}, a.ext = some x → b.ext = some y → a.InRange → b.InRange → Infinite x ∨ Infinite y →
    O.mul a b = .ok (if x = 0 ∨ y = 0 then .nan else if (0 < x ↔ 0 < y) then .pinf else .ninf)
  mulZero : ∀ {q}, FloatRange q → O.mul (.frac q) (.fin 0) = .ok (.fin 0)
  powTop : ∀ {q : ℚ}, FloatRange q → q ≠ 0 → O.pow .pinf (.frac q) = .ok (if 0 < q then .pinf else .fin 0)
  /-- larger odd exponents are rounded to even ones -/
  powBot : ∀ {k : ℤ}, |k| ≤ 2 ^ 53 → k ≠ 0 →
    O.pow .ninf (.frac k) = .ok (if k < 0 then .fin 0 else if k % 2 = 1 then .ninf else .pinf)
  /-- numbers closer to 1 are rounded to 1 -/
  topPow : ∀ {q : ℚ}, FloatRange q → 0 < q → 1 / 2 ^ 52 ≤ |q - 1| → O.pow (.frac q) .pinf = .ok (if 1 < q then .pinf else .fin 0)
  botPow : ∀ {q : ℚ}, FloatRange q → 0 < q → 1 / 2 ^ 52 ≤ |q - 1| → O.pow (.frac q) .ninf = .ok (if 1 < q then .fin 0 else .pinf)

end Simpy
