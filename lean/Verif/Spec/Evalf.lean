import Verif.Spec.Eval
import Verif.Model.Evalf

/-!
# Specification: accurate floating-point arithmetic
-/

namespace Simpy
open Expr

/-- The rational number that a Python number is, unless it is infinite or not a number. -/
def PyNum.num : PyNum → Option ℚ
  | .frac q => some q
  | .fin q => some q
  | _ => none

/-- `v` is a finite number within `δ` of the real number `x`. -/
def Within (δ : ℝ) (v : PyNum) (x : ℝ) : Prop := ∃ q : ℚ, v.num = some q ∧ |(q : ℝ) - x| ≤ δ

/-- Floating-point arithmetic of absolute accuracy `δ` for numbers of absolute value at most `1/δ`: each operation returns, or raises,
or returns something within `δ` of the exact result. `x ** y` with a negative `x` and a fractional `y`, logarithms of numbers that are
not positive, and trig functions outside their domains raise (the first returns a complex number, on which `Float` raises). -/
structure Accurate (δ : ℝ) (O : Oracle) : Prop where
  add : ∀ {a b v : PyNum} {p q : ℚ}, a.num = some p → b.num = some q → |(p : ℝ)| ≤ 1 / δ → |(q : ℝ)| ≤ 1 / δ →
    O.add a b = .ok v → Within δ v (p + q)
  mul : ∀ {a b v : PyNum} {p q : ℚ}, a.num = some p → b.num = some q → |(p : ℝ)| ≤ 1 / δ → |(q : ℝ)| ≤ 1 / δ →
    O.mul a b = .ok v → Within δ v (p * q)
  pow : ∀ {a b v : PyNum} {p q : ℚ}, a.num = some p → b.num = some q → |(p : ℝ)| ≤ 1 / δ → |(q : ℝ)| ≤ 1 / δ →
    (p ≠ 0 ∨ 0 < q) → |pw p q| ≤ 1 / δ → O.pow a b = .ok v → Within δ v (pw p q)
  powReal : ∀ {a b v : PyNum} {p q : ℚ}, a.num = some p → b.num = some q → O.pow a b = .ok v → p < 0 → q.den = 1
  toFloat : ∀ {v : PyNum} {q : ℚ}, |(q : ℝ)| ≤ 1 / δ → O.toFloat q = .ok v → Within δ v q ∧ ∀ p, v ≠ .frac p
  pi : |(O.piVal : ℝ) - Real.pi| ≤ δ
  e : |(O.eVal : ℝ) - Real.exp 1| ≤ δ
  log : ∀ {a v : PyNum} {p : ℚ}, a.num = some p → |(p : ℝ)| ≤ 1 / δ → |Real.log p| ≤ 1 / δ → O.log a = .ok v →
    0 < p ∧ Within δ v (Real.log p)
  trig : ∀ {f : TrigFn} {a v : PyNum} {p : ℚ}, a.num = some p → |(p : ℝ)| ≤ 1 / δ → |f.real p| ≤ 1 / δ → O.trig f a = .ok v →
    f.ok p ∧ Within δ v (f.real p)
  floats : (∀ a b v p, O.add a b = .ok v → v ≠ .frac p) ∧ (∀ a b v p, O.mul a b = .ok v → v ≠ .frac p) ∧
    (∀ a b v p, O.pow a b = .ok v → v ≠ .frac p) ∧ (∀ a v p, O.log a = .ok v → v ≠ .frac p) ∧
    (∀ f a v p, O.trig f a = .ok v → v ≠ .frac p)

mutual
/-- Where the value of an expression depends continuously on the values of its parts: `0 ** x` only with positive `x`; logarithms are
natural (`log(i, b)` with another base is evaluated wrongly, see `evalf_log_fails`). No numbers that are already floats, no
infinities. -/
def DomE (ρ : Str → ℝ) : Expr → Prop
  | rat _ => True
  | pi => True
  | euler => True
  | sym _ => True
  | sum ts => DomEL ρ ts
  | prod ts => DomEL ρ ts
  | pow b x => DomE ρ b ∧ DomE ρ x ∧ (den ρ b ≠ 0 ∨ 0 < den ρ x)
  | log i b => DomE ρ i ∧ b = euler ∧ 0 < den ρ i
  | trig f i => DomE ρ i ∧ f.ok (den ρ i)
  | absv i => DomE ρ i
  | flt _ => False
  | inf => False
  | neginf => False
  | any _ => False
def DomEL (ρ : Str → ℝ) : List Expr → Prop
  | [] => True
  | t :: r => DomE ρ t ∧ DomEL ρ r
end

end Simpy
