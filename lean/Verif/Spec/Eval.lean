import Verif.Model.Ctors
import Mathlib.Analysis.SpecialFunctions.Pow.Real
import Mathlib.Analysis.SpecialFunctions.Trigonometric.Inverse
import Mathlib.Analysis.SpecialFunctions.Trigonometric.Arctan
import Mathlib.Analysis.SpecialFunctions.Trigonometric.Basic

/-!
# Specification: what an expression means

Independent of the constructors: `den ρ e` is the real number that the expression tree `e` denotes when the
symbols have the values `ρ`; `Dom ρ e` says that the tree is defined at `ρ` and every root and logarithm in
it is a *principal* one (its radicand is non-negative factor by factor), which is where the identities
`(ab)^x = a^x b^x` and `(a^x)^y = a^(xy)` are valid.  `DomF` is the larger "textbook" domain.
-/

namespace Simpy
open Expr

/-- Real power with the school convention for odd roots of negative numbers: `(-8)^(1/3) = -2`,
`(-8)^(2/3) = 4`. Agrees with `Real.rpow` for a non-negative base and for integral exponents. -/
noncomputable def pw (b x : ℝ) : ℝ :=
  open Classical in
  if h : b < 0 ∧ ∃ q : ℚ, (q : ℝ) = x ∧ Odd q.den then
    if Even h.2.choose.num then |b| ^ x else -(|b| ^ x)
  else b ^ x

/-- The real function of a trig class. -/
noncomputable def TrigFn.real : TrigFn → ℝ → ℝ
  | .sin, t => Real.sin t
  | .cos, t => Real.cos t
  | .tan, t => Real.sin t / Real.cos t
  | .csc, t => 1 / Real.sin t
  | .sec, t => 1 / Real.cos t
  | .cot, t => Real.cos t / Real.sin t
  | .asin, t => Real.arcsin t
  | .acos, t => Real.arccos t
  | .atan, t => Real.arctan t

/-- Where a trig function is defined. -/
def TrigFn.ok : TrigFn → ℝ → Prop
  | .sin, _ | .cos, _ | .atan, _ => True
  | .tan, t | .sec, t => Real.cos t ≠ 0
  | .csc, t | .cot, t => Real.sin t ≠ 0
  | .asin, t | .acos, t => -1 ≤ t ∧ t ≤ 1

mutual
/-- The real number denoted by an expression (floats, infinities and wildcards get the junk value 0; they are
excluded by the domain predicates). -/
noncomputable def den (ρ : Str → ℝ) : Expr → ℝ
  | rat q => (q : ℝ)
  | pi => Real.pi
  | euler => Real.exp 1
  | sym s => ρ s
  | sum ts => denS ρ ts
  | prod ts => denP ρ ts
  | pow b x => pw (den ρ b) (den ρ x)
  | log i b => Real.log (den ρ i) / Real.log (den ρ b)
  | trig f i => f.real (den ρ i)
  | absv i => |den ρ i|
  | flt _ => 0
  | inf => 0
  | neginf => 0
  | any _ => 0
/-- sum of the values -/
noncomputable def denS (ρ : Str → ℝ) : List Expr → ℝ
  | [] => 0
  | t :: r => den ρ t + denS ρ r
/-- product of the values -/
noncomputable def denP (ρ : Str → ℝ) : List Expr → ℝ
  | [] => 1
  | t :: r => den ρ t * denP ρ r
end

/-- The exponent is an integer literal. -/
def intExp : Expr → Bool
  | rat q => q.den == 1
  | _ => false

mutual
/-- Hereditarily non-negative: non-negative, and so are all factors and all power bases visible at the top. -/
def HN (ρ : Str → ℝ) : Expr → Prop
  | pow b _ => HN ρ b
  | prod ts => if isSubtraction (prod ts) then 0 ≤ denP ρ ts else HNL ρ ts
  | t => 0 ≤ den ρ t
def HNL (ρ : Str → ℝ) : List Expr → Prop
  | [] => True
  | t :: r => HN ρ t ∧ HNL ρ r
end

/-- Where a trig function is differentiable. -/
def TrigFn.inner : TrigFn → ℝ → Prop
  | .asin, t | .acos, t => -1 < t ∧ t < 1
  | _, _ => True

mutual
/-- Principal domain of an expression (`s = false`). With `s = true`, the strict domain: no points at the border of
the domain or where `|·|` has its corner (only a positive integer power may have a zero base, `asin`, `acos` are
strictly inside `[-1, 1]`, the inside of `|·|` is not 0). -/
def DomS (s : Bool) (ρ : Str → ℝ) : Expr → Prop
  | rat _ => True
  | pi => True
  | euler => True
  | sym _ => True
  | sum ts => DomSL s ρ ts
  | prod ts => DomSL s ρ ts
  | pow b x => DomS s ρ b ∧ DomS s ρ x ∧ (den ρ b ≠ 0 ∨ 0 ≤ den ρ x) ∧ (intExp x = false → HN ρ b) ∧
      (s = true → den ρ b ≠ 0 ∨ intExp x = true ∧ 1 ≤ den ρ x)
  | log i b => DomS s ρ i ∧ DomS s ρ b ∧ HN ρ i ∧ 0 < den ρ i ∧ 0 < den ρ b ∧ den ρ b ≠ 1
  | trig f i => DomS s ρ i ∧ f.ok (den ρ i) ∧ (s = true → f.inner (den ρ i))
  | absv i => DomS s ρ i ∧ (s = true → den ρ i ≠ 0)
  | flt _ => False
  | inf => False
  | neginf => False
  | any _ => False
def DomSL (s : Bool) (ρ : Str → ℝ) : List Expr → Prop
  | [] => True
  | t :: r => DomS s ρ t ∧ DomSL s ρ r
end

/-- Principal domain of an expression. -/
abbrev Dom (ρ : Str → ℝ) (e : Expr) : Prop := DomS false ρ e

mutual
/-- Textbook domain of an expression: denominators are non-zero, a negative base has an exponent with an odd
denominator (so that the real root exists), logarithms have positive arguments. -/
def DomF (ρ : Str → ℝ) : Expr → Prop
  | rat _ => True
  | pi => True
  | euler => True
  | sym _ => True
  | sum ts => DomFL ρ ts
  | prod ts => DomFL ρ ts
  | pow b x => DomF ρ b ∧ DomF ρ x ∧ (den ρ b ≠ 0 ∨ 0 ≤ den ρ x) ∧
      (0 ≤ den ρ b ∨ ∃ q : ℚ, (q : ℝ) = den ρ x ∧ Odd q.den)
  | log i b => DomF ρ i ∧ DomF ρ b ∧ 0 < den ρ i ∧ 0 < den ρ b ∧ den ρ b ≠ 1
  | trig f i => DomF ρ i ∧ f.ok (den ρ i)
  | absv i => DomF ρ i
  | flt _ => False
  | inf => False
  | neginf => False
  | any _ => False
def DomFL (ρ : Str → ℝ) : List Expr → Prop
  | [] => True
  | t :: r => DomF ρ t ∧ DomFL ρ r
end

mutual
/-- A radicand that `Power(·, x)` can take apart: like `HN`, but an even power `a^(2k)` under the exponent
`1/(2k)` may have any base `a`, since the code returns `|a|` for it. -/
def RadOk (ρ : Str → ℝ) (x : Expr) : Expr → Prop
  | pow b y => (∃ p q : ℚ, y = rat p ∧ x = rat q ∧ p.den = 1 ∧ p.num % 2 = 0 ∧ p * q = 1) ∨ HN ρ b
  | prod ts => if isSubtraction (prod ts) then 0 ≤ denP ρ ts else RadOkL ρ x ts
  | t => 0 ≤ den ρ t
def RadOkL (ρ : Str → ℝ) (x : Expr) : List Expr → Prop
  | [] => True
  | t :: r => RadOk ρ x t ∧ RadOkL ρ x r
end

/-- Raising `b` to the power `x` is defined at `ρ` and principal (and, with `s = true`, not at a border point). -/
def PowDomS (s : Bool) (ρ : Str → ℝ) (b x : Expr) : Prop :=
  DomS s ρ b ∧ DomS s ρ x ∧ (den ρ b ≠ 0 ∨ 0 ≤ den ρ x) ∧ (intExp x = false → RadOk ρ x b) ∧
    (s = true → den ρ b ≠ 0 ∨ intExp x = true ∧ 1 ≤ den ρ x)

/-- Raising `b` to the power `x` is defined at `ρ` and principal. -/
abbrev PowDom (ρ : Str → ℝ) (b x : Expr) : Prop := PowDomS false ρ b x

/-- Not a power, and not a product unless its leading factor is a negative number. -/
def baseOk : Expr → Bool
  | pow _ _ => false
  | prod ts => isSubtraction (prod ts)
  | _ => true

mutual
/-- Well-formed: every product node has at most one numeric factor, and the base of a power is not itself a
power or a product (other than one with a negative leading number). Everything the public constructors build
is well-formed (`Built.wf`). -/
def WF : Expr → Prop
  | sum ts => WFL ts
  | prod ts => (ts.filter isAcc).length ≤ 1 ∧ WFL ts
  | pow b x => WF b ∧ WF x ∧ baseOk b = true
  | log i b => WF i ∧ WF b
  | trig _ i => WF i
  | absv i => WF i
  | _ => True
def WFL : List Expr → Prop
  | [] => True
  | t :: r => WF t ∧ WFL r
end

/-- What the value theorems assume about floating point: the root test never reports an integer that is not
the exact power (in particular never for a negative base), and no rational is mistaken for pi or e. -/
structure Oracle.Exact (O : Oracle) : Prop where
  intPow : ∀ (n : ℤ) (x : ℚ) (k : ℤ), x.den ≠ 1 → 0 < x → O.intPow n x = .ok (some k) →
    0 ≤ n ∧ (k : ℝ) = (n : ℝ) ^ (x : ℝ)
  isPi : ∀ q, O.isPi q = false
  isE : ∀ q, O.isE q = false

end Simpy
