import Verif.Model.Operand
import Verif.Spec.Built
import Verif.Spec.Eval

/-!
# What casting and mixed arithmetic should do (C74)
-/

namespace Simpy
open Expr

namespace PyVal

/-- One step into a container: an entry of a tuple or list, or of a dictionary by position (the key must be the one given). -/
inductive Step
  | idx (i : Nat)
  | key (i : Nat) (k : Str)

/-- The value at the end of a path. -/
def get : PyVal → List Step → Option PyVal
  | x, [] => some x
  | .tuple xs, .idx i :: p => xs[i]?.bind fun y => get y p
  | .list xs, .idx i :: p => xs[i]?.bind fun y => get y p
  | .dict kvs, .key i k :: p => kvs[i]?.bind fun e => if k = e.1 then get e.2 p else Option.none
  | _, _ => Option.none

/-- `Became x y`: what casting does at one place. Numbers become expressions, everything else stays what it is
(of containers only the kind and the size are compared here: their entries are at other places). -/
inductive Became : PyVal → PyVal → Prop
  | num (c) : Became (.num c) (.expr (Expr.const c))
  | none : Became .none .none
  | bool (b) : Became (.bool b) (.bool b)
  | expr (e) : Became (.expr e) (.expr e)
  | cls (c) : Became (.cls c) (.cls c)
  | dict (a b) : a.map Prod.fst = b.map Prod.fst → Became (.dict a) (.dict b)
  | tuple (a b) : a.length = b.length → Became (.tuple a) (.tuple b)
  | list (a b) : a.length = b.length → Became (.list a) (.list b)

end PyVal

/-- The operand is an expression of the library or a rational number (`int`, `Fraction`). -/
def Operand.Ok (O : Oracle) : Operand → Prop
  | .num c => ∃ q : ℚ, c = .frac q
  | .expr e => Built O e

/-- The value of an operand. -/
noncomputable def Operand.val (ρ : Str → ℝ) : Operand → ℝ
  | .num (.frac q) => q
  | .num (.fin q) => q
  | .num _ => 0
  | .expr e => den ρ e

/-- The operand is defined at `ρ`. -/
def Operand.Defined (ρ : Str → ℝ) : Operand → Prop
  | .num _ => True
  | .expr e => Dom ρ e

/-- The operation on real numbers. -/
noncomputable def BinOp.real : BinOp → ℝ → ℝ → ℝ
  | .add => (· + ·)
  | .sub => (· - ·)
  | .mul => (· * ·)
  | .div => (· / ·)
  | .pow => pw

/-- Where the operation is defined: no division by zero, powers with a positive base or integer exponent and no negative power
of zero. -/
def BinOp.Defined (ρ : Str → ℝ) : BinOp → Operand → Operand → Prop
  | .div, a, b => a.Defined ρ ∧ b.Defined ρ ∧ b.val ρ ≠ 0
  | .pow, a, b => PowDom ρ a.cast b.cast
  | _, a, b => a.Defined ρ ∧ b.Defined ρ

end Simpy
