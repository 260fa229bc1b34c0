import Verif.Spec.Built

/-!
# Specification: substitution
-/

namespace Simpy
open Expr

/-- The assignment that `subs` acts like: substituted symbols get the value of their replacement. -/
noncomputable def subsEnv (σ : Str → Option Expr) (ρ : Str → ℝ) (s : Str) : ℝ := den ρ ((σ s).getD (sym s))

/-- A number, or a symbol that is not substituted or is replaced by something that is neither a product nor a power. -/
def simpleArg (σ : Str → Option Expr) : Expr → Bool
  | rat _ | pi | euler => true
  | sym s => match σ s with
    | none => true
    | some v => baseOk v
  | _ => false

mutual
/-- Every power has an integer literal as exponent or a simple base, and every logarithm a simple argument. -/
def Tame (σ : Str → Option Expr) : Expr → Bool
  | sum ts => TameL σ ts
  | prod ts => TameL σ ts
  | pow b x => Tame σ b && Tame σ x && (intExp x || simpleArg σ b)
  | log i b => Tame σ i && Tame σ b && simpleArg σ i
  | trig _ i => Tame σ i
  | absv i => Tame σ i
  | _ => true
def TameL (σ : Str → Option Expr) : List Expr → Bool
  | [] => true
  | t :: r => Tame σ t && TameL σ r
end

end Simpy
