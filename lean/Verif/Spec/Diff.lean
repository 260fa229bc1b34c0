import Verif.Spec.Built

/-!
# Specification: regular points, smooth expressions
-/

namespace Simpy
open Expr

/-- `e` is regular at `ρ`: strictly inside its (principal) domain, and away from the corner of `|·|`. -/
abbrev Regular (ρ : Str → ℝ) (e : Expr) : Prop := DomS true ρ e

/-- The real function of `v` obtained by evaluating `e`, all other symbols having the values `ρ`. -/
noncomputable def fnOf (ρ : Str → ℝ) (v : Str) (e : Expr) (t : ℝ) : ℝ := den (Function.update ρ v t) e

mutual
/-- The expressions on which `e.diff(v)` is unconditionally right: logarithms that involve `v` are natural, there is no
`|·|` around `v`, no `csc`, `cot`, `asin`, `acos`, and no inverse trig function inside a trig function. -/
def Smooth (v : Str) : Expr → Bool
  | sum ts => SmoothL v ts
  | prod ts => SmoothL v ts
  | pow b x => Smooth v b && Smooth v x
  | log i b => Smooth v i && (b == euler || (!contains v i && !contains v b))
  | absv i => Smooth v i && !contains v i
  | trig .atan i => Smooth v i
  | trig .sin i | trig .cos i | trig .tan i | trig .sec i => Smooth v i && !containsCls isInvTrig i
  | trig _ _ => false
  | _ => true
def SmoothL (v : Str) : List Expr → Bool
  | [] => true
  | t :: r => Smooth v t && SmoothL v r
end

end Simpy
