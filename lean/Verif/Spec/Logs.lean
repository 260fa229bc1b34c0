import Verif.Model.Simplify
import Verif.Spec.Eval
import Verif.Spec.Built

/-!
# Specification: arguments of logarithms are positive

`_log_perform` splits `log(i)` according to the form of `i`. `LogPieces O st ρ n i` says that the arguments of the new logarithms are
positive at `ρ` (`PosArg`; `n` stack levels are left), and that the logarithms are natural ones.
-/

namespace Simpy
open Expr

/-- `t` is a legitimate argument of a logarithm. -/
def PosArg (ρ : Str → ℝ) (t : Expr) : Prop := HN ρ t ∧ 0 < den ρ t

/-- The arguments of the new logarithms are positive. -/
def LogPieces (O : Oracle) (st : Bool) (ρ : Str → ℝ) (n : Nat) : Expr → Prop
  | pow b _ => 0 < den ρ b
  | prod ts => ∀ t ∈ ts, PosArg ρ t
  | sum ts => (∀ c, factorCommon (ctors O n) ts = .ok c → DomS st ρ c ∧ den ρ c ≠ 0) ∧
      ∀ us, sumFactors (ctors O n) ts = .ok (some us) → ∀ t ∈ us, PosArg ρ t
  | trig f i => ∀ g, (f, g) ∈ [(TrigFn.sec, TrigFn.cos), (.csc, .sin), (.cot, .tan)] →
      containsCls isInvTrig i = false ∧ ∀ t, trigCtor O n g i = .ok t → PosArg ρ t
  | absv (pow b _) => den ρ b ≠ 0
  | absv (sum ts) => ∀ c, factorCommon (ctors O n) ts = .ok c → DomS st ρ c ∧ den ρ c ≠ 0
  | _ => True

/-- The logarithms the run of `expand_logs` looks at are natural, and their pieces positive. -/
def LogOk (O : Oracle) (st : Bool) (ρ : Str → ℝ) (n : Nat) : Expr → Prop
  | log i b => b = euler ∧ LogPieces O st ρ n i
  | _ => True

end Simpy
