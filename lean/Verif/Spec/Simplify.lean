import Verif.Model.Regex

/-!
# Specification: rules firing
-/

namespace Simpy
open Expr

/-- In the run of `replace` with `n` stack levels on `e`, some node that is reached gets a new expression from the rules. -/
inductive Fires (perf : Nat → Expr → R Rep) : Nat → Expr → Prop
  | here {n e u} : perf n e = .ok (.hit u) → Fires perf (n + 1) e
  | child {n e t} : perf n e = .ok .pass → t ∈ Expr.children e → Fires perf n t → Fires perf (n + 1) e

end Simpy
