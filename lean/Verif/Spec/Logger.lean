import Verif.Model.Logger

/-!
# Specification: what the log of integrals contains
-/

namespace Simpy
namespace Logger

/-- `x` is what was logged last for an integrand with the text `k`. -/
def Latest (O : Oracle) (n : Nat) (evs : List Event) (k : Str) (x : Datum) : Prop :=
  ∃ before after, evs = before ++ .log x :: after ∧ (ctors O n).repr x.expr = .ok k ∧
    ∀ y, Event.log y ∈ after → (ctors O n).repr y.expr ≠ .ok k

/-- From most time to least time. -/
def Slowest (d : Data) : Prop := d.Pairwise fun a b => b.2.time ≤ a.2.time

end Logger
end Simpy
