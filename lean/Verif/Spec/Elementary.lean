import Verif.Proofs.LinTerms

/-!
# Specification: terms, and derivatives of higher order

`scale c u` (Proofs/Total) is the number 0 for `c = 0`, `u` for `c = 1` and the product of `c` and `u` otherwise.
-/

namespace Simpy
open Expr

/-- `diff` `k` times. -/
def diffs (O : Oracle) (n : Nat) (v : Str) : Nat → Expr → R Expr
  | 0, e => .ok e
  | k + 1, e => do
    let d ← diffE O n v e
    diffs O n v k d

namespace Lin

/-- `c * x ** q`, as the constructors write it: `c` for `q = 0`, and `c * x` for `q = 1`. -/
def powTerm (v : Str) (c q : ℚ) : Expr := if c = 0 then rat 0 else if q = 0 then rat c else scale c (varPow v q)

end Lin
end Simpy
