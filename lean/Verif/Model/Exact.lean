import Verif.Model.Ctors

/-!
# A concrete oracle, used to run the model inside the kernel

`exactOracle` decides integrality of roots exactly, never confuses a rational with pi or e, and gives up
(OverflowError) on floating-point work, except with infinities.  It shows that the hypothesis `Oracle.Exact` of the value theorems
is satisfiable, and lets examples evaluate the model.
-/

namespace Simpy

/-- The largest `k` with `k ^ d ≤ t`, bit by bit (`m` is a bound on the number of bits of `k`). -/
def floorRoot (d : Nat) : Nat → Nat → Nat
  | 0, _ => 0
  | m + 1, t =>
    let r := 2 * floorRoot d m (t / 2 ^ d)
    if (r + 1) ^ d ≤ t then r + 1 else r

/-- The `k` with `k ^ d = t`, if there is one. -/
def rootSearch (d t : Nat) : Option Nat :=
  let k := floorRoot d (t.log2 / d + 1) t
  if k ^ d = t then some k else none

/-- Exact integer value of `n ** x` if it is an integer. -/
def exactIntPow (n : ℤ) (x : ℚ) : Option ℤ :=
  if n < 0 ∨ x < 0 then none
  else
    match rootSearch x.den (n.toNat ^ x.num.toNat) with
    | some k => some (Int.ofNat k)
    | none => none

/-- The sign of a number, infinities included. -/
def PyNum.sign : PyNum → ℤ
  | .frac q => if q = 0 then 0 else if 0 < q then 1 else -1
  | .fin q => if q = 0 then 0 else if 0 < q then 1 else -1
  | .pinf => 1
  | .ninf => -1
  | .nan => 0

/-- IEEE addition if an operand is infinite or not a number. -/
def infAdd : PyNum → PyNum → R PyNum
  | .nan, _ | _, .nan | .pinf, .ninf | .ninf, .pinf => .ok .nan
  | .pinf, _ | _, .pinf => .ok .pinf
  | .ninf, _ | _, .ninf => .ok .ninf
  | _, _ => .error .overflow

/-- IEEE multiplication if an operand is infinite or not a number. -/
def infMul (a b : PyNum) : R PyNum :=
  match a, b with
  | .nan, _ | _, .nan => .ok .nan
  | .pinf, _ | .ninf, _ | _, .pinf | _, .ninf =>
    .ok (if a.sign * b.sign = 0 then .nan else if a.sign * b.sign = 1 then .pinf else .ninf)
  | _, _ => .error .overflow

/-- C's `pow` if the base is infinity. -/
def infPow : PyNum → PyNum → R PyNum
  | .pinf, .nan => .ok .nan
  | .pinf, x => .ok (if x.sign = 1 then .pinf else if x.sign = 0 then .fin 1 else .fin 0)
  | _, _ => .error .overflow

/-- The exact oracle. -/
def exactOracle : Oracle where
  add := infAdd
  mul := infMul
  pow := infPow
  intPow n x := .ok (exactIntPow n x)
  ratPow _ _ := .ok ()
  isPi _ := false
  isE _ := false
  piVal := 884279719003555 / 281474976710656
  eVal := 6121026514868073 / 2251799813685248
  toFloat _ := .error .overflow
  log _ := .error .overflow
  div _ _ := .error .overflow
  trig _ _ := .error .overflow
  frepr q := ratStr q

end Simpy
