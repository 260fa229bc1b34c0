import Verif.Model.Py
import Mathlib.Data.Nat.Factorial.Basic

/-!
# combinatorics.py
-/

namespace Simpy

/-- `generate(current_permutation, current_sum, remaining_numbers)` of `generate_permutations`
(combinatorics.py:17-28).  The result list replaces the appends to `results`; `current_permutation` is passed by
value (Python pushes and pops).  `range(0, end + 1)` with `end = min(n, n - current_sum)`. -/
def genPerms (n : ℤ) : Nat → List Nat → ℤ → List (List Nat)
  | 0, cur, s => if s = n then [cur] else []
  | k + 1, cur, s =>
    (List.range (min n (n - s) + 1).toNat).flatMap (fun (v : Nat) => genPerms n k (cur ++ [v]) (s + v))

/-- `generate_permutations(i, n)` (combinatorics.py:6-32) for `i ≥ 0` (all callers pass `len(terms)`). -/
def generatePermutations (i : Nat) (n : ℤ) : List (List Nat) := genPerms n i [] 0

/-- What `multinomial_coefficient` returns: an int, or the error *string* of combinatorics.py:37. -/
inductive CoeffResult
  | int (k : ℕ)
  | message
  deriving DecidableEq, Repr

/-- `multinomial_coefficient(xs, n)` (combinatorics.py:35-50). `functools.reduce` of an empty list raises
TypeError. -/
def multinomialCoefficient (xs : List Nat) (n : Nat) : R CoeffResult :=
  if xs.sum > n then .ok .message
  else
    match xs.map Nat.factorial with
    | [] => .error .type
    | f :: fs => .ok (.int (n.factorial / ((n - xs.sum).factorial * fs.foldl (· * ·) f)))

end Simpy
