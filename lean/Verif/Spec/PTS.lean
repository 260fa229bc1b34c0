import Verif.Model.Simplify
import Verif.Spec.Expand

/-!
# Specification: runs of product-to-sum that are right

`_product_to_sum_unit` is wrong on some products (see `Props/PTS.lean`). `ptsOk` excludes them; it is decidable, and true for
products of sines and cosines without powers.
-/

namespace Simpy
open Expr

/-- All terms of an intermediate list pass the test. -/
def ptsAll (ok : Expr → Bool) : R (Option (List Expr)) → Bool
  | .ok (some us) => us.all ok
  | _ => true

/-- The product that gets expanded has integer exponents and no logarithms, and the result is a sum whose terms pass the test. -/
def ptsExpandOk (O : Oracle) (n : Nat) (ok : Expr → Bool) : R Expr → Bool
  | .ok p => intPows p && !containsCls isLog p &&
    match expandE O n p with
    | .ok (sum us) => us.all ok
    | .ok _ => false
    | .error _ => true
  | .error _ => true

/-- The product of the sums made from the powers (product_to_sum.py:66, 76-77). -/
def ptsProd (O : Oracle) (n : Nat) (unit : Expr → R (Option (List Expr))) (ts : List Expr) : R Expr := do
  let rs ← mapR (fun t => do let o ← unit t; ptsSum (ctors O n) o) ts
  (ctors O n).prod rs

/-- The product of the sums made from two powers (product_to_sum.py:66). -/
def ptsProd2 (O : Oracle) (n : Nat) (unit : Expr → R (Option (List Expr))) (a b : Expr) : R Expr := do
  let ra ← unit a
  let rb ← unit b
  let sa ← ptsSum (ctors O n) ra
  let sb ← ptsSum (ctors O n) rb
  opMul (ctors O n) sa sb

/-- In the run of `_product_to_sum_unit(e, multiplier=mult)` with `n` stack levels: products of three or more factors that have a
power among them are products of powers, and a product of sums expands to a sum. -/
def ptsOk (O : Oracle) : Nat → Expr → Option Expr → Bool
  | 0, _, _ => true
  | n + 1, e, _ =>
    let ok := fun t => ptsOk O n t none
    let unit := fun t => ptsUnit O n t none
    match constFactor e with
    | .ok (prod [a, b], _) =>
      if isSinCos a && isSinCos b then true
      else if isSinCos a && validPower b then ptsOk O n b (some a) && ptsAll ok (ptsUnit O n b (some a))
      else if isSinCos b && validPower a then ptsOk O n a (some b) && ptsAll ok (ptsUnit O n a (some b))
      else if validPower b && validPower a then ok a && ok b && ptsExpandOk O n ok (ptsProd2 O n unit a b)
      else true
    | .ok (prod ts, _) =>
      if !ts.all (fun t => isSinCos t || validPower t) then true
      else if ts.any (fun t => !isSinCos t) then
        ts.all (fun t => !isSinCos t) && ts.all ok && ptsExpandOk O n ok (ptsProd O n unit ts)
      else true
    | .ok (pow b (rat q), _) =>
      if validPower (pow b (rat q)) && q ≠ 2 then
        ptsAll ok (ptsPair O n b b (some (if q = 3 then b else pow b (rat (q - 2)))))
      else true
    | _ => true

end Simpy
