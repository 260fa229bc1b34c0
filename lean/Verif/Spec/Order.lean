import Verif.Model.Ctors

/-!
# Specification: the canonical order of terms

The sort key of a term is: its complexity; then, for terms without symbols, the depth, and for the others the constant
exponent; then its printed form.
-/

namespace Simpy
open Expr

/-- The value of a computation, or a default if it raises. -/
def R.get {α : Type} (d : α) : R α → α
  | .ok a => a
  | .error _ => d

/-- The sort key (with `C.repr` as the printed form). -/
def sortKey (C : Ctors) (a : Expr) : Nat × ℚ × Str :=
  let n := R.get 0 (nwf a)
  (n, if n = 0 then (symbolessNest a : ℚ) else R.get 0 (constPower a), R.get [] (C.repr a))

/-- Lexicographic comparison of keys: first component, then second, then the string by code points. -/
def keyLe (j k : Nat × ℚ × Str) : Prop :=
  j.1 < k.1 ∨ j.1 = k.1 ∧ (j.2.1 < k.2.1 ∨ j.2.1 = k.2.1 ∧ strLt k.2.2 j.2.2 = false)

mutual
/-- Every number in the expression is rational (or pi or e): no floats, no infinities. -/
def ratNums : Expr → Bool
  | flt _ => false
  | inf => false
  | neginf => false
  | sum ts => ratNumsL ts
  | prod ts => ratNumsL ts
  | pow b x => ratNums b && ratNums x
  | log i b => ratNums i && ratNums b
  | trig _ i => ratNums i
  | absv i => ratNums i
  | _ => true
def ratNumsL : List Expr → Bool
  | [] => true
  | t :: r => ratNums t && ratNumsL r
end

end Simpy
