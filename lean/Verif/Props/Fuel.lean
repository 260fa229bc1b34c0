import Verif.Proofs.Mono
import Verif.Proofs.ExactOracle

/-!
# C50: the result does not depend on the recursion budget

The second argument of `ctors`, `trigCtor`, `subsE`, `diffE`, `expandE` is the number of nested calls left before Python
raises `RecursionError`. A call that returns with budget `n` returns the same expression with every budget `m ≥ n`.
No hypothesis on the arguments or on floating point.
-/

namespace Simpy
open Expr

variable {O : Oracle} {n m : Nat}

/-- **C50** the constructors and `repr`. -/
theorem constructors_budget (h : n ≤ m) :
    (∀ ts r, (ctors O n).sum ts = .ok r → (ctors O m).sum ts = .ok r) ∧
    (∀ ts r, (ctors O n).prod ts = .ok r → (ctors O m).prod ts = .ok r) ∧
    (∀ b x r, (ctors O n).pow b x = .ok r → (ctors O m).pow b x = .ok r) ∧
    (∀ i r, (ctors O n).abs i = .ok r → (ctors O m).abs i = .ok r) ∧
    (∀ f i r, trigCtor O n f i = .ok r → trigCtor O m f i = .ok r) ∧
    (∀ e s, (ctors O n).repr e = .ok s → (ctors O m).repr e = .ok s) :=
  have k := ctors_le O h
  ⟨k.sum, k.prod, k.pow, k.abs,
    fun f i => le_of_succ (f := fun n => trigCtor O n f i) (fun n => trigCtor_le_succ O n f i) h, k.repr⟩

/-- **C50** the operators. -/
theorem operators_budget (h : n ≤ m) (a b r : Expr) :
    (opAdd (ctors O n) a b = .ok r → opAdd (ctors O m) a b = .ok r) ∧
    (opSub (ctors O n) a b = .ok r → opSub (ctors O m) a b = .ok r) ∧
    (opMul (ctors O n) a b = .ok r → opMul (ctors O m) a b = .ok r) ∧
    (opDiv (ctors O n) a b = .ok r → opDiv (ctors O m) a b = .ok r) ∧
    (opPow O (ctors O n) a b = .ok r → opPow O (ctors O m) a b = .ok r) ∧
    (opNeg (ctors O n) a = .ok r → opNeg (ctors O m) a = .ok r) :=
  have k := ctors_le O h
  ⟨opAdd_le k a b r, opSub_le k a b r, opMul_le k a b r, opDiv_le k a b r, opPow_le k a b r, opNeg_le k a r⟩

/-- **C50** `subs`, `diff`, `expandable`, `expand`. -/
theorem methods_budget (h : n ≤ m) (e : Expr) :
    (∀ σ r, subsE O n σ e = .ok r → subsE O m σ e = .ok r) ∧
    (∀ v r, diffE O n v e = .ok r → diffE O m v e = .ok r) ∧
    (∀ r, expandableE O n e = .ok r → expandableE O m e = .ok r) ∧
    (∀ r, expandE O n e = .ok r → expandE O m e = .ok r) :=
  ⟨fun σ => le_of_succ (f := fun n => subsE O n σ e) (fun n => subsE_le_succ O σ n e) h,
    fun v => le_of_succ (f := fun n => diffE O n v e) (fun n => diffE_le_succ O v n e) h,
    le_of_succ (f := fun n => expandableE O n e) (fun n => expandableE_le_succ O n e) h,
    le_of_succ (f := fun n => expandE O n e) (fun n => expandE_le_succ O n e) h⟩

/-! ## The hypotheses are met -/

section examples
set_option maxRecDepth 10000
private abbrev x : Expr := sym ['x']
private abbrev y : Expr := sym ['y']

/-- `(x + y)**2` expands with budget 8 but not with budget 1. -/
example : expandE exactOracle 8 (pow (sum [x, y]) (rat 2)) =
    .ok (sum [pow y (rat 2), pow x (rat 2), prod [rat 2, x, y]]) ∧
    expandE exactOracle 1 (pow (sum [x, y]) (rat 2)) = .error .recursion := by
  constructor <;> decide +kernel

end examples
end Simpy
