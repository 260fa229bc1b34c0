import Verif.Model.Expr

/-!
# Specification: subexpressions, renaming
-/

namespace Simpy
open Expr

/-- `s` occurs in `e` (possibly `e` itself). -/
inductive Sub (s : Expr) : Expr → Prop
  | here : Sub s s
  | child {t e : Expr} : t ∈ e.children → Sub s t → Sub s e

mutual
/-- `e` with the symbol `x` renamed to `y`, without simplifying. -/
def rename (x y : Str) : Expr → Expr
  | sym a => sym (if a = x then y else a)
  | sum ts => sum (renameL x y ts)
  | prod ts => prod (renameL x y ts)
  | pow b e => pow (rename x y b) (rename x y e)
  | log i b => log (rename x y i) (rename x y b)
  | trig f i => trig f (rename x y i)
  | absv i => absv (rename x y i)
  | t => t
def renameL (x y : Str) : List Expr → List Expr
  | [] => []
  | t :: r => rename x y t :: renameL x y r
end

mutual
/-- No floating point number in `e`. -/
def floatFree : Expr → Bool
  | flt _ => false
  | sum ts => floatFreeL ts
  | prod ts => floatFreeL ts
  | pow b x => floatFree b && floatFree x
  | log i b => floatFree i && floatFree b
  | trig _ i => floatFree i
  | absv i => floatFree i
  | _ => true
def floatFreeL : List Expr → Bool
  | [] => true
  | t :: r => floatFree t && floatFreeL r
end

/-- No rational is mistaken for pi or e by `Fraction == float`. -/
structure Oracle.NoConfusion (O : Oracle) : Prop where
  isPi : ∀ q, O.isPi q = false
  isE : ∀ q, O.isE q = false

end Simpy
