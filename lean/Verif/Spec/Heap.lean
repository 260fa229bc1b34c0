import Verif.Model.Heap

/-! # Specification: expressions as objects -/

namespace Simpy
open Expr

mutual
/-- The expression with nested sums and nested products flattened. -/
def flatE : Expr → Expr
  | sum ts => sum (flatSum ts)
  | prod ts => prod (flatProd ts)
  | pow b x => pow (flatE b) (flatE x)
  | log i b => log (flatE i) (flatE b)
  | trig f i => trig f (flatE i)
  | absv i => absv (flatE i)
  | e => e
/-- The summands. -/
def flatSum : List Expr → List Expr
  | [] => []
  | sum us :: r => flatSum us ++ flatSum r
  | t :: r => flatE t :: flatSum r
/-- The factors. -/
def flatProd : List Expr → List Expr
  | [] => []
  | prod us :: r => flatProd us ++ flatProd r
  | t :: r => flatE t :: flatProd r
end

namespace Heap

/-- Objects are made of older objects, and have the right number of children. -/
def Acyclic (h : Store) : Prop :=
  ∀ (i : Nat) (o : Obj), h[i]? = some o → o.head.fits o.kids.length = true ∧ ∀ j ∈ o.kids, j < i

/-- No sum has a sum and no product a product among its children. -/
def Flat (h : Store) : Prop :=
  ∀ (i j : Nat) (o c : Obj), h[i]? = some o → j ∈ o.kids → h[j]? = some c → o.head.sameAssoc c.head = false

/-- The event is not a `log(b ** l, b)` whose result is an old `log` object. -/
def Harmless (O : Oracle) (h : Store) : Op → Prop
  | .log i b => ∀ j, logOf O h i b = some j → isLogAt h j = false
  | _ => True

/-- The variable of the question has a name, as `Symbol.__post_init__` asserts of every symbol (expr.py:785-787). (The cache uses the
empty name as the key for no variable.) -/
def Named : Op → Prop
  | .nesting _ (some v) => v ≠ []
  | _ => True

/-- The event does not make a sum of sums or a product of products, either by itself or in its answer. -/
def Level (O : Oracle) (h : Store) : Op → Prop
  | .new hd kids => ∀ j ∈ kids, ∀ c, h[j]? = some c → hd.sameAssoc c.head = false
  | .ask n q i => ∀ p, found O n q (expr h i) = .ok p → ∀ e ∈ p.1 ++ p.2, flatE e = e
  | _ => True

/-- Every event of the history satisfies `P` in the store in which it happens. -/
def Along (O : Oracle) (P : Store → Op → Prop) : Store → List Op → Prop
  | _, [] => True
  | h, op :: ops => P h op ∧ Along O P (step O h op).1 ops

/-- `a` is the answer that the question has if nothing is cached: for `nesting` exactly; for `symbols` it is the names in the
expression, unless the recursion limit is exceeded, and that is not so if the limit is higher than the number of the object; for
`expandable` it is what the computation without caches says if it says anything, and anything answered is what it says with some
recursion limit; and for the other questions the objects in the answer stand, after the question, for what it says. -/
def Right (O : Oracle) (h : Store) : Op → Ans → Prop
  | .nesting i v, .num r => i < h.length → r = nesting O v (expr h i)
  | .symbols n i, .names r =>
    (∀ l, r = .ok l → l = syms (expr h i)) ∧ (i < h.length → i < n → r = .ok (syms (expr h i)))
  | .expandable n i, .bool r =>
    (∀ b, r = .ok b → ∃ m, expandableE O m (expr h i) = .ok b) ∧
      (i < h.length → ∀ b, expandableE O n (expr h i) = .ok b → r = .ok b)
  | .ask n q i, .objs r =>
    (∀ p, r = .ok p → ∃ m, found O m q (expr h i) =
        .ok (p.1.map (expr (step O h (.ask n q i)).1), p.2.map (expr (step O h (.ask n q i)).1))) ∧
      (i < h.length → ∀ w, found O n q (expr h i) = .ok w →
        ∃ p, r = .ok p ∧ w = (p.1.map (expr (step O h (.ask n q i)).1), p.2.map (expr (step O h (.ask n q i)).1)))
  | .new _ _, .none | .operands _ _, .none | .log _ _, .none => True
  | _, _ => False

/-- All the answers of the history are right in the store in which the question was asked. -/
def AllRight (O : Oracle) : Store → List Op → List Ans → Prop
  | _, [], [] => True
  | h, op :: ops, a :: as => Right O h op a ∧ AllRight O (step O h op).1 ops as
  | _, _, _ => False

/-- The object `j` is part of the object `i`. -/
inductive Part (h : Store) : Nat → Nat → Prop
  | kid {i j : Nat} {o : Obj} : h[i]? = some o → j ∈ o.kids → Part h i j
  | trans {i j k : Nat} : Part h i j → Part h j k → Part h i k

end Heap
end Simpy
