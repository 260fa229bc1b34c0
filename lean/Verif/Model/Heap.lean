import Verif.Model.Nesting
import Verif.Model.Calculus

/-!
# Model: expressions as mutable objects

Elsewhere in the model expressions are values. In the program they are objects, shared between the expressions that contain them,
and three things change objects after they have been made:

* caches: `_nesting_cache`, `_symbols_cache`, `_expandable_cache`, `_expand_cache` (expr.py:111-114, 28-43, 187-195, 248-252),
  `_deconstruct_prod_cache`, `_deconstruct_power_cache`, `_numerator_denominator_cache`, `_sans_const_cache`, `_const_cache`
  (expr.py:1042, 1066, 1261, 2086) and `_any_cache` (regex.py:102);
* `_flatten`, which the constructors of sums and products call on their operands (expr.py:292-310, 889, 1158);
* Python's `__init__`, which is called on whatever `__new__` returns if it has the class asked for: `log(b ** l, b)` returns the
  object `l`, and if that is a `log` it gets a new argument and base (expr.py:1589-1610).

The store is the list of all objects made so far; objects refer to each other by their position.
-/

namespace Simpy
open Expr
namespace Heap

/-- The class of an object, and the object itself if it has no children. -/
inductive Head
  | atom (e : Expr) | sum | prod | pow | log | trig (f : TrigFn) | absv

/-- The expression with this head and these children. (`rat 0` if there are not as many as there should be.) -/
def Head.build : Head → List Expr → Expr
  | atom e, _ => e
  | sum, ts => Expr.sum ts
  | prod, ts => Expr.prod ts
  | pow, [b, x] => Expr.pow b x
  | log, [i, b] => Expr.log i b
  | trig f, [i] => Expr.trig f i
  | absv, [i] => Expr.absv i
  | _, _ => rat 0

/-- The right number of children; atoms are expressions without children. -/
def Head.fits : Head → Nat → Bool
  | atom (Expr.sum _), _ | atom (Expr.prod _), _ | atom (Expr.pow _ _), _ | atom (Expr.log _ _), _ | atom (Expr.trig _ _), _
  | atom (Expr.absv _), _ => false
  | atom _, k => k == 0
  | sum, _ | prod, _ => true
  | pow, k | log, k => k == 2
  | trig _, k | absv, k => k == 1

/-- `isinstance(t, cls)` for `cls` Sum or Prod (expr.py:297). -/
def Head.sameAssoc : Head → Head → Bool
  | sum, sum | prod, prod => true
  | _, _ => false

/-- The questions whose cached answers are objects: `_deconstruct_prod` (expr.py:1032-1061), `deconstruct_power` (1064-1076),
`numerator_denominator` (1259-1263), `remove_const_factor` (2083-2103), `get_anys` (regex.py:89-104), `expand` (192-195). -/
inductive Query
  | coeffs | power | numDen | sans | anys | expand
  deriving DecidableEq

/-- An object (`Expr.__post_init__`, expr.py:116-126, and the fields of the dataclasses). -/
structure Obj where
  head : Head
  kids : List Nat
  nestings : List (Str × Nat) := []
  symbols : Option (List Str) := none
  expandable : Option Bool := none
  found : List (Query × (List Nat × List Nat)) := []

abbrev Store := List Obj

/-- The expression that an object stands for, down to a depth. -/
def exprK (h : Store) : Nat → Nat → Expr
  | 0, _ => rat 0
  | k + 1, i =>
    match h[i]? with
    | some o => o.head.build (o.kids.map (exprK h k))
    | none => rat 0

/-- The expression that an object stands for. -/
def expr (h : Store) (i : Nat) : Expr := exprK h h.length i

/-! ## Cached questions -/

/-- `nesting(expr, var)` (expr.py:28-43). The key is the name of the variable, or "" if there is none. The computation itself
(`_nesting`, expr.py:46-67) does not use the caches of the children. -/
def nestingQ (O : Oracle) (h : Store) (i : Nat) (v : Option Str) : Store × R Nat :=
  match h[i]? with
  | none => (h, .error .attribute)
  | some o =>
    match o.nestings.lookup (v.getD []) with
    | some a => (h, .ok a)
    | none =>
      match nesting O v (expr h i) with
      | .ok a => (h.modify i fun o => { o with nestings := (v.getD [], a) :: o.nestings }, .ok a)
      | .error er => (h, .error er)

/-- Ask the objects in turn and collect the names (expr.py:245). -/
def collect (f : Store → Nat → Store × R (List Str)) : Store → List Nat → Store × R (List Str)
  | h, [] => (h, .ok [])
  | h, t :: r =>
    match f h t with
    | (h1, .error er) => (h1, .error er)
    | (h1, .ok l) =>
      match collect f h1 r with
      | (h2, .error er) => (h2, .error er)
      | (h2, .ok l') => (h2, .ok (l ++ l'))

/-- `expr.symbols()` (expr.py:244-252, 808-809), as names with repetitions (see `syms`); the fuel is the recursion limit. -/
def symbolsQ : Nat → Store → Nat → Store × R (List Str)
  | 0, h, _ => (h, .error .recursion)
  | k + 1, h, i =>
    match h[i]? with
    | none => (h, .error .attribute)
    | some o =>
      match o.head with
      | .atom (sym s) => (h, .ok [s])
      | _ =>
        match o.symbols with
        | some l => (h, .ok l)
        | none =>
          match collect (symbolsQ k) h o.kids with
          | (h1, .error er) => (h1, .error er)
          | (h1, .ok l) => (h1.modify i fun o => { o with symbols := some l }, .ok l)

/-- `any(f(c) for c in l)`. -/
def anyQ (f : Store → Nat → Store × R Bool) : Store → List Nat → Store × R Bool
  | h, [] => (h, .ok false)
  | h, t :: r =>
    match f h t with
    | (h1, .ok false) => anyQ f h1 r
    | p => p

/-- Is the object a Sum? -/
def isSumAt (h : Store) (i : Nat) : Bool :=
  match h[i]? with
  | some o => match o.head with
    | .sum => true
    | _ => false
  | none => false

/-- The second half of `Prod._expandable` (expr.py:1275-1278). -/
def denHasSum (O : Oracle) (n : Nat) (ts : List Expr) : R Bool := do
  let (_, d) ← numDen O (ctors O n) ts
  match d with
  | Expr.prod us => return us.any isSum
  | _ => return false

/-- `Power._power_expandable` (expr.py:1456-1462). -/
def powerTest : List Expr → Bool
  | [b, x] => powerExpandable b x
  | _ => false

/-- `expr.expandable()` (expr.py:187-190, 198-201, 1269-1278, 1464-1465). -/
def expandableQ (O : Oracle) : Nat → Store → Nat → Store × R Bool
  | 0, h, _ => (h, .error .recursion)
  | n + 1, h, i =>
    match h[i]? with
    | none => (h, .error .attribute)
    | some o =>
      match o.expandable with
      | some b => (h, .ok b)
      | none =>
        let r : Store × R Bool :=
          match o.head with
          | .prod =>
            match anyQ (fun h t => if isSumAt h t then (h, .ok true) else expandableQ O n h t) h o.kids with
            | (h1, .ok false) => (h1, denHasSum O n (o.kids.map (expr h1)))
            | p => p
          | .pow => if powerTest (o.kids.map (expr h)) then (h, .ok true) else anyQ (expandableQ O n) h o.kids
          | _ => anyQ (expandableQ O n) h o.kids
        match r with
        | (h1, .ok b) => (h1.modify i fun o => { o with expandable := some b }, .ok b)
        | p => p

/-- The answer, from the expression alone. All answers are pairs of lists here: coefficients and other factors; base and exponent;
numerator and denominator; what is left and the constant factor; the `Any_`s, as many times as they occur; the expanded expression. -/
def found (O : Oracle) (n : Nat) (q : Query) (e : Expr) : R (List Expr × List Expr) :=
  match q with
  | .coeffs => .ok (deconProd e)
  | .power => .ok ([(deconPow e).1], [(deconPow e).2])
  | .numDen =>
    match e with
    | Expr.prod ts => do
      let p ← Simpy.numDen O (ctors O n) ts
      return ([p.1], [p.2])
    | _ => .error .attribute
  | .sans =>
    match e with
    | Expr.prod ts => do
      let a ← mkProdSkip (ts.filter varies)
      let b ← mkProdSkip (ts.filter fun t => !varies t)
      return ([a], [b])
    | _ => .ok ([e], [rat 1])
  | .anys => .ok ((Expr.anys e).map Expr.any, [])
  | .expand => do
    let r ← expandE O n e
    return ([r], [])

mutual
/-- New objects for an expression. -/
def put (h : Store) : Expr → Store × Nat
  | Expr.sum ts => let p := putL h ts; (p.1 ++ [{ head := .sum, kids := p.2 }], p.1.length)
  | Expr.prod ts => let p := putL h ts; (p.1 ++ [{ head := .prod, kids := p.2 }], p.1.length)
  | Expr.pow b x =>
    let p := put h b
    let q := put p.1 x
    (q.1 ++ [{ head := .pow, kids := [p.2, q.2] }], q.1.length)
  | Expr.log i b =>
    let p := put h i
    let q := put p.1 b
    (q.1 ++ [{ head := .log, kids := [p.2, q.2] }], q.1.length)
  | Expr.trig f i => let p := put h i; (p.1 ++ [{ head := .trig f, kids := [p.2] }], p.1.length)
  | Expr.absv i => let p := put h i; (p.1 ++ [{ head := .absv, kids := [p.2] }], p.1.length)
  | e => (h ++ [{ head := .atom e, kids := [] }], h.length)
/-- New objects for expressions. -/
def putL (h : Store) : List Expr → Store × List Nat
  | [] => (h, [])
  | t :: r =>
    let p := put h t
    let q := putL p.1 r
    (q.1, p.2 :: q.2)
end

/-- An object for a part of an answer: the object itself or one of its children if it is one of them (expr.py:1050, 1056, 1071, 1073,
1253, 2091), new ones otherwise. Simplification: where `expand` and `Power(b, -x)` use the children of the object in something new,
the new object shares them; here it gets copies. -/
def place (olds : List Nat) (h : Store) (t : Expr) : Store × Nat :=
  match olds.find? fun j => decide (expr h j = t) with
  | some j => (h, j)
  | none => put h t

/-- Objects for the parts of an answer. -/
def placeL (olds : List Nat) (h : Store) : List Expr → Store × List Nat
  | [] => (h, [])
  | t :: r =>
    let p := place olds h t
    let q := placeL olds p.1 r
    (q.1, p.2 :: q.2)

/-- `remove_const_factor` keeps its answer only for products (expr.py:2086). -/
def remembered : Query → Head → Bool
  | .sans, .prod => true
  | .sans, _ => false
  | _, _ => true

/-- The cached questions about expressions (expr.py:1042-1061, 1066-1076, 1261-1263, 2085-2103, 192-195; regex.py:102-104).
Simplification: the questions that the computation asks about other objects are not events of their own, so they do not fill the
caches of those. -/
def askQ (O : Oracle) (n : Nat) (h : Store) (q : Query) (i : Nat) : Store × R (List Nat × List Nat) :=
  match h[i]? with
  | none => (h, .error .attribute)
  | some o =>
    match o.found.lookup q with
    | some p => (h, .ok p)
    | none =>
      match found O n q (expr h i) with
      | .error er => (h, .error er)
      | .ok p =>
        let a := placeL (i :: o.kids) h p.1
        let b := placeL (i :: o.kids) a.1 p.2
        (if remembered q o.head then b.1.modify i fun o => { o with found := (q, (a.2, b.2)) :: o.found } else b.1, .ok (a.2, b.2))

/-! ## Changes -/

/-- `_flatten_terms(terms)` (expr.py:292-302) for the class `c`. -/
def flattenTerms (flat : Store → Nat → Store) (c : Head) : Store → List Nat → Store × List Nat
  | h, [] => (h, [])
  | h, t :: r =>
    match h[t]? with
    | none => (h, [])
    | some o =>
      if c.sameAssoc o.head then
        let h1 := flat h t
        let p := flattenTerms flat c h1 r
        (p.1, ((h1[t]?.map Obj.kids).getD []) ++ p.2)
      else
        let p := flattenTerms flat c h r
        (p.1, t :: p.2)

/-- `t._flatten()` (expr.py:304-310); the fuel bounds the depth. -/
def flatten : Nat → Store → Nat → Store
  | 0, h, _ => h
  | k + 1, h, i =>
    match h[i]? with
    | none => h
    | some o =>
      let p := flattenTerms (flatten k) o.head h o.kids
      p.1.modify i fun o => { o with kids := p.2 }

/-- The old object that `log(i, b)` returns, if it does (expr.py:1597-1598). The cases before and after it, where the result is a
number (expr.py:1593-1596, 1599-1603), are left out: a number is not a `log` object, so nothing happens to it. -/
def logOf (O : Oracle) (h : Store) (i b : Nat) : Option Nat :=
  match h[i]? with
  | some { head := .pow, kids := [pb, px], .. } => if beq O (expr h pb) (expr h b) then some px else none
  | _ => none

/-- Is the object a `log`? -/
def isLogAt (h : Store) (i : Nat) : Bool :=
  match h[i]? with
  | some o => match o.head with
    | .log => true
    | _ => false
  | none => false

/-! ## Histories -/

/-- What can happen to the store. -/
inductive Op
  /-- A new object, from `__new__` and `__init__` (expr.py:899-910, 1174-1182, 116-126): all caches are empty. -/
  | new (hd : Head) (kids : List Nat)
  /-- The operands `ids` are used in `Sum` or `Prod` (expr.py:889, 1158). -/
  | operands (c : Head) (ids : List Nat)
  /-- `log(i, b)`. -/
  | log (i b : Nat)
  /-- Questions. -/
  | nesting (i : Nat) (v : Option Str)
  | symbols (n i : Nat)
  | expandable (n i : Nat)
  | ask (n : Nat) (q : Query) (i : Nat)

/-- Answers. -/
inductive Ans
  | none
  | num (r : R Nat)
  | names (r : R (List Str))
  | bool (r : R Bool)
  | objs (r : R (List Nat × List Nat))

/-- One event. -/
def step (O : Oracle) (h : Store) : Op → Store × Ans
  | .new hd kids => if hd.fits kids.length && kids.all (· < h.length) then (h ++ [{ head := hd, kids := kids }], .none) else (h, .none)
  | .operands c ids => ((flattenTerms (flatten h.length) c h ids).1, .none)
  | .log i b =>
    match logOf O h i b with
    | some j => if isLogAt h j then (h.modify j fun o => { o with kids := [i, b], nestings := [] }, .none) else (h, .none)
    | none => if i < h.length && b < h.length then (h ++ [{ head := .log, kids := [i, b] }], .none) else (h, .none)
  | .nesting i v =>
    let p := nestingQ O h i v
    (p.1, .num p.2)
  | .symbols n i =>
    let p := symbolsQ n h i
    (p.1, .names p.2)
  | .expandable n i =>
    let p := expandableQ O n h i
    (p.1, .bool p.2)
  | .ask n q i =>
    let p := askQ O n h q i
    (p.1, .objs p.2)

/-- A history: the store after the events, and their answers. -/
def run (O : Oracle) : Store → List Op → Store × List Ans
  | h, [] => (h, [])
  | h, op :: ops =>
    let p := step O h op
    let q := run O p.1 ops
    (q.1, p.2 :: q.2)

end Heap
end Simpy
