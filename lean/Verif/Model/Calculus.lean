import Verif.Model.Trig
import Verif.Model.Comb

/-!
# `subs`, `diff` and `expand` (expr.py)

`n` is the number of Python stack levels left; a call passes `n - 1` to everything it calls.
-/

namespace Simpy
open Expr

/-! ## `subs` -/

/-- `e.subs(subs)`: Num expr.py:411-413, Symbol 792-794 (`subs.get(self.name, self)`), Sum 925-927, Prod 1320-1322,
Power 1485-1487, SingleFunc 1532-1535, log 1566-1570; `Any_` raises NotImplementedError (regex.py:45-46). The
dictionary is a partial function from names. -/
def subsE (O : Oracle) : Nat → (Str → Option Expr) → Expr → R Expr
  | 0, _, _ => .error .recursion
  | n + 1, σ, e =>
    match e with
    | sym s => .ok ((σ s).getD (sym s))
    | any _ => .error .notImplemented
    | sum ts => do
      let us ← mapR (subsE O n σ) ts
      (ctors O n).sum us
    | prod ts => do
      let us ← mapR (subsE O n σ) ts
      (ctors O n).prod us
    | pow b x => do
      let b' ← subsE O n σ b
      let x' ← subsE O n σ x
      (ctors O n).pow b' x'
    | log i b => do
      let i' ← subsE O n σ i
      let b' ← subsE O n σ b
      logCtor O i' b'
    | trig f i => do
      let i' ← subsE O n σ i
      trigCtor O n f i'
    | absv i => do
      let i' ← subsE O n σ i
      (ctors O n).abs i'
    | t => .ok t

/-! ## `diff` -/

/-- The summands of `Prod.diff` (expr.py:1324-1325): for every position, the product of the derivative of that factor
with the other factors. Python selects the others by object identity (`t is not e`); the factors of a product are
distinct objects. -/
def prodDiffTerms (C : Ctors) (d : Expr → R Expr) : List Expr → List Expr → R (List Expr)
  | _, [] => .ok []
  | pre, t :: r => do
    let dt ← d t
    let p ← C.prod (dt :: (pre ++ r))
    let ps ← prodDiffTerms C d (pre ++ [t]) r
    return p :: ps

/-- `e.diff(var)`: Num expr.py:405-406, Symbol 799-800, Sum 929-930, Prod 1324-1325, Power 1495-1504, log 1612-1613
(the base is ignored), sin 1853-1854, cos 1892-1893, tan 1925-1926, csc 1938-1939, sec 1951-1952, cot 1966-1967,
asin 1975-1976, acos 1989-1990, atan 2000-2001, Abs 2039-2041 (returns the derivative of the inside);
`Any_` raises (regex.py:54-55). -/
def diffE (O : Oracle) : Nat → Str → Expr → R Expr
  | 0, _, _ => .error .recursion
  | n + 1, v, e =>
    let C := ctors O n
    let d := diffE O n v
    match e with
    | sym s => .ok (if s = v then rat 1 else rat 0)
    | any _ => .error .notImplemented
    | sum ts => do
      let us ← mapR d ts
      C.sum us
    | prod ts => do
      let us ← prodDiffTerms C d [] ts
      C.sum us
    | pow b x =>
      if !x.contains v then do
        let x1 ← opSub C x (rat 1)
        let p ← opPow O C b x1
        let m ← opMul C x p
        let db ← d b
        opMul C m db
      else if !b.contains v then do
        let l ← logCtor O b euler
        let m ← opMul C l (pow b x)
        let dx ← d x
        opMul C m dx
      else .error .notImplemented
    | log i _ => do
      let di ← d i
      opDiv C di i
    | trig f i =>
      match f with
      | .sin => do
        let c ← trigCtor O n .cos i
        let di ← d i
        opMul C c di
      | .cos => do
        let s ← trigCtor O n .sin i
        let m ← opNeg C s
        let di ← d i
        opMul C m di
      | .tan => do
        let s ← trigCtor O n .sec i
        let p ← opPow O C s (rat 2)
        let di ← d i
        opMul C p di
      | .csc => do
        let s ← trigCtor O n .sin i
        let q ← opDiv C (rat 1) s
        d q
      | .sec => do
        let s ← trigCtor O n .sec i
        let t ← trigCtor O n .tan i
        let m ← opMul C s t
        let di ← d i
        opMul C m di
      | .cot => do
        let t ← trigCtor O n .tan i
        let q ← opDiv C (rat 1) t
        d q
      | .asin => do
        let p ← opPow O C i (rat 2)
        let z ← opSub C (rat 1) p
        let s ← opSqrt O C z
        let q ← opDiv C (rat 1) s
        let di ← d i
        opMul C q di
      | .acos => do
        let p ← opPow O C i (rat 2)
        let z ← opSub C (rat 1) p
        let s ← opSqrt O C z
        let q ← opDiv C (rat (-1)) s
        let di ← d i
        opMul C q di
      | .atan => do
        let p ← opPow O C i (rat 2)
        let z ← opAdd C (rat 1) p
        let q ← opDiv C (rat 1) z
        let di ← d i
        opMul C q di
    | absv i => d i
    | _ => .ok (rat 0)

/-! ## `expand` -/

/-- `any(f(t) for t in ts)`, stopping at the first hit. -/
def anyR {α : Type} (f : α → R Bool) : List α → R Bool
  | [] => .ok false
  | t :: r => do
    let b ← f t
    if b then return true else anyR f r

/-- `Power._power_expandable()` (expr.py:1456-1462). -/
def powerExpandable : Expr → Expr → Bool
  | sum _, rat q => q.den == 1 && |q| != 1
  | _, _ => false

/-- `e.expandable()`: default expr.py:197-201 (some child is), Prod 1269-1278, Power 1464-1465. -/
def expandableE (O : Oracle) : Nat → Expr → R Bool
  | 0, _ => .error .recursion
  | n + 1, e =>
    match e with
    | sum ts => anyR (expandableE O n) ts
    | prod ts => do
      let b ← anyR (fun t => if t.isSum then .ok true else expandableE O n t) ts
      if b then return true
      else
        let (_, d) ← numDen O (ctors O n) ts
        match d with
        | prod us => return us.any isSum
        | _ => return false
    | pow b x =>
      if powerExpandable b x then .ok true
      else do
        let c ← expandableE O n b
        if c then return true else expandableE O n x
    | log i b => anyR (expandableE O n) [i, b]
    | trig _ i => expandableE O n i
    | absv i => expandableE O n i
    | _ => .ok false

/-- `itertools.product(*lists)`. -/
def cartesian : List (List Expr) → List (List Expr)
  | [] => [[]]
  | l :: r => l.flatMap (fun a => (cartesian r).map (fun as => a :: as))

/-- One factor of the reciprocal of the denominator (expr.py:1287-1290). -/
def recipTerm (C : Ctors) : Expr → R Expr
  | pow b x => do
    let nx ← opNeg C x
    C.pow b nx
  | t => C.pow t (rat (-1))

/-- `denom_terms` (expr.py:1287-1290). -/
def recipTerms (C : Ctors) : Expr → R (List Expr)
  | prod us => mapR (recipTerm C) us
  | d => do
    let p ← C.pow d (rat (-1))
    return [p]

/-- `zip`-product term of the multinomial expansion: `Prod([Rat(coefficient)] + [Power(t, p) ...])` (expr.py:1480-1482). -/
def multinomialTerm (C : Ctors) (ts : List Expr) (k : ℕ) (perm : List Nat) : R Expr := do
  let c ← multinomialCoefficient perm k
  let ps ← mapR (fun (tp : Expr × Nat) => C.pow tp.1 (rat tp.2)) (ts.zip perm)
  match c with
  | .int m => C.prod (rat m :: ps)
  | .message => .error .value

/-- `assert b`. -/
def assertR (b : Bool) : R Unit := if b then .ok () else .error .assertion

/-- `t.expand() if t.expandable() else t`. -/
def expandOr (able : Expr → R Bool) (ex : Expr → R Expr) (t : Expr) : R Expr := do
  let b ← able t
  if b then ex t else return t

/-- The terms of a Sum, `none` for other classes (`isinstance(t, Sum)` tests of expr.py:1294-1312). -/
def sumTerms : Expr → Option (List Expr)
  | sum ws => some ws
  | _ => none

/-- `e.expand()`: Sum expr.py:921-923, Prod 1280-1318, Power 1467-1483, SingleFunc 1537-1539, log 1572-1574 (the base is
dropped: `self.__class__(self.inner.expand())`), default 202-206. -/
def expandE (O : Oracle) : Nat → Expr → R Expr
  | 0, _ => .error .recursion
  | n + 1, e =>
    let C := ctors O n
    let ex := expandOr (expandableE O n) (expandE O n)
    match e with
    | sum ts => do
      let b ← expandableE O n (sum ts)
      let _ ← assertR b
      let us ← mapR ex ts
      C.sum us
    | prod ts => do
      let b ← expandableE O n (prod ts)
      let _ ← assertR b
      let (num, den) ← numDen O C ts
      let den' ← ex den
      let ds ← recipTerms C den'
      match num with
      | prod us => do
        let es ← mapR ex us
        let sums := es.filterMap sumTerms
        let other := es.filter (fun t => !t.isSum)
        if sums.isEmpty then C.prod (other ++ ds)
        else do
          let ps ← mapR (fun c => C.prod (other ++ c ++ ds)) (cartesian sums)
          C.sum ps
      | _ => do
        let num' ← ex num
        match num' with
        | sum ws => do
          let ps ← mapR (fun c => C.prod (c ++ ds)) (cartesian [ws])
          C.sum ps
        | _ => C.prod (num' :: ds)
    | pow b x => do
      let a ← expandableE O n (pow b x)
      let _ ← assertR a
      let b' ← ex b
      let x' ← ex x
      let new ← C.pow b' x'
      match new with
      | pow (sum ws) (rat q) =>
        if powerExpandable (sum ws) (rat q) then do
          let ps ← mapR (multinomialTerm C ws q.num.natAbs) (generatePermutations ws.length q.num.natAbs)
          let s ← C.sum ps
          opPow O C s (rat (if q < 0 then -1 else 1))
        else return new
      | _ => return new
    | log i _ => do
      let a ← expandableE O n i
      let _ ← assertR a
      let i' ← expandE O n i
      logCtor O i' euler
    | trig f i => do
      let a ← expandableE O n i
      let _ ← assertR a
      let i' ← expandE O n i
      trigCtor O n f i'
    | absv i => do
      let a ← expandableE O n i
      let _ ← assertR a
      let i' ← expandE O n i
      C.abs i'
    | _ => .error .assertion

end Simpy
