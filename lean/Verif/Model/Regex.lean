import Verif.Model.Trig

/-!
# Searching and replacing (regex.py, utils.py)

Simplification: the plain tree recursions (`count`, `eq_with_var`) are structural; Python's recursion limit is
not modelled for them. `replaceE` has the stack levels as fuel, like `subsE`.
-/

namespace Simpy
open Expr

/-- `type(a) == type(b)`. -/
def sameClass : Expr → Expr → Bool
  | rat _, rat _ => true
  | flt _, flt _ => true
  | pi, pi => true
  | euler, euler => true
  | inf, inf => true
  | neginf, neginf => true
  | sym _, sym _ => true
  | any _, any _ => true
  | sum _, sum _ => true
  | prod _, prod _ => true
  | pow _ _, pow _ _ => true
  | log _ _, log _ _ => true
  | trig f _, trig g _ => f == g
  | absv _, absv _ => true
  | _, _ => false

mutual
/-- `general_count(expr, condition)` (regex.py:375-381). -/
def generalCount (cond : Expr → Bool) : Expr → Nat
  | sum ts => if cond (sum ts) then 1 else generalCountL cond ts
  | prod ts => if cond (prod ts) then 1 else generalCountL cond ts
  | pow b x => if cond (pow b x) then 1 else generalCount cond b + generalCount cond x
  | log i b => if cond (log i b) then 1 else generalCount cond i + generalCount cond b
  | trig f i => if cond (trig f i) then 1 else generalCount cond i
  | absv i => if cond (absv i) then 1 else generalCount cond i
  | t => if cond t then 1 else 0
def generalCountL (cond : Expr → Bool) : List Expr → Nat
  | [] => 0
  | t :: r => generalCount cond t + generalCountL cond r
end

/-- `count(expr, query)` (regex.py:361-365): the condition is `isinstance(expr, query.__class__) and expr == query`. -/
def count (O : Oracle) (query e : Expr) : Nat := generalCount (fun t => sameClass t query && beq O t query) e

/-- `general_contains(expr, condition)` (regex.py:384-387); the same recursion as `contains_cls`. -/
def generalContains (cond : Expr → Bool) (e : Expr) : Bool := containsCls cond e

/-- `count_symbols(expr)` (utils.py:47-51). -/
def countSymbols (e : Expr) : Nat := generalCount isSym e

mutual
/-- `eq_with_var((a, x), (b, y))` (utils.py:21-44). -/
def eqWithVar (O : Oracle) (x y : Str) : Expr → Expr → Bool
  | sym a, sym b => if a == x then b == y else a == b
  | sum a, sum b => eqWithVarL O x y a b
  | prod a, prod b => eqWithVarL O x y a b
  | pow a b, pow c d => eqWithVar O x y a c && eqWithVar O x y b d
  | log a b, log c d => eqWithVar O x y a c && eqWithVar O x y b d
  | trig f a, trig g b => f == g && eqWithVar O x y a b
  | absv a, absv b => eqWithVar O x y a b
  | a, b => sameClass a b && beq O a b
/-- equally long lists with pairwise equal elements; when one is empty `c1 == [] or c2 == []` compares the nodes -/
def eqWithVarL (O : Oracle) (x y : Str) : List Expr → List Expr → Bool
  | [], [] => true
  | a :: r, b :: s => eqWithVar O x y a b && eqWithVarL O x y r s
  | _, _ => false
end

/-! ## Replacing -/

/-- What a `perform` says about a node: nothing (`None`), do not recurse (`False`), or the replacement. -/
inductive Rep
  | pass
  | stop
  | hit (e : Expr)
  deriving DecidableEq

/-- `[p(e) for p in performs]` up to the first that is not `None` (regex.py:451-458). -/
def firstRep (ps : List (Expr → R Rep)) (e : Expr) : R Rep :=
  match ps with
  | [] => .ok .pass
  | p :: r =>
    match p e with
    | .error er => .error er
    | .ok .pass => firstRep r e
    | .ok o => .ok o

/-- `kinder_replace_many(expr, performs)` (regex.py:434-478) and `replace_factory_list(conditions, performs)`
(regex.py:394-427), with `perf k e` the verdict of the performs on the node `e` with `k` stack levels left
(`overarching_cond` being false is `stop`). The `verbose` flag is not modelled. -/
def replaceE (O : Oracle) (perf : Nat → Expr → R Rep) : Nat → Expr → R Expr
  | 0, _ => .error .recursion
  | n + 1, e => do
    let v ← perf n e
    match v with
    | .hit u => .ok u
    | .stop => .ok e
    | .pass =>
      match e with
      | sum ts => do
        let us ← mapR (replaceE O perf n) ts
        (ctors O n).sum us
      | prod ts => do
        let us ← mapR (replaceE O perf n) ts
        (ctors O n).prod us
      | pow b x => do
        let b' ← replaceE O perf n b
        let x' ← replaceE O perf n x
        (ctors O n).pow b' x'
      | log i b => do
        let i' ← replaceE O perf n i
        let b' ← replaceE O perf n b
        logCtor O i' b'
      | trig f i => do
        let i' ← replaceE O perf n i
        trigCtor O n f i'
      | absv i => do
        let i' ← replaceE O perf n i
        (ctors O n).abs i'
      | t => .ok t

/-- The `condition`/`perform` pair of `replace` (regex.py:481-486). -/
def replacePerf (O : Oracle) (old new : Expr) : Nat → Expr → R Rep :=
  fun _ e => .ok (if beq O e old then .hit new else .pass)

/-- `replace(expr, old, new)` (regex.py:481-486). -/
def replaceOld (O : Oracle) (n : Nat) (e old new : Expr) : R Expr := replaceE O (replacePerf O old new) n e

/-- `isinstance(t, cls)` for one of the listed classes. -/
def listed (new : TrigFn → Option (Nat → Expr → R Expr)) : Expr → Bool
  | trig f _ => (new f).isSome
  | _ => false

/-- `replace_class(expr, cls, newfunc)` (regex.py:490-522) for trig classes: `new f` is the replacement of the class `f`
if it is listed. -/
def replaceClass (O : Oracle) (new : TrigFn → Option (Nat → Expr → R Expr)) : Nat → Expr → R Expr
  | 0, _ => .error .recursion
  | n + 1, e =>
    if !containsCls (listed new) e then .ok e
    else
      match e with
      | sum ts => do
        let us ← mapR (replaceClass O new n) ts
        (ctors O n).sum us
      | prod ts => do
        let us ← mapR (replaceClass O new n) ts
        (ctors O n).prod us
      | pow b x => do
        let b' ← replaceClass O new n b
        let x' ← replaceClass O new n x
        (ctors O n).pow b' x'
      | log i b => do
        let i' ← replaceClass O new n i
        let b' ← replaceClass O new n b
        logCtor O i' b'
      | trig f i => do
        let i' ← replaceClass O new n i
        match new f with
        | some g => g n i'
        | none => trigCtor O n f i'
      | absv i => do
        let i' ← replaceClass O new n i
        (ctors O n).abs i'
      | t => .ok t

end Simpy
