import Verif.Model.Regex
import Verif.Model.Calculus

/-!
# Pattern matching with `Any_` objects (regex.py:61-358)

A `MatchesInProgress` (a dict from keys to lists) is the log of the pushes `(key, expression)` in the order in which they were
made; the list stored under a key is the sublog of that key. A failed `_eq` makes the whole comparison fail, so what a failed
branch has pushed before is not modelled.

Simplifications: the random parts of the keys (`random_id`) are fixed; that a random key of ten letters contains the word
"factor", or that a printed expression contains such a key, is not modelled (the latter is what the check at regex.py:216
looks for, which is therefore always true).
-/

namespace Simpy
open Expr

/-- `isinstance(t, Any_)`. -/
def isAny : Expr → Bool
  | any _ => true
  | _ => false

/-- `t.has(Any_)`. -/
def hasAny (t : Expr) : Bool := containsCls isAny t

/-- A log of pushes. -/
abbrev Log := List (Str × Expr)

/-- What the log holds under a key. -/
def Log.at (l : Log) (k : Str) : List Expr := (l.filter (·.1 == k)).map (·.2)

/-- The keys of a log in the order of their first push. -/
def Log.keys : Log → List Str
  | [] => []
  | (k, _) :: r => k :: (Log.keys r).filter (· != k)

/-- `all_same(list_)` (regex.py:107-115). -/
def allSame (O : Oracle) : List Expr → Bool
  | a :: b :: r => beq O a b && allSame O (b :: r)
  | _ => true

/-- The final loop of `Eq.__call__` (regex.py:235-239): one expression for each key, or failure. -/
def settle (O : Oracle) (l : Log) : Option Log :=
  if (Log.keys l).all (fun k => allSame O (Log.at l k)) then
    some ((Log.keys l).filterMap (fun k => (Log.at l k).head?.map (fun v => (k, v))))
  else none

mutual
/-- `Eq._eq(expr, query)` with `_is_divide=True` (regex.py:260-295): the pushes, or failure. -/
def eqD (O : Oracle) : Expr → Expr → Option Log
  | e, any k => if beq O e (any k) then some [] else some [(k, e)]
  | sum ts, sum qs =>
    if beq O (sum ts) (sum qs) then some []
    else if hasAny (sum qs) then eqDL O ts qs else none
  | prod ts, prod qs =>
    if beq O (prod ts) (prod qs) then some []
    else if hasAny (prod qs) then eqDL O ts qs else none
  | pow a b, pow c d =>
    if beq O (pow a b) (pow c d) then some []
    else if hasAny (pow c d) then
      match eqD O a c with
      | none => none
      | some l => (eqD O b d).map (l ++ ·)
    else none
  | log a b, log c d =>
    if beq O (log a b) (log c d) then some []
    else if hasAny (log c d) then
      match eqD O a c with
      | none => none
      | some l => (eqD O b d).map (l ++ ·)
    else none
  | trig f a, trig g c =>
    if beq O (trig f a) (trig g c) then some []
    else if hasAny (trig g c) && f == g then eqD O a c else none
  | absv a, absv c =>
    if beq O (absv a) (absv c) then some []
    else if hasAny (absv c) then eqD O a c else none
  | e, q => if beq O e q then some [] else none
/-- `_eq` on two lists. -/
def eqDL (O : Oracle) : List Expr → List Expr → Option Log
  | [], [] => some []
  | a :: r, b :: s =>
    match eqD O a b with
    | none => none
    | some l => (eqDL O r s).map (l ++ ·)
  | _, _ => none
end

/-- `isinstance(t, Any_) and "factor" in t.key` (regex.py:312): the key of an `any_factor`. -/
def isFactorKey : Str → Bool
  | [] => false
  | c :: r => ['f', 'a', 'c', 't', 'o', 'r'].isPrefixOf (c :: r) || isFactorKey r

/-- A factor `any_factor`. -/
def isAnyFactor : Expr → Bool
  | any k => isFactorKey k
  | _ => false

/-- `_make_factors_list(expr)` (regex.py:304-324): the factors without `Any_`, those with one, and last the `any_factor`. -/
def matchFactors : Expr → R (List Expr)
  | prod ts =>
    if (ts.filter isAny).length > 1 then .error .notImplemented
    else .ok (ts.filter (fun t => !hasAny t) ++ ts.filter (fun t => hasAny t && !isAnyFactor t) ++ ts.filter isAnyFactor)
  | e => .ok [e]

/-- The inner loop of `divide_anys` (regex.py:331-339) for one query factor `f`: which factors of the expression are left, the
pushes, and whether `f` was found. `f` is not forgotten after a hit, so it can be found several times. -/
def divRow (O : Oracle) (f : Expr) : List Expr → List Expr × Log × Bool
  | [] => ([], [], false)
  | d :: r =>
    match (eqD O d f).bind (settle O) with
    | some m => ((divRow O f r).1, m ++ (divRow O f r).2.1, true)
    | none => (d :: (divRow O f r).1, (divRow O f r).2.1, (divRow O f r).2.2)

/-- The loops of `divide_anys` (regex.py:326-339): the query factors that were not found, the remaining factors of the
expression, and the pushes. -/
def divRows (O : Oracle) : List Expr → List Expr → List Expr × List Expr × Log
  | [], ds => ([], ds, [])
  | f :: r, ds =>
    let (ds', l, hit) := divRow O f ds
    let (nf, df, l') := divRows O r ds'
    (if hit then nf else f :: nf, df, l ++ l')

/-- `divide_anys(num, denom)` (regex.py:298-343). -/
def divideAnys (O : Oracle) (C : Ctors) (q e : Expr) : R (Expr × Log) := do
  let ns ← matchFactors q
  let ds ← matchFactors e
  let rows := divRows O ns ds
  let a ← C.prod rows.1
  let b ← C.prod rows.2.1
  let one ← opDiv C a b
  return (one, rows.2.2)

/-- The third case of regex.py:282-291: a constant multiple of an `Any_`. -/
def oneAny (C : Ctors) (one : Expr) (l : Log) : R (Option Log) :=
  match (anys one).eraseDups with
  | [k] => do
    let v ← opDiv C one (any k)
    return if (anys v).isEmpty then some (l ++ [(k, v)]) else none
  | _ => .ok none

/-- regex.py:272-291: what `_eq` makes of the quotient `one`; `none` if it goes on to compare the fields. -/
def eqQuot (O : Oracle) (C : Ctors) (one : Expr) (l : Log) : R (Option Log) :=
  if beq O one (rat 1) then .ok (some l)
  else
    match one with
    | any k => .ok (some ((k, rat 1) :: l))
    | _ => if (syms one).isEmpty then oneAny C one l else .ok none

/-- `_eq(expr, query)` up to the comparison of the fields (regex.py:260-291): a verdict, or `none`. -/
def eqPre (O : Oracle) (C : Ctors) (e q : Expr) : R (Option (Option Log)) :=
  if beq O e q then .ok (some (some []))
  else
    match q with
    | any k => .ok (some (some [(k, e)]))
    | _ =>
      if hasAny q then do
        let (one, l) ← divideAnys O C q e
        let r ← eqQuot O C one l
        return r.map some
      else .ok (some none)

/-- Two comparisons after each other. -/
def logAnd (a b : R (Option Log)) : R (Option Log) := do
  let l ← a
  match l with
  | none => return none
  | some l => do
    let m ← b
    return m.map (l ++ ·)

mutual
/-- `Eq._eq(expr, query)` (regex.py:255-295). -/
def eqN (O : Oracle) (C : Ctors) : Expr → Expr → R (Option Log)
  | sum ts, sum qs =>
    match eqPre O C (sum ts) (sum qs) with
    | .error er => .error er
    | .ok (some v) => .ok v
    | .ok none => eqNL O C ts qs
  | prod ts, prod qs =>
    match eqPre O C (prod ts) (prod qs) with
    | .error er => .error er
    | .ok (some v) => .ok v
    | .ok none => eqNL O C ts qs
  | pow a b, pow c d =>
    match eqPre O C (pow a b) (pow c d) with
    | .error er => .error er
    | .ok (some v) => .ok v
    | .ok none => logAnd (eqN O C a c) (eqN O C b d)
  | log a b, log c d =>
    match eqPre O C (log a b) (log c d) with
    | .error er => .error er
    | .ok (some v) => .ok v
    | .ok none => logAnd (eqN O C a c) (eqN O C b d)
  | trig f a, trig g c =>
    match eqPre O C (trig f a) (trig g c) with
    | .error er => .error er
    | .ok (some v) => .ok v
    | .ok none => if f == g then eqN O C a c else .ok none
  | absv a, absv c =>
    match eqPre O C (absv a) (absv c) with
    | .error er => .error er
    | .ok (some v) => .ok v
    | .ok none => eqN O C a c
  | e, q =>
    match eqPre O C e q with
    | .error er => .error er
    | .ok (some v) => .ok v
    | .ok none => .ok none
/-- `_eq` on two lists: of different length `False`, otherwise element by element up to the first failure. -/
def eqNL (O : Oracle) (C : Ctors) : List Expr → List Expr → R (Option Log)
  | [], [] => .ok (some [])
  | a :: r, b :: s => if r.length == s.length then logAnd (eqN O C a b) (eqNL O C r s) else .ok none
  | _, _ => .ok none
end

/-- `Eq(expr, query, decompose_singles=False)()` without `up_to_sum` (regex.py:231-253). -/
def eqCall (O : Oracle) (C : Ctors) (e q : Expr) : R (Option Log) := do
  let r ← eqN O C e q
  return r.bind (settle O)

/-- The key of `any_ = Any_()` (regex.py:61). -/
def anyKey : Str := "K".toList

/-- The key of `self._any_factor` (regex.py:196). -/
def factorKey : Str := "factor_F".toList

/-- `result["factor"]` and `result["matches"]` (regex.py:244-251) of a query with `any_` and `any_factor`; the matches are
an expression only if exactly one key is left. -/
def eqResult (m : Log) : Option (Expr × Expr) :=
  match (Log.at m factorKey).head?, m.filter (fun p => p.1 != factorKey) with
  | some f, [(_, i)] => some (f, i)
  | _, _ => none

/-- `eq(expr, query, up_to_factor=True)` (regex.py:67-86) where `q` is the query times `any_factor`, expanded: the factor and
the match. An expression with an `Any_` raises ValueError. -/
def eqFactor (O : Oracle) (C : Ctors) (e q : Expr) : R (Option (Expr × Expr)) :=
  if hasAny e then .error .value
  else do
    let r ← eqCall O C e q
    return r.bind eqResult

/-! ## `up_to_sum` -/

/-- `_matches_eq(x, y)` (regex.py:122-134). -/
def matchesEq (O : Oracle) (x y : Log) : Bool :=
  x.all (fun p => (Log.at y p.1).all (fun v => beq O v p.2)) && y.all (fun p => (Log.at x p.1).all (fun v => beq O p.2 v))

/-- Assignment to a key of a dict. -/
def dictSet {α : Type} (k : Str) (v : α) : List (Str × α) → List (Str × α)
  | [] => [(k, v)]
  | (k', v') :: r => if k == k' then (k', v) :: r else (k', v') :: dictSet k v r

/-- The expression terms that match a query term, under their reprs (regex.py:213-217). -/
def termMatches (O : Oracle) (C : Ctors) (q : Expr) : List (Str × Log) → List Expr → R (List (Str × Log))
  | acc, [] => .ok acc
  | acc, t :: r => do
    let m ← eqCall O C t q
    match m with
    | none => termMatches O C q acc r
    | some l => do
      let s ← C.repr t
      termMatches O C q (dictSet s l acc) r

/-- `_is_sum_eq` before `consolidate` (regex.py:210-220). The query terms have different reprs. -/
def sumMatches (O : Oracle) (C : Ctors) (ts : List Expr) : List Expr → R (Option (List (List (Str × Log))))
  | [] => .ok (some [])
  | q :: r => do
    let m ← termMatches O C q [] ts
    if m.isEmpty then return none
    else do
      let rest ← sumMatches O C ts r
      return rest.map (m :: ·)

/-- The first match of a query term that is compatible with some match of every query term (regex.py:145-159). -/
def pickMatch (O : Oracle) (qm : List (List (Str × Log))) : List (Str × Log) → Option (Str × Log)
  | [] => none
  | (s, m) :: r =>
    if qm.all (fun ms => ms.any (fun p => matchesEq O p.2 m)) then some (s, m) else pickMatch O qm r

/-- The picks of all query terms. -/
def pickAll (O : Oracle) (qm : List (List (Str × Log))) : List (List (Str × Log)) → Option (List (Str × Log))
  | [] => some []
  | ms :: r =>
    match pickMatch O qm ms with
    | none => none
    | some p => (pickAll O qm r).map (p :: ·)

/-- `[t for t in expr.terms if repr(t) not in accounted_expr_terms]` (regex.py:165). -/
def unaccounted (C : Ctors) (acc : List Str) : List Expr → R (List Expr)
  | [] => .ok []
  | t :: r => do
    let s ← C.repr t
    let us ← unaccounted C acc r
    return if s ∈ acc then us else t :: us


/-- `settle` under an `assert` (regex.py:161-162). -/
def settleAssert (O : Oracle) (l : Log) : R Log :=
  match settle O l with
  | some m => .ok m
  | none => .error .assertion

/-- `consolidate(query_matches, expr)` (regex.py:140-166). -/
def consolidate (O : Oracle) (C : Ctors) (qm : List (List (Str × Log))) (ts : List Expr) : R (Option (Log × Expr)) :=
  match pickAll O qm qm with
  | none => .ok none
  | some ps => do
    let final ← settleAssert O (ps.flatMap (·.2))
    let _ ← assertR (qm.all (fun ms => ms.any (fun p => matchesEq O p.2 final)))
    let us ← unaccounted C (ps.map (·.1)) ts
    let rest ← C.sum us
    return some (final, rest)

/-- `eq(expr, query, up_to_factor=True, up_to_sum=True)` (regex.py:67-86, 200-253) on the terms `ts` of a sum, where `qs` are
the terms of the query times `any_factor`, expanded: the factor, the match and the rest. -/
def eqSum (O : Oracle) (C : Ctors) (ts qs : List Expr) : R (Option (Expr × Expr × Expr)) :=
  if hasAny (sum ts) then .error .value
  else if ts.length < qs.length then .ok none
  else do
    let qm ← sumMatches O C ts qs
    match qm with
    | none => return none
    | some qm => do
      let r ← consolidate O C qm ts
      match r with
      | none => return none
      | some (m, rest) => return (eqResult m).map (fun p => (p.1, p.2, rest))

end Simpy
