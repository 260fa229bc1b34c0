import Verif.Model.Match
import Verif.Model.Transforms

/-!
# Simplification (simplify/simplify.py, simplify/product_to_sum.py)

The functions handed to `kinder_replace` (`perform`s) return a verdict `Rep`: Python's `None` is `pass`, `False` is `stop`.
`n` is the number of stack levels left.
-/

namespace Simpy
open Expr

/-- `kinder_replace_many(..., verbose=True)[1]` (regex.py:434-478): whether a perform hit at a node that was visited. -/
def replaceHit (perf : Nat → Expr → R Rep) : Nat → Expr → Bool
  | 0, _ => false
  | n + 1, e =>
    match perf n e with
    | .ok (.hit _) => true
    | .ok .pass => (Expr.children e).any (replaceHit perf n)
    | _ => false

/-- `overarching_cond=lambda x: x.has(TrigFunctionNotInverse)` (simplify.py:279, 285; regex.py:449-450): an expression without
such a function is left alone. -/
def withTrig (ps : Nat → List (Expr → R Rep)) (n : Nat) (e : Expr) : R Rep :=
  if containsCls isPlainTrig e then firstRep (ps n) e else .ok .stop

/-- `None` or an expression as a verdict. -/
def optRep : Option Expr → Rep
  | none => .pass
  | some r => .hit r

/-! ## Logarithms -/

/-- `log(t)`. -/
def ln (O : Oracle) (t : Expr) : R Expr := logCtor O t euler

/-- `log(abs(t))`. -/
def lnAbs (O : Oracle) (C : Ctors) (t : Expr) : R Expr := do
  let a ← C.abs t
  ln O a

/-- `Sum([log(t) for t in ts])`. -/
def sumLn (C : Ctors) (l : Expr → R Expr) (ts : List Expr) : R Expr := do
  let ls ← mapR l ts
  C.sum ls

/-- The factors of `s.factor()` if it is a product. -/
def sumFactors (C : Ctors) (ts : List Expr) : R (Option (List Expr)) := do
  let f ← factorSum C ts
  match f with
  | prod us => return some us
  | _ => return none

/-- `_log_perform` (simplify.py:32-58) on the argument of the logarithm; its base is not looked at. -/
def logArg (O : Oracle) (n : Nat) (i : Expr) : R Expr :=
  let C := ctors O n
  match i with
  | pow b x => do
    let l ← ln O b
    opMul C l x
  | prod ts => sumLn C (ln O) ts
  | sum ts => do
    let k ← sumFactors C ts
    match k with
    | some us => sumLn C (ln O) us
    | none => ln O i
  | trig .sec j => do
    let t ← trigCtor O n .cos j
    let l ← ln O t
    opMul C (rat (-1)) l
  | trig .csc j => do
    let t ← trigCtor O n .sin j
    let l ← ln O t
    opMul C (rat (-1)) l
  | trig .cot j => do
    let t ← trigCtor O n .tan j
    let l ← ln O t
    opMul C (rat (-1)) l
  | absv (pow b x) => do
    let l ← lnAbs O C b
    opMul C l x
  | absv (prod ts) => sumLn C (lnAbs O C) ts
  | absv (sum ts) => do
    let k ← sumFactors C ts
    match k with
    | some us => sumLn C (lnAbs O C) us
    | none => ln O i
  | _ => ln O i

/-- `_log_perform` (simplify.py:32-58). -/
def logPerf (O : Oracle) (n : Nat) : Expr → R Rep
  | log i _ => do
    let r ← logArg O n i
    return .hit r
  | _ => .ok .pass

/-- `expand_logs` (simplify.py:27-29). -/
def expandLogs (O : Oracle) (n : Nat) (e : Expr) : R Expr := do
  let r ← replaceE O (logPerf O) n e
  expandOr (expandableE O n) (expandE O n) r

/-! ## Pythagorean identities -/

/-- `isinstance(x, Power) and x.exponent == 2` with a plain trig function as base (simplify.py:73-78). -/
def isTrigSquare (O : Oracle) : Expr → Bool
  | pow (trig f _) x => !f.isInverse && beq O x (rat 2)
  | _ => false

/-- `is_(f)` (simplify.py:86-87): the argument of a squared function of the given classes. -/
def squareOf (O : Oracle) (fs : List TrigFn) : Expr → Option Expr
  | pow (trig f i) x => if beq O x (rat 2) && fs.contains f then some i else none
  | _ => none

/-- The first squared function among the factors (simplify.py:94-96): its argument and `term / f`. -/
def squareFactor (O : Oracle) (C : Ctors) (fs : List TrigFn) (t : Expr) : List Expr → R (Option (Expr × Expr))
  | [] => .ok none
  | f :: r =>
    match squareOf O fs f with
    | some i => do
      let c ← opDiv C t f
      return some (i, c)
    | none => squareFactor O C fs t r

/-- `is_thing_squared(term, cls)` (simplify.py:83-97): argument and factor. -/
def thingSquared (O : Oracle) (C : Ctors) (fs : List TrigFn) (t : Expr) : R (Option (Expr × Expr)) :=
  match squareOf O fs t with
  | some i => .ok (some (i, rat 1))
  | none =>
    match t with
    | prod ts => squareFactor O C fs t ts
    | _ => .ok none

/-- `==` on pairs. -/
def beq2 (O : Oracle) (p q : Expr × Expr) : Bool := beq O p.1 q.1 && beq O p.2 q.2

/-- `el in l`, where `l` may contain `None`. -/
def inPairs (O : Oracle) (p : Expr × Expr) (l : List (Option (Expr × Expr))) : Bool :=
  l.any (fun o => match o with | some q => beq2 O q p | none => false)

/-- `sin_cos_condition(expr)` (simplify.py:99-104). -/
def sinCosPairs (O : Oracle) (C : Ctors) (ts : List Expr) : R (List (Expr × Expr)) := do
  let s ← mapR (thingSquared O C [.sin]) ts
  let c ← mapR (thingSquared O C [.cos]) ts
  return (s.filterMap id).filter (fun p => inPairs O p c)

/-- `[t for t in sum.terms if not is_thing_squared(t, (sin, cos)) in both_inners]` (simplify.py:108). -/
def otherTerms (O : Oracle) (C : Ctors) (both : List (Expr × Expr)) : List Expr → R (List Expr)
  | [] => .ok []
  | t :: r => do
    let o ← thingSquared O C [.sin, .cos] t
    let us ← otherTerms O C both r
    return match o with
      | some p => if inPairs O p (both.map some) then us else t :: us
      | none => t :: us

/-- `any_factor * cls(any_)**2`. -/
def queryPlus (f : TrigFn) : Expr := prod [any factorKey, pow (trig f (any anyKey)) (rat 2)]

/-- `-any_factor * cls(any_)**2`. -/
def queryMinus (f : TrigFn) : Expr := prod [rat (-1), any factorKey, pow (trig f (any anyKey)) (rat 2)]

/-- The six identities (simplify.py:114-122): the terms of the query, times `any_factor` and expanded (regex.py:195-198), and
the function whose square they give. That the modelled constructors and `expand` produce these terms is checked in
`Props/Simplify.lean`. -/
def identities : List (List Expr × TrigFn) :=
  [([queryPlus .tan, any factorKey], .sec),
   ([queryMinus .sin, any factorKey], .cos),
   ([queryMinus .cos, any factorKey], .sin),
   ([queryPlus .sec, prod [rat (-1), any factorKey]], .tan),
   ([queryPlus .cot, any factorKey], .csc),
   ([queryPlus .csc, prod [rat (-1), any factorKey]], .cot)]

/-- `factor * perform(inner) + rest` (simplify.py:129). -/
def applyIdentity (O : Oracle) (n : Nat) (g : TrigFn) (factor inner rest : Expr) : R Expr := do
  let t ← trigCtor O n g inner
  let p ← opPow O (ctors O n) t (rat 2)
  let m ← opMul (ctors O n) factor p
  opAdd (ctors O n) m rest

/-- The loop over the identities (simplify.py:123-129). -/
def tryIdentities (O : Oracle) (n : Nat) (ts : List Expr) : List (List Expr × TrigFn) → R Rep
  | [] => .ok .pass
  | (qs, g) :: r => do
    let k ← eqSum O (ctors O n) ts qs
    match k with
    | some (factor, inner, rest) => do
      let e ← applyIdentity O n g factor inner rest
      return .hit e
    | none => tryIdentities O n ts r

/-- `_pythagorean_perform` (simplify.py:65-129). -/
def pythPerf (O : Oracle) (n : Nat) : Expr → R Rep
  | sum ts =>
    if !containsCls isPlainTrig (sum ts) then .ok .stop
    else if !generalContains (isTrigSquare O) (sum ts) then .ok .pass
    else do
      let both ← sinCosPairs O (ctors O n) ts
      if !both.isEmpty then do
        let us ← otherTerms O (ctors O n) both ts
        let r ← (ctors O n).sum (us ++ both.map (·.2))
        return .hit r
      else tryIdentities O n ts identities
  | _ => .ok .pass

/-- `pythagorean_simplification(expr)` (simplify.py:61-62). -/
def pythagoreanSimplification (O : Oracle) (n : Nat) (e : Expr) : R Expr := replaceE O (pythPerf O) n e

/-! ## Fractions -/

/-- A term's numerator and denominator in `rewrite_as_one_fraction` (simplify.py:181-190), and whether it sets `has_den`. -/
def fracTerm (O : Oracle) (C : Ctors) (constDens : Bool) (t : Expr) : R ((Expr × Expr) × Bool) :=
  match t with
  | prod ts => do
    let nd ← numDen O C ts
    return (nd, !beq O nd.2 (rat 1) && (constDens || !(syms nd.2).isEmpty))
  | pow b (rat q) =>
    if q < 0 then do
      let d ← C.pow b (rat (-q))
      return ((rat 1, d), true)
    else .ok ((t, rat 1), false)
  | _ => .ok ((t, rat 1), false)

/-- `add_common_den(factors)` (simplify.py:173-178). -/
def addDens (O : Oracle) (acc : List Expr) : List Expr → List Expr
  | [] => acc
  | f :: r => addDens O (if acc.any (fun g => beq O g f) then acc else acc ++ [f]) r

/-- The factors of a denominator (simplify.py:192-195). -/
def denFactors : Expr → List Expr
  | prod ts => ts
  | d => [d]

/-- `rewrite_as_one_fraction(sum, include_const_denoms)` (simplify.py:161-202). -/
def oneFraction (O : Oracle) (C : Ctors) (constDens : Bool) : Expr → R (Option Expr)
  | sum ts => do
    let fs ← mapR (fracTerm O C constDens) ts
    if !fs.any (·.2) then return none
    else do
      let common ← C.prod (addDens O [] (fs.flatMap (fun f => denFactors f.1.2)))
      let nums ← mapR (fun (f : (Expr × Expr) × Bool) => do
        let a ← opMul C f.1.1 common
        opDiv C a f.1.2) fs
      let s ← C.sum nums
      let r ← opDiv C s common
      return some r
  | e => .ok (some e)

/-! ## Trig rules -/

/-- `_reciprocate_trigs` (simplify.py:205-215). -/
def recipPerf (O : Oracle) (n : Nat) : Expr → R Rep
  | pow (trig f i) (rat q) =>
    if q < 0 then
      match f.recip with
      | some g => do
        let b ← trigCtor O n g i
        let r ← (ctors O n).pow b (rat (-q))
        return .hit r
      | none => .ok .pass
    else .ok .pass
  | _ => .ok .pass

/-- `reciprocate_trigs(expr)` (simplify.py:237-244). -/
def reciprocateTrigs (O : Oracle) (n : Nat) (e : Expr) : R Expr := replaceE O (recipPerf O) n e

/-- `_pythagorean_complex_perform` (simplify.py:136-158). -/
def pythComplexPerf (O : Oracle) (n : Nat) : Expr → R Rep
  | sum ts => do
    let s ← replaceClass O (toSinCos O) n (sum ts)
    let k ← oneFraction O (ctors O n) false s
    match k with
    | none => return .pass
    | some t => do
      let r ← replaceE O (pythPerf O) n t
      if replaceHit (pythPerf O) n t then do
        let u ← reciprocateTrigs O n r
        return .hit u
      else return .pass
  | _ => .ok .pass

/-- The two identities of `_combine_trigs` (simplify.py:222-227) as queries times `any_factor`, and the resulting function. -/
def combineQueries : List (Expr × TrigFn) :=
  [(prod [any factorKey, trig .sec (any anyKey), trig .sin (any anyKey)], .tan),
   (prod [any factorKey, trig .cos (any anyKey), trig .csc (any anyKey)], .cot)]

/-- The loop of `_combine_trigs` (simplify.py:228-234). -/
def tryCombine (O : Oracle) (n : Nat) (e : Expr) : List (Expr × TrigFn) → R Rep
  | [] => .ok .pass
  | (q, g) :: r => do
    let k ← eqFactor O (ctors O n) e q
    match k with
    | some (factor, inner) => do
      let t ← trigCtor O n g inner
      let m ← opMul (ctors O n) factor t
      return .hit m
    | none => tryCombine O n e r

/-- `_combine_trigs` (simplify.py:218-234). -/
def combinePerf (O : Oracle) (n : Nat) : Expr → R Rep
  | prod ts => tryCombine O n (prod ts) combineQueries
  | _ => .ok .pass

/-! ## Product to sum -/

/-- `isinstance(t, (sin, cos))`. -/
def isSinCos : Expr → Bool
  | trig .sin _ | trig .cos _ => true
  | _ => false

/-- `is_valid_power(power)` (product_to_sum.py:48-54). -/
def validPower : Expr → Bool
  | pow b (rat q) => isSinCos b && q.den == 1 && decide (1 < q)
  | _ => false

/-- `a.inner + b.inner` or `a.inner - b.inner` (product_to_sum.py:18-25). -/
def ptsArg (C : Ctors) (plus : Bool) (a b : Expr) : R Expr := if plus then opAdd C a b else opSub C a b

/-- The sign in front of a term (product_to_sum.py:21, 25). -/
def ptsSign (C : Ctors) (neg : Bool) (t : Expr) : R Expr := if neg then opNeg C t else .ok t

/-- `sin(a.inner + b.inner) * c`, and so on: `g(a ± b) * c` with an optional sign in front (product_to_sum.py:18-25). -/
def ptsTerm (O : Oracle) (n : Nat) (g : TrigFn) (plus neg : Bool) (a b c : Expr) : R Expr := do
  let i ← ptsArg (ctors O n) plus a b
  let t ← trigCtor O n g i
  let t' ← ptsSign (ctors O n) neg t
  opMul (ctors O n) t' c

/-- `Rat(1, 2) if multiplier is None else multiplier / 2` (product_to_sum.py:16). -/
def ptsHalf (C : Ctors) : Option Expr → R Expr
  | none => .ok (rat (1 / 2))
  | some m => opDiv C m (rat 2)

/-- `_perform_on_terms(a, b, multiplier)` (product_to_sum.py:7-25). -/
def ptsPair (O : Oracle) (n : Nat) (a b : Expr) (mult : Option Expr) : R (Option (List Expr)) := do
  let c ← ptsHalf (ctors O n) mult
  match a, b with
  | trig .sin i, trig .cos j => do
    let u ← ptsTerm O n .sin true false i j c
    let v ← ptsTerm O n .sin false false i j c
    return some [u, v]
  | trig .cos i, trig .sin j => do
    let u ← ptsTerm O n .sin true false i j c
    let v ← ptsTerm O n .sin false true i j c
    return some [u, v]
  | trig .cos i, trig .cos j => do
    let u ← ptsTerm O n .cos true false i j c
    let v ← ptsTerm O n .cos false false i j c
    return some [u, v]
  | trig .sin i, trig .sin j => do
    let u ← ptsTerm O n .cos false false i j c
    let v ← ptsTerm O n .cos true true i j c
    return some [u, v]
  | _, _ => return none

/-- `final_terms` before the multiplier (product_to_sum.py:104-109). -/
def ptsMerge : List (Option (List Expr)) → List Expr → List Expr
  | some (u :: us) :: r, _ :: ts => u :: us ++ ptsMerge r ts
  | _ :: r, t :: ts => t :: ptsMerge r ts
  | _, _ => []

/-- `[t * multiplier for t in final_terms]` unless the multiplier is 1 (product_to_sum.py:111-112). -/
def ptsScale (O : Oracle) (C : Ctors) (mult : Option Expr) (ts : List Expr) : R (List Expr) :=
  match mult with
  | none => .ok ts
  | some m => if beq O m (rat 1) then .ok ts else mapR (fun t => opMul C t m) ts

/-- `_product_to_sum(sum, multiplier)` (product_to_sum.py:95-114), with `unit` for `_product_to_sum_unit`. -/
def ptsList (O : Oracle) (C : Ctors) (unit : Expr → R (Option (List Expr))) (ts : List Expr) (mult : Option Expr) :
    R (Option (List Expr)) := do
  let rs ← mapR unit ts
  if rs.all Option.isNone then return none
  else do
    let us ← ptsScale O C mult (ptsMerge rs ts)
    return some us

/-- `for t in intermediate`: `None` is not iterable. -/
def ptsInter (O : Oracle) (C : Ctors) (unit : Expr → R (Option (List Expr))) (o : Option (List Expr)) (mult : Expr) :
    R (Option (List Expr)) :=
  match o with
  | none => .error .type
  | some ts => ptsList O C unit ts (some mult)

/-- `remove_const_factor(expr, include_factor=True)` (expr.py:2082-2106). -/
def constFactor : Expr → R (Expr × Expr)
  | prod ts => do
    let s ← mkProdSkip (ts.filter varies)
    let c ← mkProdSkip (ts.filter (fun t => !varies t))
    return (s, c)
  | e => .ok (e, rat 1)

/-- `const * multiplier` (product_to_sum.py:45-46). -/
def ptsConst (C : Ctors) (c : Expr) : Option Expr → R Expr
  | none => .ok c
  | some m => opMul C c m

/-- `product_to_sum_unit(expr)` given the terms (product_to_sum.py:28-35); a `None` in a product is cast to an error. -/
def ptsSum (C : Ctors) (o : Option (List Expr)) : R Expr :=
  match o with
  | none => .error .notImplemented
  | some ts => C.sum ts

/-- `for t in e` (`Associative.__iter__`, expr.py:386-387); other classes are not iterable. -/
def iterTerms : Expr → R (List Expr)
  | sum ts => .ok ts
  | prod ts => .ok ts
  | _ => .error .type

/-- The case of a power (product_to_sum.py:83-92). -/
def ptsPower (O : Oracle) (n : Nat) (unit : Expr → R (Option (List Expr))) (b : Expr) (q : ℚ) (c : Expr) :
    R (Option (List Expr)) :=
  if q = 2 then ptsPair O n b b (some c)
  else do
    let m ← ptsPair O n b b (some (if q = 3 then b else pow b (rat (q - 2))))
    ptsInter O (ctors O n) unit m c

/-- The case of a product of two factors (product_to_sum.py:57-70). -/
def ptsTwo (O : Oracle) (n : Nat) (unit : Expr → Option Expr → R (Option (List Expr))) (a b c : Expr) : R (Option (List Expr)) :=
  let C := ctors O n
  let u := fun t => unit t none
  if isSinCos a && isSinCos b then ptsPair O n a b (some c)
  else if isSinCos a && validPower b then do
    let m ← unit b (some a)
    ptsInter O C u m c
  else if isSinCos b && validPower a then do
    let m ← unit a (some b)
    ptsInter O C u m c
  else if validPower b && validPower a then do
    let ra ← unit a none
    let rb ← unit b none
    let sa ← ptsSum C ra
    let sb ← ptsSum C rb
    let p ← opMul C sa sb
    let e ← expandE O n p
    let ts ← iterTerms e
    ptsList O C u ts (some c)
  else .ok none

/-- The case of a product of three or more factors (product_to_sum.py:72-81). The plain sines and cosines are dropped when
there is a power. -/
def ptsMany (O : Oracle) (n : Nat) (unit : Expr → Option Expr → R (Option (List Expr))) (ts : List Expr) (c : Expr) :
    R (Option (List Expr)) :=
  let C := ctors O n
  if !ts.all (fun t => isSinCos t || validPower t) then .ok none
  else if ts.any (fun t => !isSinCos t) then do
    let rs ← mapR (fun t => do let o ← unit t none; ptsSum C o) (ts.filter (fun t => !isSinCos t))
    let p ← C.prod rs
    let e ← expandE O n p
    let us ← iterTerms e
    ptsList O C (fun t => unit t none) us (some c)
  else
    match ts with
    | a :: b :: r => do
      let m ← mkProdSkip r
      let k ← opMul C m c
      ptsPair O n a b (some k)
    | _ => .error .index

/-- `_product_to_sum_unit(expr, multiplier)` (product_to_sum.py:38-92). -/
def ptsUnit (O : Oracle) : Nat → Expr → Option Expr → R (Option (List Expr))
  | 0, _, _ => .error .recursion
  | n + 1, e, mult => do
    let (s, c0) ← constFactor e
    let c ← ptsConst (ctors O n) c0 mult
    match s with
    | prod [a, b] => ptsTwo O n (ptsUnit O n) a b c
    | prod ts => ptsMany O n (ptsUnit O n) ts c
    | pow b (rat q) => if validPower s then ptsPower O n (fun t => ptsUnit O n t none) b q c else return none
    | _ => return none

/-- `product_to_sum_unit(expr)` (product_to_sum.py:28-35). -/
def productToSumUnit (O : Oracle) (n : Nat) (e : Expr) : R (Option Expr) := do
  let o ← ptsUnit O n e none
  match o with
  | none => return none
  | some ts => do
    let s ← (ctors O n).sum ts
    return some s

/-- The comparison at the end of `product_to_sum` (product_to_sum.py:131-139). -/
def ptsBetter (ts : List Expr) (r : Expr) : Bool :=
  match r with
  | sum us => decide (us.length < ts.length) || (us.length == ts.length && decide (countSymbols (sum us) < countSymbols (sum ts)))
  | _ => true

/-- `product_to_sum(expr)` (product_to_sum.py:117-139). -/
def ptsPerf (O : Oracle) (n : Nat) : Expr → R Rep
  | sum ts => do
    let o ← ptsList O (ctors O n) (fun t => ptsUnit O n t none) ts none
    match o with
    | none => return .pass
    | some us => do
      let r ← (ctors O n).sum us
      return if ptsBetter ts r then .hit r else .pass
  | _ => .ok .pass

/-! ## sec and tan -/

/-- `is_cls_squared(expr, cls)` (simplify.py:291-297): an even power of the function. -/
def isClsSquared (f : TrigFn) : Expr → Bool
  | pow (trig g _) (rat q) => g == f && ratEven q
  | _ => false

/-- `remove_num_factor(expr)` (simplify.py:300-305). -/
def removeNumFactor : Expr → R Expr
  | prod ts => mkProdSkip (ts.filter (fun t => !t.isNum))
  | e => .ok e

/-- `is_class_squared(expr, cls)` (simplify.py:308-310). -/
def isClassSquared (f : TrigFn) (t : Expr) : R Bool := do
  let s ← removeNumFactor t
  return isClsSquared f s

/-- Secs, tans and others (simplify.py:322-331). -/
def sectanSplit : List Expr → R (List Expr × List Expr × List Expr)
  | [] => .ok ([], [], [])
  | t :: r => do
    let a ← isClassSquared .sec t
    let b ← isClassSquared .tan t
    let (s, u, w) ← sectanSplit r
    return if a then (t :: s, u, w) else if b then (s, t :: u, w) else (s, u, t :: w)

/-- `perform(e)` of `sectan` (simplify.py:339-341): `sec**k` as `(1 + tan**2)**(k // 2)`. -/
def secToTan (O : Oracle) (n : Nat) : Expr → R Rep
  | pow (trig .sec i) (rat q) =>
    if ratEven q then do
      let t ← trigCtor O n .tan i
      let p ← opPow O (ctors O n) t (rat 2)
      let s ← opAdd (ctors O n) (rat 1) p
      let r ← opPow O (ctors O n) s (rat (q.num / 2 : ℤ))
      return .hit r
    else .ok .pass
  | _ => .ok .pass

/-- The loop over the secs (simplify.py:343-347): the terms they are expanded into. -/
def secTerms (O : Oracle) (n : Nat) (s : Expr) : R (List Expr) := do
  let r ← replaceE O (secToTan O) n s
  let b ← expandableE O n r
  let e ← if b then expandE O n r else .ok s
  match e with
  | sum ts => return ts
  | _ => .error .assertion

/-- `sectan(sum)` (simplify.py:313-355); the comparison of a number with a list at the end raises TypeError. -/
def sectanPerf (O : Oracle) (n : Nat) : Expr → R Rep
  | sum ts => do
    let (secs, tans, others) ← sectanSplit ts
    if secs.isEmpty || tans.isEmpty then return .pass
    else do
      let news ← mapR (secTerms O n) secs
      let r ← (ctors O n).sum (tans ++ news.flatten ++ others)
      match r with
      | sum _ => .error .type
      | _ => return .hit r
  | _ => .ok .pass

/-! ## `simplify` -/

/-- The performs of the first pass of `trig_simplify` (simplify.py:276-281). -/
def trigPass1 (O : Oracle) : Nat → Expr → R Rep := withTrig (fun n => [pythPerf O n, pythComplexPerf O n, recipPerf O n])

/-- The performs of the second pass (simplify.py:282-287). -/
def trigPass2 (O : Oracle) : Nat → Expr → R Rep := withTrig (fun n => [combinePerf O n, ptsPerf O n, sectanPerf O n])

/-- `trig_simplify(expr)` (simplify.py:273-288). -/
def trigSimplify (O : Oracle) (n : Nat) (e : Expr) : R (Expr × Bool) := do
  let r1 ← replaceE O (trigPass1 O) n e
  let r2 ← replaceE O (trigPass2 O) n r1
  return (r2, replaceHit (trigPass1 O) n e || replaceHit (trigPass2 O) n r1)

/-- `expr2` after the trig rules, and `is_trig_hit` (simplify.py:259-261). -/
def trigPart (O : Oracle) (n : Nat) (e : Expr) : R (Expr × Bool) :=
  if containsCls isPlainTrig e then trigSimplify O n e else .ok (e, false)

/-- `expr2` after the log rules (simplify.py:262-263). -/
def logPart (O : Oracle) (n : Nat) (e : Expr) : R Expr := if containsCls isLog e then expandLogs O n e else .ok e

/-- `is_simpler(e1, e2)` (simplify.py:358-362). -/
def isSimpler (a b : Expr) : Bool := decide (countSymbols a < countSymbols b)

/-- `simplify(expr)` (simplify.py:247-270). -/
def simplifyE (O : Oracle) (n : Nat) (e : Expr) : R Expr := do
  let e1 ← expandOr (expandableE O n) (expandE O n) e
  let (e2, hit) ← trigPart O n e1
  let e3 ← logPart O n e2
  return if hit then e3 else if isSimpler e3 e then e3 else e

end Simpy
