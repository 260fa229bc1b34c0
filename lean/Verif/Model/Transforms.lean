import Verif.Model.Table
import Verif.Model.Poly
import Verif.Model.Tree

/-!
# The integration transforms: `check` and `forward` (transforms.py)

For each transform, the function below is `check` followed, if it says yes, by the computation of `forward`, up to the
attachment of the children to the tree: `none` if `check` says no. The tests of `check` that look at how the node came about
(`_get_last_heuristic_transform`) only restrict when a transform is tried and belong to the engine, not here. The name of the
new variable, `generate_intermediate_var()` (transforms.py:1136-1137), is the parameter `u`.
-/

namespace Simpy
open Expr

/-! ## PullConstant, Expand -/

/-- The loop of `PullConstant.check` (transforms.py:237-246): the first factor without the variable, and the product of the
others. `pre` are the factors before. -/
def pullLoop (C : Ctors) (v : Str) : List Expr → List Expr → R (Option (Expr × Expr))
  | _, [] => .ok none
  | pre, t :: r =>
    if v ∈ syms t then pullLoop C v (pre ++ [t]) r
    else do
      let q ← C.prod (pre ++ r)
      return some (t, q)

/-- `PullConstant` (transforms.py:225-253): the constant and the new integrand. -/
def pullConstant (O : Oracle) (n : Nat) (v : Str) : Expr → R (Option (Expr × Expr))
  | prod ts => pullLoop (ctors O n) v [] ts
  | _ => .ok none

/-- `Expand` (transforms.py:314-334). -/
def expandT (O : Oracle) (n : Nat) (e : Expr) : R (Option Expr) := do
  let b ← expandableE O n e
  if b then do
    let r ← expandE O n e
    return some r
  else return none

/-! ## u-substitutions: the substituted expression and the new integrand -/

/-- The loop of `TrigUSub2.check` (transforms.py:420-425). -/
def trigKey (O : Oracle) (n : Nat) (v : Str) (e : Expr) : List TrigFn → R (Option (TrigFn × Expr))
  | [] => .ok none
  | f :: r => do
    let q ← trigCtor O n f (sym v)
    if 1 ≤ count O q e && count O q e == count O (sym v) e then return some (f, q) else trigKey O n v e r

/-- `dy_dx(intermediate)` of `TrigUSub2._table` (transforms.py:392-396). -/
def trigDx (O : Oracle) (C : Ctors) (f : TrigFn) (u : Expr) : R Expr := do
  let p ← opPow O C u (rat 2)
  match f with
  | .tan => do
    let d ← opAdd C (rat 1) p
    opDiv C (rat 1) d
  | _ => do
    let d ← opSub C (rat 1) p
    let s ← opSqrt O C d
    opDiv C (rat (if f = .cos then -1 else 1)) s

/-- `TrigUSub2` (transforms.py:382-427). -/
def trigUSub2 (O : Oracle) (n : Nat) (v u : Str) (e : Expr) : R (Option (Expr × Expr)) := do
  let k ← trigKey O n v e [.sin, .cos, .tan]
  match k with
  | none => return none
  | some (f, q) => do
    let r ← replaceOld O n e q (sym u)
    let d ← trigDx O (ctors O n) f (sym u)
    let g ← opMul (ctors O n) r d
    return some (q, g)

/-- The search query of `InverseTrigUSub._table` (transforms.py:495-498): `1 - x**2` for `sin`, `1 + x**2` for `tan`. -/
def invQuery (O : Oracle) (C : Ctors) (f : TrigFn) (v : Expr) : R Expr := do
  let p ← opPow O C v (rat 2)
  match f with
  | .tan => opAdd C (rat 1) p
  | _ => opSub C (rat 1) p

/-- The loop of `InverseTrigUSub.check` (transforms.py:525-529). -/
def invKey (O : Oracle) (n : Nat) (v : Str) (e : Expr) : List TrigFn → R (Option TrigFn)
  | [] => .ok none
  | f :: r => do
    let q ← invQuery O (ctors O n) f (sym v)
    if 0 < count O q e then return some f
    else do
      let m ← opMul (ctors O n) q (rat (-1))
      if 0 < count O m e then return some f else invKey O n v e r

/-- `dy_dx(intermediate)` of `InverseTrigUSub._table`: `cos(u)` or `sec(u)**2`. -/
def invDx (O : Oracle) (n : Nat) (f : TrigFn) (u : Expr) : R Expr :=
  match f with
  | .tan => do
    let s ← trigCtor O n .sec u
    opPow O (ctors O n) s (rat 2)
  | _ => trigCtor O n .cos u

/-- `InverseTrigUSub` (transforms.py:489-531), without the `Simplify` that is tacked on. -/
def inverseTrigUSub (O : Oracle) (n : Nat) (v u : Str) (e : Expr) : R (Option (Expr × Expr)) := do
  let k ← invKey O n v e [.sin, .tan]
  match k with
  | none => return none
  | some f => do
    let d ← invDx O n f (sym u)
    let s ← trigCtor O n f (sym u)
    let r ← replaceOld O n e (sym v) s
    let g ← opMul (ctors O n) r d
    let q ← trigCtor O n (if f = .tan then .atan else .asin) (sym v)
    return some (q, g)

/-- The loop of `PolynomialUSub.check` (transforms.py:549-563): `n` and `rest`. -/
def polyULoop (O : Oracle) (C : Ctors) (v : Str) : List Expr → List Expr → R (Option (Expr × Expr))
  | _, [] => .ok none
  | pre, t :: r =>
    match t with
    | pow b m =>
      if beq O b (sym v) && !m.contains v then do
        let k ← opAdd C m (rat 1)
        let q ← C.prod (pre ++ r)
        return some (k, q)
      else polyULoop O C v (pre ++ [t]) r
    | _ =>
      if beq O t (sym v) then do
        let q ← C.prod (pre ++ r)
        return some (rat 2, q)
      else polyULoop O C v (pre ++ [t]) r

/-- `PolynomialUSub` (transforms.py:534-580). -/
def polynomialUSub (O : Oracle) (n : Nat) (v u : Str) (e : Expr) : R (Option (Expr × Expr)) :=
  match e with
  | prod ts => do
    let k ← polyULoop O (ctors O n) v [] ts
    match k with
    | none => return none
    | some (m, rest) =>
      if beq O m (rat 0) then return none
      else do
        let q ← (ctors O n).pow (sym v) m
        if 0 < count O q e && count O q e == count O (sym v) rest then do
          let d ← diffE O n v q
          let r ← replaceOld O n e q (sym u)
          let g ← opDiv (ctors O n) r d
          return some (q, g)
        else return none
  | _ => .ok none

/-- `all(f(t) for t in ts)`, stopping at the first miss. -/
def allR {α : Type} (f : α → R Bool) : List α → R Bool
  | [] => .ok true
  | t :: r => do
    let b ← f t
    if b then allR f r else return false

/-- `not c.contains(var) or not (c / var).contains(var)` (transforms.py:605). -/
def linTerm (C : Ctors) (v : Str) (c : Expr) : R Bool :=
  if c.contains v then do
    let q ← opDiv C c (sym v)
    return !q.contains v
  else .ok true

/-- `-e` if `e` is a subtraction (transforms.py:614-615). -/
def negIfSub (C : Ctors) (e : Expr) : R Expr := if e.isSubtraction then opNeg C e else .ok e

/-- `abs(c)` if `c` is a number (transforms.py:625). -/
def absIfNum (C : Ctors) (c : Expr) : R Expr := if c.isNum then C.abs c else .ok c

/-- `_is_a_linear_sum_or_prod(expr)` (transforms.py:600-628): `u`, and `inner_coeff` if there is an inverse variable change
`u ↦ u / inner_coeff`. -/
def linearShape (O : Oracle) (n : Nat) (v : Str) (e : Expr) : R (Option (Expr × Option Expr)) :=
  let C := ctors O n
  match e with
  | sum ts => do
    let b ← allR (linTerm C v) ts
    if b then return some (e, none) else return none
  | prod _ => do
    let q ← opDiv C e (sym v)
    if !q.contains v then return some (e, none)
    else do
      let e' ← negIfSub C e
      let xyz ← removeConstFactor e'
      match xyz with
      | pow b x =>
        if beq O b (sym v) && !x.contains v then do
          let c ← opDiv C e' xyz
          if beq O c (rat 1) then return none
          else do
            let a ← absIfNum C c
            let i ← opDiv C (rat 1) x
            let ic ← C.pow a i
            let w ← opMul C ic (sym v)
            return some (w, some ic)
        else return none
      | _ => return none
  | _ => .ok none

/-- `self._u` and the coefficient of `self._inverse_var_change` of a `LinearUSub` object. -/
abbrev LinState := Option Expr × Option Expr

/-- What `_check` does with the verdict of `_is_a_linear_sum_or_prod` on a node (transforms.py:633-645): `none` if it goes on
to the children. -/
def linVerdict (O : Oracle) (s : LinState) : Option (Expr × Option Expr) → Option (Bool × LinState)
  | some (w, ic) =>
    match s.1 with
    | some w0 => some (beq O w w0, s)
    | none => some (true, some w, ic)
  | none => none

/-- The part of `_check(e)` (transforms.py:630-645) before the children are looked at: `none` if they are. -/
def linPre (O : Oracle) (n : Nat) (v : Str) (e : Expr) (s : LinState) : R (Option (Bool × LinState)) :=
  if !e.contains v then .ok (some (true, s))
  else do
    let k ← linearShape O n v e
    return linVerdict O s k

mutual
/-- `_check(e)` of `LinearUSub.check` (transforms.py:630-651), with the state of the object. -/
def linCheck (O : Oracle) (n : Nat) (v : Str) : Expr → LinState → R (Bool × LinState)
  | sum ts, s =>
    match linPre O n v (sum ts) s with
    | .error er => .error er
    | .ok (some r) => .ok r
    | .ok none => linCheckL O n v ts s
  | prod ts, s =>
    match linPre O n v (prod ts) s with
    | .error er => .error er
    | .ok (some r) => .ok r
    | .ok none => linCheckL O n v ts s
  | pow b x, s =>
    match linPre O n v (pow b x) s with
    | .error er => .error er
    | .ok (some r) => .ok r
    | .ok none =>
      match linCheck O n v b s with
      | .error er => .error er
      | .ok (true, s') => linCheck O n v x s'
      | .ok (false, s') => .ok (false, s')
  | log i b, s =>
    match linPre O n v (log i b) s with
    | .error er => .error er
    | .ok (some r) => .ok r
    | .ok none =>
      match linCheck O n v i s with
      | .error er => .error er
      | .ok (true, s') => linCheck O n v b s'
      | .ok (false, s') => .ok (false, s')
  | trig f i, s =>
    match linPre O n v (trig f i) s with
    | .error er => .error er
    | .ok (some r) => .ok r
    | .ok none => linCheck O n v i s
  | absv i, s =>
    match linPre O n v (absv i) s with
    | .error er => .error er
    | .ok (some r) => .ok r
    | .ok none => linCheck O n v i s
  | e, s =>
    match linPre O n v e s with
    | .error er => .error er
    | .ok (some r) => .ok r
    | .ok none => .ok (false, s)
/-- `all(_check(child) for child in e.children())`. -/
def linCheckL (O : Oracle) (n : Nat) (v : Str) : List Expr → LinState → R (Bool × LinState)
  | [], s => .ok (true, s)
  | t :: r, s =>
    match linCheck O n v t s with
    | .error er => .error er
    | .ok (true, s') => linCheckL O n v r s'
    | .ok (false, s') => .ok (false, s')
end

/-- The old integrand in terms of the new variable (transforms.py:661-665): through the inverse variable change if there is
one. -/
def linReplace (O : Oracle) (n : Nat) (v u : Str) (e q : Expr) : Option Expr → R Expr
  | some ic => do
    let w ← opDiv (ctors O n) (sym u) ic
    replaceOld O n e (sym v) w
  | none => replaceOld O n e q (sym u)

/-- `LinearUSub` (transforms.py:583-668). -/
def linearUSub (O : Oracle) (n : Nat) (v u : Str) (e : Expr) : R (Option (Expr × Expr)) :=
  if count O (sym v) e < 1 then .ok none
  else do
    let (b, s) ← linCheck O n v e (none, none)
    if b then
      match s.1 with
      | none => .error .attribute
      | some q => do
        let d ← diffE O n v q
        let r ← linReplace O n v u e q s.2
        let g ← opDiv (ctors O n) r d
        return some (q, g)
    else return none

/-- The loop of `GenericUSub.check` (transforms.py:947-958). The float division `count(rest, var) / count(integral, var)`
is compared exactly (counts are far below 2**53). -/
def genericLoop (O : Oracle) (n : Nat) (v : Str) : List Expr → List Expr → R (Option Expr)
  | _, [] => .ok none
  | pre, t :: r => do
    let k ← checkTable O n v t
    match k with
    | none => genericLoop O n v (pre ++ [t]) r
    | some F => do
      let q ← removeConstFactor F
      let rest ← (ctors O n).prod (pre ++ r)
      if count O (sym v) q = 0 then .error .zeroDivision
      else if count O q rest * count O (sym v) q == count O (sym v) rest then return some q
      else genericLoop O n v (pre ++ [t]) r

/-- `GenericUSub` (transforms.py:936-966). -/
def genericUSub (O : Oracle) (n : Nat) (v u : Str) (e : Expr) : R (Option (Expr × Expr)) :=
  match e with
  | prod ts => do
    let k ← genericLoop O n v [] ts
    match k with
    | none => return none
    | some q => do
      let d ← diffE O n v q
      let f ← opDiv (ctors O n) e d
      let g ← replaceOld O n f q (sym u)
      return some (q, g)
  | _ => .ok none

/-! ## Rewriting -/

/-- The replacements of `RewriteTrig.forward` (transforms.py:433-466), first list: in terms of sin and cos. -/
def toSinCos (O : Oracle) : TrigFn → Option (Nat → Expr → R Expr)
  | .tan => some fun n x => do
    let a ← trigCtor O n .sin x
    let b ← trigCtor O n .cos x
    opDiv (ctors O n) a b
  | .csc => some fun n x => do
    let a ← trigCtor O n .sin x
    opDiv (ctors O n) (rat 1) a
  | .cot => some fun n x => do
    let a ← trigCtor O n .cos x
    let b ← trigCtor O n .sin x
    opDiv (ctors O n) a b
  | .sec => some fun n x => do
    let a ← trigCtor O n .cos x
    opDiv (ctors O n) (rat 1) a
  | _ => none

/-- Second list: in terms of tan and csc. -/
def toTanCsc (O : Oracle) : TrigFn → Option (Nat → Expr → R Expr)
  | .sin => some fun n x => do
    let a ← trigCtor O n .csc x
    opDiv (ctors O n) (rat 1) a
  | .cos => some fun n x => do
    let a ← trigCtor O n .tan x
    let b ← opDiv (ctors O n) (rat 1) a
    let c ← trigCtor O n .csc x
    opDiv (ctors O n) b c
  | .cot => some fun n x => do
    let a ← trigCtor O n .tan x
    opDiv (ctors O n) (rat 1) a
  | .sec => some fun n x => do
    let a ← trigCtor O n .tan x
    let b ← trigCtor O n .csc x
    opMul (ctors O n) a b
  | _ => none

/-- Third list: in terms of cot and sec. -/
def toCotSec (O : Oracle) : TrigFn → Option (Nat → Expr → R Expr)
  | .sin => some fun n x => do
    let a ← trigCtor O n .cot x
    let b ← opDiv (ctors O n) (rat 1) a
    let c ← trigCtor O n .sec x
    opDiv (ctors O n) b c
  | .cos => some fun n x => do
    let a ← trigCtor O n .sec x
    opDiv (ctors O n) (rat 1) a
  | .tan => some fun n x => do
    let a ← trigCtor O n .cot x
    opDiv (ctors O n) (rat 1) a
  | .csc => some fun n x => do
    let a ← trigCtor O n .cot x
    let b ← trigCtor O n .sec x
    opMul (ctors O n) a b
  | _ => none

/-- `isinstance(t, TrigFunctionNotInverse)`. -/
def isPlainTrig : Expr → Bool
  | trig f _ => !f.isInverse
  | _ => false

/-- `RewriteTrig` (transforms.py:430-486): the new integrands. -/
def rewriteTrig (O : Oracle) (n : Nat) (e : Expr) : R (List Expr) :=
  if containsCls isPlainTrig e then do
    let r1 ← replaceClass O (toSinCos O) n e
    let r2 ← replaceClass O (toTanCsc O) n e
    let r3 ← replaceClass O (toCotSec O) n e
    return [r1, r2, r3].filter (fun r => !beq O r e)
  else .ok []

/-- `RewritePythagorean.condition` (transforms.py:1035-1043): the function, its argument and the exponent. -/
def pythOdd : Expr → Option (TrigFn × Expr × ℚ)
  | pow (trig f i) (rat q) =>
    if (f = .sin ∨ f = .cos) ∧ 1 < q ∧ q.den = 1 ∧ q.num % 2 = 1 then some (f, i, q) else none
  | _ => none

/-- `RewritePythagorean.perform` (transforms.py:1046-1051). -/
def pythPerform (O : Oracle) (n : Nat) (f : TrigFn) (i : Expr) (q : ℚ) : R Expr := do
  let c ← trigCtor O n (if f = .sin then .cos else .sin) i
  let p ← opPow O (ctors O n) c (rat 2)
  let d ← opSub (ctors O n) (rat 1) p
  let k ← opPow O (ctors O n) d (rat ((q - 1) / 2))
  let s ← trigCtor O n f i
  opMul (ctors O n) k s

mutual
/-- `_replace(e)` of `RewritePythagorean.forward` (transforms.py:1064-1073), and whether it hit. -/
def pythReplace (O : Oracle) (n : Nat) : Expr → R (Bool × Expr)
  | prod ts =>
    match pythReplaceL O n ts with
    | .error er => .error er
    | .ok (b, us) => (ctors O n).prod us |>.map (b, ·)
  | e =>
    match pythOdd e with
    | some (f, i, q) => (pythPerform O n f i q).map (true, ·)
    | none => .ok (false, e)
def pythReplaceL (O : Oracle) (n : Nat) : List Expr → R (Bool × List Expr)
  | [] => .ok (false, [])
  | t :: r =>
    match pythReplace O n t with
    | .error er => .error er
    | .ok (b, u) =>
      match pythReplaceL O n r with
      | .error er => .error er
      | .ok (c, us) => .ok (b || c, u :: us)
end

/-- `RewritePythagorean` (transforms.py:1027-1082). -/
def rewritePythagorean (O : Oracle) (n : Nat) (e : Expr) : R (Option Expr) := do
  let (b, r) ← pythReplace O n e
  return if b then some r else none

/-- `perform(expr)` of `CompleteTheSquare.forward` (transforms.py:1009-1017) on a polynomial of degree 2. -/
def squarePerform (O : Oracle) (n : Nat) (v : Str) (a0 a1 a2 : Expr) : R Expr := do
  let C := ctors O n
  let b0 ← opDiv C a0 a2
  let b1 ← opDiv C a1 a2
  let _ ← opDiv C a2 a2
  let c ← opDiv C b1 (rat 2)
  let c2 ← opPow O C c (rat 2)
  let d ← opSub C b0 c2
  let vc ← opAdd C (sym v) c
  let s ← opSqrt O C d
  let q ← opDiv C vc s
  let q2 ← opPow O C q (rat 2)
  let q3 ← opAdd C q2 (rat 1)
  let q4 ← opMul C q3 d
  opMul C q4 a2

/-- `condition(expr)` and `perform(expr)` of `CompleteTheSquare.forward` (transforms.py:1002-1017). -/
def squarePerf (O : Oracle) (v : Str) (n : Nat) (e : Expr) : R Rep := do
  let p ← catchAssert (toConstPoly O n v e)
  match p with
  | some [a0, a1, a2] => do
    let r ← squarePerform O n v a0 a1 a2
    return .hit r
  | _ => return .pass

/-- `condition(expr)` of `CompleteTheSquare.check` (transforms.py:980-998). -/
def squareCond (O : Oracle) (n : Nat) (v : Str) : Expr → R Bool
  | pow b x =>
    if beq O x (rat (-1 / 2)) || beq O x (rat (-1)) then do
      let p ← catchAssert (toConstPoly O n v b)
      match p with
      | some [_, a1, _] => return !beq O a1 (rat 0)
      | _ => return false
    else .ok false
  | _ => .ok false

mutual
/-- `general_contains(expr, condition)` (regex.py:384-387) with a condition that may raise. -/
def containsR (cond : Expr → R Bool) : Expr → R Bool
  | sum ts =>
    match cond (sum ts) with
    | .ok false => containsRL cond ts
    | r => r
  | prod ts =>
    match cond (prod ts) with
    | .ok false => containsRL cond ts
    | r => r
  | pow b x =>
    match cond (pow b x) with
    | .ok false =>
      match containsR cond b with
      | .ok false => containsR cond x
      | r => r
    | r => r
  | log i b =>
    match cond (log i b) with
    | .ok false =>
      match containsR cond i with
      | .ok false => containsR cond b
      | r => r
    | r => r
  | trig f i =>
    match cond (trig f i) with
    | .ok false => containsR cond i
    | r => r
  | absv i =>
    match cond (absv i) with
    | .ok false => containsR cond i
    | r => r
  | e => cond e
def containsRL (cond : Expr → R Bool) : List Expr → R Bool
  | [] => .ok false
  | t :: r =>
    match containsR cond t with
    | .ok false => containsRL cond r
    | r => r
end

/-- `CompleteTheSquare` (transforms.py:969-1024). -/
def completeTheSquare (O : Oracle) (n : Nat) (v : Str) (e : Expr) : R (Option Expr) := do
  let b ← containsR (squareCond O n v) e
  if b then do
    let r ← replaceE O (squarePerf O v) n e
    return some r
  else return none

/-! ## ByParts -/

/-- `(u, du, v, dv)` of `ByParts.check` (transforms.py:746-780); `integ dv` is `_integrate_dv_check(dv, var)`. The test
`_parents_exprs_check` against the integrands of earlier integrations by parts is the predicate `old` on the new integrand. -/
def byPartsTry (O : Oracle) (n : Nat) (x : Str) (integ : Expr → R (Option Expr)) (old : Expr → Bool) (e u dv : Expr) :
    R (Option (Expr × Expr × Expr)) := do
  let p ← isPolynomial O n x dv
  if p then return none
  else do
    let du ← diffE O n x u
    let k ← integ dv
    match k with
    | none => return none
    | some w => do
      let a ← opMul (ctors O n) du w
      let g ← opMul (ctors O n) a (rat (-1))
      let f ← opDiv (ctors O n) g e
      if beq O f (rat 1) || old g then return none else return some (u, du, w)

/-- `isinstance(e, log) or isinstance(e, TrigFunction) and e.is_inverse`, with `e.inner == var` (transforms.py:751-753). -/
def logOrInverse (O : Oracle) (x : Str) : Expr → Bool
  | log i _ => beq O i (sym x)
  | trig f i => f.isInverse && beq O i (sym x)
  | _ => false

/-- `ByParts.check` (transforms.py:746-780): the parts `u`, `du`, `v`. -/
def byPartsCheck (O : Oracle) (n : Nat) (x : Str) (integ : Expr → R (Option Expr)) (old : Expr → Bool) (e : Expr) :
    R (Option (Expr × Expr × Expr)) :=
  match e with
  | prod [a, b] => do
    let k ← byPartsTry O n x integ old e a b
    match k with
    | some r => return some r
    | none => byPartsTry O n x integ old e b a
  | prod _ => .ok none
  | _ =>
    if logOrInverse O x e then do
      let du ← diffE O n x e
      return some (e, du, sym x)
    else .ok none

/-- `child1 = u * v`, `integrand2 = du * v * -1` and `factor = integrand2 / expr` of `ByParts.forward`
(transforms.py:792-801). -/
def byPartsParts (O : Oracle) (n : Nat) (e u du w : Expr) : R (Expr × Expr × Expr) := do
  let c ← opMul (ctors O n) u w
  let a ← opMul (ctors O n) du w
  let g ← opMul (ctors O n) a (rat (-1))
  let f ← opDiv (ctors O n) g e
  return (c, g, f)

/-- `child1 / (1 - factor)` (transforms.py:803, 829). -/
def byPartsSolution (C : Ctors) (c f : Expr) : R Expr := do
  let d ← opSub C (rat 1) f
  opDiv C c d

end Simpy
