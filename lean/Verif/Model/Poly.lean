import Verif.Model.Calculus

/-!
# Polynomials, 2x2 matrices, polynomial division, factoring and partial fractions

polynomial.py, linalg.py, `Sum.factor` (expr.py:956-1026) and the algebra of the transforms `PolynomialDivision`
(transforms.py:256-311) and `PartialFractions` (transforms.py:868-925). A numpy object array is a list; an operation on it is
the operation on its elements from left to right.
-/

namespace Simpy
open Expr

/-- `_add_answer(const, idx)` (polynomial.py:20-28). -/
def addAnswer (C : Ctors) (c : Expr) (idx : Nat) (ans : List Expr) (mult : Expr) : R (List Expr) := do
  let nc ← opMul C c mult
  match ans[idx]? with
  | some old => do
    let s ← opAdd C old nc
    return ans.set idx s
  | none => return ans ++ List.replicate (idx - ans.length) (rat 0) ++ [nc]

/-- `isinstance(x, Rat) and x.value == int(x.value) and x.value >= 1` (polynomial.py:46-50), with `int(x.value)`. -/
def natExponent : Expr → Option Nat
  | rat q => if q.den = 1 ∧ 1 ≤ q then some q.num.toNat else none
  | _ => none

mutual
/-- `_to_const_polynomial(expr, var, answer, multiplier)` (polynomial.py:16-57). The recursive call for a term of a Sum does
not pass the multiplier on, and neither does the one for a factor of a Prod pass on the outer multiplier. -/
def toPoly (O : Oracle) (C : Ctors) (v : Str) : Expr → List Expr → Expr → R (List Expr)
  | e, ans, mult =>
    if !e.contains v then addAnswer C e 0 ans mult
    else
      match e with
      | sum ts => toPolyL O C v ts ans
      | prod [rat c, other] => toPoly O C v other ans (rat c)
      | prod _ => .error .assertion
      | pow b x =>
        if beq O b (sym v) then
          match natExponent x with
          | some k => addAnswer C (rat 1) k ans mult
          | none => .error .assertion
        else .error .assertion
      | sym s => if s = v then addAnswer C (rat 1) 1 ans mult else .error .assertion
      | _ => .error .assertion
def toPolyL (O : Oracle) (C : Ctors) (v : Str) : List Expr → List Expr → R (List Expr)
  | [], ans => .ok ans
  | t :: r, ans => do
    let ans' ← toPoly O C v t ans (rat 1)
    toPolyL O C v r ans'
end

/-- `to_const_polynomial(expr, var)` (polynomial.py:60-62). -/
def toConstPoly (O : Oracle) (n : Nat) (v : Str) (e : Expr) : R (List Expr) := do
  let e' ← expandOr (expandableE O n) (expandE O n) e
  toPoly O (ctors O n) v e' [] (rat 1)

/-- Catching AssertionError (`except AssertionError: return False`, polynomial.py:12, transforms.py:281-282, 888-889). -/
def catchAssert {α : Type} : R α → R (Option α)
  | .ok a => .ok (some a)
  | .error .assertion => .ok none
  | .error e => .error e

/-- `is_polynomial(expr, var)` (polynomial.py:8-13). -/
def isPolynomial (O : Oracle) (n : Nat) (v : Str) (e : Expr) : R Bool := do
  let r ← catchAssert (toConstPoly O n v e)
  return r.isSome

/-- The loop of `polynomial_to_expr` from index `i` on (polynomial.py:67-68). -/
def polyToExprFrom (O : Oracle) (C : Ctors) (v : Str) : Nat → Expr → List Expr → R Expr
  | _, acc, [] => .ok acc
  | i, acc, c :: r => do
    let p ← opPow O C (sym v) (rat i)
    let m ← opMul C c p
    let acc' ← opAdd C acc m
    polyToExprFrom O C v (i + 1) acc' r

/-- `polynomial_to_expr(poly, var)` (polynomial.py:65-69). -/
def polyToExpr (O : Oracle) (C : Ctors) (v : Str) (cs : List Expr) : R Expr := polyToExprFrom O C v 0 (rat 0) cs

/-- The counting loop of `rid_ending_zeros` over the reversed list (polynomial.py:73-78). -/
def countZeros (O : Oracle) : List Expr → Nat
  | [] => 0
  | c :: r => if beq O c (rat 0) then countZeros O r + 1 else 0

/-- `rid_ending_zeros(lis)` (polynomial.py:72-80). -/
def ridEndingZeros (O : Oracle) (cs : List Expr) : List Expr := cs.take (cs.length - countZeros O cs.reverse)

/-! ## linalg.py -/

/-- `invert(matrix)` (linalg.py:4-21) on the list of rows: non-square is an AssertionError, other sizes than 2 are
NotImplementedError, `none` is the returned `None`. -/
def invert (O : Oracle) (C : Ctors) (m : List (List Expr)) : R (Option (List (List Expr))) := do
  let _ ← assertR (m.all fun row => row.length == m.length)
  match m with
  | [[a, b], [c, d]] => do
    let ad ← opMul C a d
    let bc ← opMul C b c
    let det ← opSub C ad bc
    if beq O det (rat 0) then return none
    else do
      let p ← opDiv C d det
      let nb ← opNeg C b
      let q ← opDiv C nb det
      let nc ← opNeg C c
      let r ← opDiv C nc det
      let s ← opDiv C a det
      return some [[p, q], [r, s]]
  | _ => .error .notImplemented

/-! ## Polynomial division -/

/-- Elementwise binary operation on two arrays of the same length; numpy raises ValueError otherwise (a length 1 array would
be broadcast: it does not occur, both operands always have the length of the numerator). -/
def zipR (f : Expr → Expr → R Expr) : List Expr → List Expr → R (List Expr)
  | [], [] => .ok []
  | a :: r, b :: s => do
    let c ← f a b
    let cs ← zipR f r s
    return c :: cs
  | _, _ => .error .value

/-- One pass of the `while` loop of `PolynomialDivision.forward` (transforms.py:298-302): the quotient coefficient and the new
numerator. -/
def divStep (O : Oracle) (C : Ctors) (num den : List Expr) : R (Expr × List Expr) := do
  match num.getLast?, den.getLast? with
  | some a, some b => do
    let q ← opDiv C a b
    let dq ← mapR (fun d => opMul C d q) den
    let num' ← zipR (opSub C) num (List.replicate (num.length - den.length) (rat 0) ++ dq)
    return (q, ridEndingZeros O num')
  | _, _ => .error .index

/-- The `while` loop of `PolynomialDivision.forward` (transforms.py:297-302) with `k` passes left: quotient and final
numerator. A loop that does not end is `.recursion`. -/
def divLoop (O : Oracle) (C : Ctors) (den : List Expr) : Nat → List Expr → List Expr → R (List Expr × List Expr)
  | 0, quo, num => if den.length ≤ num.length then .error .recursion else .ok (quo, num)
  | k + 1, quo, num =>
    if den.length ≤ num.length then do
      let (q, num') ← divStep O C num den
      divLoop O C den k (quo.set (num.length - den.length) q) num'
    else .ok (quo, num)

/-- The quotient array before the loop (transforms.py:294-295). -/
def quoInit (num den : List Expr) : List Expr := List.replicate (num.length - den.length + 1) (rat 0)

/-- `PolynomialDivision.forward` (transforms.py:292-307): the new integrand. -/
def polyDivForward (O : Oracle) (n k : Nat) (v : Str) (num den : List Expr) : R Expr := do
  let (quo, rem) ← divLoop O (ctors O n) den k (quoInit num den) num
  let re ← polyToExpr O (ctors O n) v rem
  let de ← polyToExpr O (ctors O n) v den
  let r ← opDiv (ctors O n) re de
  let q ← polyToExpr O (ctors O n) v quo
  opAdd (ctors O n) q r

/-- `expr.symbols() == [var]`. -/
def onlySym (v : Str) (e : Expr) : Bool := !(syms e).isEmpty && (syms e).all (· == v)

/-- `numerator == 1`, the coefficient arrays of numerator and denominator, or `none` where the check says no
(transforms.py:268-290 for PolynomialDivision, 883-892 for PartialFractions). -/
def fractionLists (O : Oracle) (n : Nat) (v : Str) (ts : List Expr) : R (Option (Expr × List Expr × List Expr)) := do
  let (num, den) ← numDen O (ctors O n) ts
  if beq O den (rat 1) then return none
  else do
    let r ← catchAssert (do
      let a ← toConstPoly O n v num
      let b ← toConstPoly O n v den
      return (a, b))
    return r.map fun p => (den, p.1, p.2)

/-- `PolynomialDivision.check` and `forward` (transforms.py:262-307): `none` if the check fails, otherwise the new
integrand. -/
def polyDiv (O : Oracle) (n k : Nat) (v : Str) (e : Expr) : R (Option Expr) :=
  match e with
  | prod ts =>
    if !onlySym v e then .ok none
    else do
      let l ← fractionLists O n v ts
      match l with
      | none => return none
      | some (_, num, den) =>
        if num.length < den.length then return none
        else do
          let r ← polyDivForward O n k v num den
          return some r
  | _ => .ok none

/-! ## `Sum.factor` -/

/-- A factor in `Sum.factor`: base, absolute value and sign (true: positive) of the exponent (expr.py:966-978). -/
structure Fac where
  base : Expr
  expo : ℚ
  pos : Bool

mutual
/-- `_df(term)[1][0]` (expr.py:966-978). -/
def dfHead : Expr → R Fac
  | prod ts => do
    let l ← dfHeads ts
    match l with
    | [] => .error .index
    | f :: _ => return f
  | pow b (rat q) => .ok ⟨b, |q|, decide (0 < q)⟩
  | t => .ok ⟨t, 1, true⟩
/-- `[_df(f)[1][0] for f in terms]` over the factors that are not constants (expr.py:972-973). -/
def dfHeads : List Expr → R (List Fac)
  | [] => .ok []
  | t :: r =>
    if t.isAcc then dfHeads r
    else do
      let a ← dfHead t
      let l ← dfHeads r
      return a :: l
end

/-- `_df(term)` (expr.py:966-978): coefficient and factors. -/
def dfTerm : Expr → R (Expr × List Fac)
  | prod ts => do
    let c ← mkProdSkip (deconProd (prod ts)).1
    let l ← dfHeads ts
    return (c, l)
  | rat q => .ok (rat q, [⟨rat q, 1, true⟩])
  | t => do
    let f ← dfHead t
    return (rat 1, [f])

/-- The inner search of expr.py:990-996: the common factor `f` against the factors of one term. -/
def matchFac (C : Ctors) (f : Fac) : List Fac → R (Option Fac)
  | [] => .ok none
  | g :: r => do
    let a ← C.repr f.base
    let b ← C.repr g.base
    if a = b ∧ f.pos = g.pos then return some { f with expo := min f.expo g.expo }
    else matchFac C f r

/-- One pass of the outer loop (expr.py:985-996): the common factors that survive one more term. -/
def commonFacs (C : Ctors) (gs : List Fac) : List Fac → R (List Fac)
  | [] => .ok []
  | f :: r => do
    let m ← matchFac C f gs
    let l ← commonFacs C gs r
    match m with
    | some f' => return f' :: l
    | none => return l

/-- The loop of expr.py:985-996. -/
def commonLoop (C : Ctors) : List Fac → List (List Fac) → R (List Fac)
  | fs, [] => .ok fs
  | fs, gs :: r => do
    let fs' ← commonFacs C gs fs
    commonLoop C fs' r

/-- The value of a Rat; anything else has no `.value.denominator` (a float or a non-number): AttributeError. -/
def ratOf : Expr → R ℚ
  | rat q => .ok q
  | _ => .error .attribute

/-- The loop of expr.py:1000-1007 over the coefficients: `none` is the `None` after `break`. Simplification: a coefficient
that is not a Rat is an AttributeError at the point where it is met. -/
def coeffLoop (C : Ctors) : ℚ → List Expr → R (Option ℚ)
  | cc, [] => .ok (some cc)
  | cc, c :: r => do
    let x ← opDiv C c (rat cc)
    let y ← opDiv C (rat cc) c
    let xq ← ratOf x
    let yq ← ratOf y
    let cq ← ratOf c
    if xq.den = 1 ∨ yq.den = 1 then coeffLoop C (min |cq| |cc|) r
    else return none

/-- `common_coeff` (expr.py:999-1010), negated if all coefficients are negative. -/
def commonCoeff (C : Ctors) : List Expr → R (Option ℚ)
  | [] => .error .index
  | c :: r => do
    let cq ← ratOf c
    let cc ← coeffLoop C |cq| r
    return cc.map fun k => if (c :: r).all negNum then -k else k

/-- `_makeprod` (expr.py:1014-1015). -/
def makeProd (C : Ctors) (fs : List Fac) : R Expr :=
  if fs.isEmpty then .ok (rat 1)
  else do
    let ps ← mapR (fun f : Fac => C.pow f.base (rat (if f.pos then f.expo else -f.expo))) fs
    C.prod ps

/-- `common_expr` of `Sum(ts).factor()` (expr.py:980-1019). -/
def factorCommon (C : Ctors) (ts : List Expr) : R Expr := do
  let dfs ← mapR dfTerm ts
  match dfs.map Prod.snd with
  | [] => .error .index
  | f :: r => do
    let fs ← commonLoop C f r
    let cc ← commonCoeff C (dfs.map Prod.fst)
    let m ← makeProd C fs
    match cc with
    | some k => opMul C m (rat k)
    | none => return m

/-- `Sum(ts).factor()` (expr.py:956-1026). -/
def factorSum (C : Ctors) (ts : List Expr) : R Expr := do
  let c ← factorCommon C ts
  let us ← mapR (fun t => opDiv C t c) ts
  let s ← C.sum us
  opMul C c s

/-! ## Partial fractions -/

/-- `denom` after the Sum/Prod tests of transforms.py:895-907: its factors. -/
def denomFactors (C : Ctors) : Expr → R (Option (List Expr))
  | prod us => .ok (some us)
  | sum us => do
    let f ← factorSum C us
    match f with
    | prod ws => return some ws
    | _ => return none
  | _ => .ok none

/-- `inv @ numerator_list` for a 2x2 matrix (transforms.py:924): products first, then the sum, row by row. -/
def matVec2 (C : Ctors) (m : List (List Expr)) (w : List Expr) : R (Expr × Expr) :=
  match m, w with
  | [[p, q], [r, s]], [x, y] => do
    let px ← opMul C p x
    let qy ← opMul C q y
    let a ← opAdd C px qy
    let rx ← opMul C r x
    let sy ← opMul C s y
    let b ← opAdd C rx sy
    return (a, b)
  | _, _ => .error .value

/-- `np.array([numerator_list[0], 0])` if it has one element (transforms.py:922-923). -/
def padNum : List Expr → List Expr
  | [a] => [a, rat 0]
  | l => l

/-- `np.array([d2_list, d1_list]).T` (transforms.py:918): ragged lists are a ValueError. -/
def pfMatrix (d1 d2 : List Expr) : R (List (List Expr)) :=
  if d1.length = d2.length then .ok ((d2.zip d1).map fun p => [p.1, p.2]) else .error .value

/-- transforms.py:915-926: the new integrand for the denominator `d1 * d2`, `none` if the matrix is singular. Simplification:
`invert` sees an `n`x2 matrix; for `n ≠ 2` it raises AssertionError, here too. -/
def pfSolve (O : Oracle) (n : Nat) (v : Str) (num : List Expr) (d1 d2 : Expr) : R (Option Expr) := do
  let l1 ← toConstPoly O n v d1
  let l2 ← toConstPoly O n v d2
  let m ← pfMatrix l1 l2
  let inv ← invert O (ctors O n) m
  match inv with
  | none => return none
  | some i => do
    let (a, b) ← matVec2 (ctors O n) i (padNum num)
    let q1 ← opDiv (ctors O n) a d1
    let q2 ← opDiv (ctors O n) b d2
    let r ← opAdd (ctors O n) q1 q2
    return some r

/-- `PartialFractions.check` (transforms.py:873-926): `none` if the check fails, otherwise the new integrand. -/
def partialFractions (O : Oracle) (n : Nat) (v : Str) (e : Expr) : R (Option Expr) :=
  match e with
  | prod ts => do
    let l ← fractionLists O n v ts
    match l with
    | none => return none
    | some (den, num, dl) =>
      if dl.length ≤ num.length then return none
      else do
        let fs ← denomFactors (ctors O n) den
        match fs with
        | some [d1, d2] =>
          if d1.contains v && d2.contains v then pfSolve O n v num d1 d2
          else return none
        | _ => return none
  | _ => .ok none

end Simpy
