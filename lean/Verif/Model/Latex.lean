import Verif.Model.Trig

/-!
# LaTeX output (`Expr.latex`, latex.py)

`latexE O n e` is `e.latex()` with `n` Python stack levels left.
-/

namespace Simpy
open Expr

/-- `isinstance(e, Power)`. -/
def isPower : Expr → Bool
  | pow _ _ => true
  | _ => false

/-- `bracketfy` (latex.py:8-23), given the LaTeX of the expression. -/
def bracketfy (b1 b2 : Char) (e : Expr) (s : Str) : Str :=
  if containsCls isPower e then "\\left".toList ++ b1 :: ' ' :: s ++ " \\right".toList ++ [b2] else b1 :: s ++ [b2]

/-- `group` of a string (latex.py:26-30). -/
def groupStr (s : Str) : Str := if s.length = 1 then s else '{' :: s ++ ['}']

/-- `Sum.latex` (expr.py:944-954) after the first term. -/
def sumLatexRest (C : Ctors) (L : Expr → R Str) : List Expr → R Str
  | [] => .ok []
  | t :: r =>
    if t.isSubtraction then do
      let nt ← opNeg C t
      let s ← L nt
      let rest ← sumLatexRest C L r
      return [' ', '-', ' '] ++ s ++ rest
    else do
      let s ← L t
      let rest ← sumLatexRest C L r
      return [' ', '+', ' '] ++ s ++ rest

/-- `Sum.latex` (expr.py:944-954). -/
def sumLatex (C : Ctors) (L : Expr → R Str) : List Expr → R Str
  | [] => .ok []
  | t :: r => do
    let s ← L t
    let rest ← sumLatexRest C L r
    return s ++ rest

/-- `_term_latex` of `Prod.latex` (expr.py:1217-1220). -/
def prodTermLatex (L : Expr → R Str) (t : Expr) : R Str := do
  let s ← L t
  return if t.isSum then bracketfy '(' ')' t s else s

/-- `Prod.latex` (expr.py:1214-1234). -/
def prodLatex (O : Oracle) (C : Ctors) (L : Expr → R Str) (ts : List Expr) : R Str :=
  if (prod ts).isSubtraction then do
    let np ← opMul C (prod ts) (rat (-1))
    if !np.isProd then
      let s ← prodTermLatex L np
      return '-' :: s
    else
      let s ← L np
      return '-' :: s
  else do
    let (n, d) ← numDen O C ts
    if !beq O d (rat 1) then
      let sn ← L n
      let sd ← L d
      return "\\frac ".toList ++ groupStr sn ++ groupStr sd
    else
      let ss ← mapR (prodTermLatex L) ts
      return joinStr " \\cdot ".toList ss

/-- `_base_latex` of `Power.latex` (expr.py:1375-1378). -/
def baseLatex (L : Expr → R Str) (t : Expr) : R Str := do
  let s ← L t
  return if t.isSum || t.isProd || isFractionOrNeg t || isLongSymbol t then bracketfy '(' ')' t s else s

/-- `Power.latex` (expr.py:1372-1386). -/
def powLatex (O : Oracle) (L : Expr → R Str) (b x : Expr) : R Str :=
  if beq O x (rat (1 / 2)) then do
    let s ← L b
    return "\\sqrt{".toList ++ s ++ ['}']
  else if beq O x (rat (-1 / 2)) then do
    let s ← L b
    return "{\\sqrt{".toList ++ s ++ ['}'] ++ "}^{-1}".toList
  else do
    let s ← baseLatex L b
    let u ← L x
    return s ++ '^' :: groupStr u

/-- `e.latex()` of every class: Float (expr.py:483-484), Rat (600-605), Pi (637), E (648), Infinity (661), NegInfinity (680), NaN (699: the
object `NotImplemented`, here an error), Symbol (811), Any_ (regex.py:57-58), Sum, Prod, Power, log (1579-1586), TrigFunction (1808-1815),
Abs (2016-2019). -/
def latexE (O : Oracle) : Nat → Expr → R Str
  | 0, _ => .error .recursion
  | n + 1, e =>
    match e with
    | rat q => .ok (if q.den = 1 then intStr q.num else "\\frac ".toList ++ groupStr (intStr q.num) ++ groupStr (intStr (q.den : ℤ)))
    | flt .nan => .error .type
    | flt (.fin q) => .ok (O.frepr q)
    | pi => .ok "\\pi".toList
    | euler => .ok ['e']
    | inf => .ok "\\infty".toList
    | neginf => .ok "-\\infty".toList
    | sym s => .ok s
    | any _ => .error .notImplemented
    | sum ts => sumLatex (ctors O n) (latexE O n) ts
    | prod ts => prodLatex O (ctors O n) (latexE O n) ts
    | pow b x => powLatex O (latexE O n) b x
    | log i b =>
      if beq O b euler then do
        let s ← latexE O n i
        return "\\ln ".toList ++ bracketfy '(' ')' i s
      else do
        let sb ← latexE O n b
        let s ← latexE O n i
        return "\\log_{".toList ++ sb ++ "} ".toList ++ bracketfy '(' ')' i s
    | trig f i => do
      let s ← latexE O n i
      return if f.isInverse then '\\' :: f.func ++ "^{-1} ".toList ++ bracketfy '(' ')' i s
        else '\\' :: f.func ++ ' ' :: bracketfy '(' ')' i s
    | absv i => do
      let s ← latexE O n i
      return bracketfy '|' '|' i s

end Simpy
