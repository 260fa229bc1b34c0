import Verif.Spec.Read
import Verif.Model.Latex

/-!
# Specification: reading LaTeX

A reader for formulas in LaTeX's math mode, which knows nothing about how expressions are printed. `^`, `_`, `\frac` and `\sqrt` take
one character or a group in braces; there is no second `^` after an exponent; a function name is applied to what follows directly
(`\sin (x)^2` is the square of `\sin (x)`), with `^{-1}` in between it is the inverse function; ` \cdot ` binds more tightly than ` + `,
` - ` and a sign in front of a term; parentheses and bars may be stretched with `\left` and `\right`.
-/

namespace Simpy

/-- Characters that can occur in a word. -/
def texWord (c : Char) : Bool := !("()|^+- \\{}".toList.contains c)

/-- The functions that are applied to what follows. -/
def texFns : List Str := ["ln", "sin", "cos", "tan", "csc", "sec", "cot"].map String.toList

/-- Those that have an inverse. -/
def texInv : List Str := ["sin", "cos", "tan"].map String.toList

mutual
/-- One character or a group in braces. -/
def texArg : Nat → Str → Option (Reading × Str)
  | 0, _ => none
  | k + 1, s =>
    match s with
    | [] => none
    | c :: r =>
      if c = '{' then
        match texSum k r with
        | some (a, '}' :: r') => some (a, r')
        | _ => none
      else
        match texAtom k [c] with
        | some (a, []) => some (a, r)
        | _ => none
/-- A number, a name, a group, a command with its arguments. -/
def texAtom : Nat → Str → Option (Reading × Str)
  | 0, _ => none
  | k + 1, s =>
    match s with
    | [] => none
    | c :: r =>
      if c = '(' then
        match texSum k r with
        | some (a, ')' :: r') => some (a, r')
        | _ => none
      else if c = '|' then
        match texSum k r with
        | some (a, '|' :: r') => some (.bars a, r')
        | _ => none
      else if c = '{' then
        match texSum k r with
        | some (a, '}' :: r') => some (a, r')
        | _ => none
      else if c = '\\' then
        let w := r.takeWhile Char.isAlpha
        let t := r.dropWhile Char.isAlpha
        if w = "left".toList then
          match t with
          | d :: ' ' :: t' =>
            match texSum k t' with
            | some (a, ' ' :: '\\' :: 'r' :: 'i' :: 'g' :: 'h' :: 't' :: d' :: r') =>
              if d = '(' ∧ d' = ')' then some (a, r') else if d = '|' ∧ d' = '|' then some (.bars a, r') else none
            | _ => none
          | _ => none
        else if w = "pi".toList then some (.name "pi".toList, t)
        else if w = "frac".toList then
          match t with
          | ' ' :: t' =>
            match texArg k t' with
            | some (a, r') =>
              match texArg k r' with
              | some (b, r'') => some (.div a b, r'')
              | none => none
            | none => none
          | _ => none
        else if w = "sqrt".toList then
          match texArg k t with
          | some (a, r') => some (.fn "sqrt".toList a, r')
          | none => none
        else if w = "log".toList then
          match t with
          | '_' :: t' =>
            match texArg k t' with
            | some (b, ' ' :: r') =>
              match texAtom k r' with
              | some (a, r'') => some (.logBase b a, r'')
              | none => none
            | _ => none
          | _ => none
        else if w ∈ texFns then
          match t with
          | ' ' :: t' =>
            match texAtom k t' with
            | some (a, r') => some (.fn w a, r')
            | none => none
          | '^' :: '{' :: '-' :: '1' :: '}' :: ' ' :: t' =>
            if w ∈ texInv then
              match texAtom k t' with
              | some (a, r') => some (.fn ('a' :: w) a, r')
              | none => none
            else none
          | _ => none
        else none
      else if c.isDigit then some (.num (Nat.ofDigitChars 10 (s.takeWhile Char.isDigit) 0), s.dropWhile Char.isDigit)
      else if texWord c then some (.name (s.takeWhile texWord), s.dropWhile texWord)
      else none
/-- `a`, `a^b`. -/
def texPow : Nat → Str → Option (Reading × Str)
  | 0, _ => none
  | k + 1, s =>
    match texAtom k s with
    | some (a, '^' :: r) =>
      match texArg k r with
      | some (_, '^' :: _) => none
      | some (b, r') => some (.pow a b, r')
      | none => none
    | o => o
/-- `a`, `a \cdot b`. -/
def texProd : Nat → Str → Option (Reading × Str)
  | 0, _ => none
  | k + 1, s =>
    match texPow k s with
    | some (a, r) => texFactors k a r
    | none => none
/-- The factors after `a`. -/
def texFactors : Nat → Reading → Str → Option (Reading × Str)
  | 0, _, _ => none
  | k + 1, a, s =>
    match s with
    | ' ' :: '\\' :: 'c' :: 'd' :: 'o' :: 't' :: ' ' :: r =>
      match texPow k r with
      | some (b, r') => texFactors k (.mul a b) r'
      | none => none
    | _ => some (a, s)
/-- A product, perhaps with a sign. -/
def texTerm : Nat → Str → Option (Reading × Str)
  | 0, _ => none
  | k + 1, s =>
    match s with
    | '-' :: r =>
      match texProd k r with
      | some (a, r') => some (.neg a, r')
      | none => none
    | _ => texProd k s
/-- `a`, `-a`, `a + b`, `a - b`, `a - b + c` = `(a - b) + c`. -/
def texSum : Nat → Str → Option (Reading × Str)
  | 0, _ => none
  | k + 1, s =>
    match texTerm k s with
    | some (a, r) => texTerms k a r
    | none => none
/-- The terms after `a`. -/
def texTerms : Nat → Reading → Str → Option (Reading × Str)
  | 0, _, _ => none
  | k + 1, a, s =>
    match s with
    | ' ' :: '+' :: ' ' :: r =>
      match texTerm k r with
      | some (b, r') => texTerms k (.add a b) r'
      | none => none
    | ' ' :: '-' :: ' ' :: r =>
      match texTerm k r with
      | some (b, r') => texTerms k (.sub a b) r'
      | none => none
    | _ => some (a, s)
end

/-- What the formula says, `none` if it is not one. The fuel is more than enough. -/
def readTex (s : Str) : Option Reading :=
  match texSum (6 * s.length + 6) s with
  | some (a, []) => some a
  | _ => none

/-- A name that reads as a name. -/
def goodTexName (s : Str) : Bool :=
  !s.isEmpty && s.all texWord && !(s.headD '0').isDigit && !(["pi".toList, "e".toList].contains s)

/-! ## Where the LaTeX is misleading -/

section
open Expr

/-- How tightly the outermost operation of the formula binds: 0 nothing to bind, 1 `^`, 2 products, 3 sums and signs. -/
def texLevel : Expr → Nat
  | rat q => if q < 0 ∧ q.den = 1 then 3 else 0
  | sum _ => 3
  | prod ts => if (prod ts).isSubtraction then 3 else 2
  | pow _ (rat q) => if q = 1 / 2 then 0 else 1
  | pow _ _ => 1
  | _ => 0

/-- The terms of a sum after the first: what is printed after a ` - ` is not itself a sum. -/
def texClearTerms (O : Oracle) (n : Nat) (clear : Expr → Bool) : List Expr → Bool
  | [] => true
  | t :: r =>
    (if t.isSubtraction then
      match opNeg (ctors O n) t with
      | .ok u => clear u && decide (texLevel u ≤ 2)
      | .error _ => false
    else clear t) && texClearTerms O n clear r

/-- A factor is put into parentheses if it is a sum; otherwise it should not be a sum or a difference. -/
def texFactorOk (t : Expr) : Bool := t.isSum || decide (texLevel t ≤ 2)

/-- Nothing that is printed on the way, with `n` stack levels left, is put without parentheses at a place where it is torn apart: a
sign is not followed by a sum, and no factor is a sum without parentheses. -/
def texClear (O : Oracle) : Nat → Expr → Bool
  | 0, _ => false
  | n + 1, e =>
    match e with
    | rat _ | pi | euler | sym _ => true
    | sum [] => false
    | sum (t :: r) => texClear O n t && texClearTerms O n (texClear O n) r
    | prod ts =>
      if (prod ts).isSubtraction then
        match opMul (ctors O n) (prod ts) (rat (-1)) with
        | .ok p => texClear O n p && texFactorOk p
        | .error _ => false
      else
        match numDen O (ctors O n) ts with
        | .ok (a, d) =>
          if beq O d (rat 1) then !ts.isEmpty && ts.all (fun t => texClear O n t && texFactorOk t)
          else texClear O n a && texClear O n d && (!a.isProd || texFactorOk a) && (!d.isProd || texFactorOk d)
        | .error _ => false
    | pow b x => texClear O n b && (beq O x (rat (1 / 2)) || beq O x (rat (-1 / 2)) || texClear O n x)
    | log i b => texClear O n i && (beq O b euler || texClear O n b)
    | trig _ i => texClear O n i
    | absv i => texClear O n i
    | _ => false
end

end Simpy
