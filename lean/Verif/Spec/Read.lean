import Verif.Spec.Eval

/-!
# Specification: reading printed text

A reader for ordinary notation, which knows nothing about how expressions are printed. The usual conventions: `^` binds more
tightly than `*` and `/`, these more tightly than ` + `, ` - ` and a sign in front; `^` associates to the right and the others to the
left; parentheses group; a function name is followed by its argument in parentheses; `|…|` is the absolute value.
-/

namespace Simpy

/-- What a text says. -/
inductive Reading
  | num (n : ℕ)
  | name (s : Str)
  | neg (a : Reading)
  | add (a b : Reading)
  | sub (a b : Reading)
  | mul (a b : Reading)
  | div (a b : Reading)
  | pow (a b : Reading)
  | fn (f : Str) (a : Reading)
  | logBase (b a : Reading)
  | bars (a : Reading)
  deriving DecidableEq

/-- The value of a function that the reader knows. -/
noncomputable def fnVal (f : Str) (t : ℝ) : ℝ :=
  if f = "sqrt".toList then pw t (1 / 2)
  else if f = "ln".toList then Real.log t
  else if f = "sin".toList then Real.sin t
  else if f = "cos".toList then Real.cos t
  else if f = "tan".toList then Real.sin t / Real.cos t
  else if f = "csc".toList then 1 / Real.sin t
  else if f = "sec".toList then 1 / Real.cos t
  else if f = "cot".toList then Real.cos t / Real.sin t
  else if f = "asin".toList then Real.arcsin t
  else if f = "acos".toList then Real.arccos t
  else if f = "atan".toList then Real.arctan t
  else 0

/-- The value of what a text says, if the names have the values `ρ`. -/
noncomputable def Reading.val (ρ : Str → ℝ) : Reading → ℝ
  | num n => n
  | name s => if s = "pi".toList then Real.pi else if s = "e".toList then Real.exp 1 else ρ s
  | neg a => -a.val ρ
  | add a b => a.val ρ + b.val ρ
  | sub a b => a.val ρ - b.val ρ
  | mul a b => a.val ρ * b.val ρ
  | div a b => a.val ρ / b.val ρ
  | pow a b => pw (a.val ρ) (b.val ρ)
  | fn f a => fnVal f (a.val ρ)
  | logBase b a => Real.log (a.val ρ) / Real.log (b.val ρ)
  | bars a => |a.val ρ|

/-- The names of the functions. -/
def fnNames : List Str :=
  ["sqrt", "ln", "sin", "cos", "tan", "csc", "sec", "cot", "asin", "acos", "atan"].map String.toList

/-- Characters that can occur in a word. -/
def isWord (c : Char) : Bool := !("()[]|^*/+-= ".toList.contains c)

mutual
/-- A number, a name, `(…)`, `|…|`, `f(…)` or `log[base=…](…)`. -/
def readAtom : Nat → Str → Option (Reading × Str)
  | 0, _ => none
  | k + 1, s =>
    match s with
    | [] => none
    | c :: r =>
      if c = '(' then
        match readSum k r with
        | some (a, ')' :: r') => some (a, r')
        | _ => none
      else if c = '|' then
        match readSum k r with
        | some (a, '|' :: r') => some (.bars a, r')
        | _ => none
      else if c.isDigit then some (.num (Nat.ofDigitChars 10 (s.takeWhile Char.isDigit) 0), s.dropWhile Char.isDigit)
      else if isWord c then
        let w := s.takeWhile isWord
        let t := s.dropWhile isWord
        if w = "log".toList then
          match t with
          | '[' :: 'b' :: 'a' :: 's' :: 'e' :: '=' :: t' =>
            match readSum k t' with
            | some (b, ']' :: '(' :: r') =>
              match readSum k r' with
              | some (a, ')' :: r'') => some (.logBase b a, r'')
              | _ => none
            | _ => none
          | _ => none
        else if w ∈ fnNames then
          match t with
          | '(' :: t' =>
            match readSum k t' with
            | some (a, ')' :: r') => some (.fn w a, r')
            | _ => none
          | _ => none
        else some (.name w, t)
      else none
/-- `a`, `a^b`, `a^b^c` = `a^(b^c)`. -/
def readPow : Nat → Str → Option (Reading × Str)
  | 0, _ => none
  | k + 1, s =>
    match readAtom k s with
    | some (a, '^' :: r) =>
      match readPow k r with
      | some (b, r') => some (.pow a b, r')
      | none => none
    | o => o
/-- `a`, `a*b`, `a/b`, `a*b/c` = `(a*b)/c`. -/
def readProd : Nat → Str → Option (Reading × Str)
  | 0, _ => none
  | k + 1, s =>
    match readPow k s with
    | some (a, r) => readFactors k a r
    | none => none
/-- The factors after `a`. -/
def readFactors : Nat → Reading → Str → Option (Reading × Str)
  | 0, _, _ => none
  | k + 1, a, s =>
    match s with
    | '*' :: r =>
      match readPow k r with
      | some (b, r') => readFactors k (.mul a b) r'
      | none => none
    | '/' :: r =>
      match readPow k r with
      | some (b, r') => readFactors k (.div a b) r'
      | none => none
    | _ => some (a, s)
/-- `a`, `-a`, `a + b`, `a - b`, `a - b + c` = `(a - b) + c`. -/
def readSum : Nat → Str → Option (Reading × Str)
  | 0, _ => none
  | k + 1, s =>
    match s with
    | '-' :: r =>
      match readProd k r with
      | some (a, r') => readTerms k (.neg a) r'
      | none => none
    | _ =>
      match readProd k s with
      | some (a, r') => readTerms k a r'
      | none => none
/-- The terms after `a`. -/
def readTerms : Nat → Reading → Str → Option (Reading × Str)
  | 0, _, _ => none
  | k + 1, a, s =>
    match s with
    | ' ' :: '+' :: ' ' :: r =>
      match readProd k r with
      | some (b, r') => readTerms k (.add a b) r'
      | none => none
    | ' ' :: '-' :: ' ' :: r =>
      match readProd k r with
      | some (b, r') => readTerms k (.sub a b) r'
      | none => none
    | _ => some (a, s)
end

/-- What the text says, `none` if it is not in ordinary notation. The fuel is more than enough. -/
def read (s : Str) : Option Reading :=
  match readSum (6 * s.length + 6) s with
  | some (a, []) => some a
  | _ => none

/-- A name that reads as a name. -/
def goodName (s : Str) : Bool :=
  !s.isEmpty && s.all isWord && !(s.headD '0').isDigit && !("log".toList :: "pi".toList :: "e".toList :: fnNames).contains s

/-! ## Where the printed text is misleading -/

section
open Expr

/-- How tightly the outermost operation of the printed form binds: 0 nothing to bind, 1 `^`, 2 `*` and `/`, 3 `+`, `-` and signs. -/
def level : Expr → Nat
  | rat q => if q < 0 then 3 else if q.den = 1 then 0 else 2
  | sum _ => 3
  | prod ts => if (prod ts).isSubtraction then 3 else 2
  | pow _ (rat q) => if q < 0 then 2 else if q = 1 / 2 then 0 else 1
  | pow _ _ => 1
  | _ => 0

/-- The text does not begin with `(` and end with `)`. -/
def unwrapped : R Str → Bool
  | .ok s => !(s.head? == some '(' && s.getLast? == some ')')
  | .error _ => false

/-- The terms of a sum after the first: none of them (with its sign taken off) is itself printed as a sum. -/
def clearTerms (O : Oracle) (n : Nat) (clear : Expr → Bool) : List Expr → Bool
  | [] => true
  | t :: r =>
    (if t.isSubtraction then
      match opNeg (ctors O n) t with
      | .ok u => clear u && decide (level u ≤ 2)
      | .error _ => false
    else clear t && decide (level t ≤ 2)) && clearTerms O n clear r

/-- A factor is put into parentheses if it is a sum; otherwise it should bind at least as tightly as `k`. -/
def factorOk (k : Nat) (t : Expr) : Bool := t.isSum || isLongSymbol t || decide (level t ≤ k)

/-- The base or exponent of a power is put into parentheses if it is a sum, a product, a fraction or a negative number; otherwise
it should bind at least as tightly as `k`. -/
def powerOk (k : Nat) (t : Expr) : Bool :=
  t.isSum || t.isProd || isFractionOrNeg t || isLongSymbol t || decide (level t ≤ k)

/-- Nothing that is printed on the way, with `n` stack levels left, is put without parentheses at a place where it is torn apart:
* a reciprocal as an exponent (`x^(1/y)` is printed as `x^1/y`), and the like;
* the argument of a function whose text begins with `(` and ends with `)` (`sin((x + 1)*(x + 2))` is printed as
  `sin(x + 1)*(x + 2)`). -/
def clear (O : Oracle) : Nat → Expr → Bool
  | 0, _ => false
  | n + 1, e =>
    match e with
    | rat _ | pi | euler | sym _ => true
    | sum [] => false
    | sum (t :: r) => clear O n t && clearTerms O n (clear O n) r
    | prod ts =>
      if (prod ts).isSubtraction then
        match (ctors O n).prod [prod ts, rat (-1)] with
        | .ok p => clear O n p && factorOk 2 p
        | .error _ => false
      else
        match numDen O (ctors O n) ts with
        | .ok (a, d) =>
          if beq O d (rat 1) then !ts.isEmpty && ts.all (fun t => clear O n t && factorOk 1 t)
          else clear O n a && clear O n d && factorOk 2 a && (d.isProd && decide (level d ≤ 2) || factorOk 1 d)
        | .error _ => false
    | pow b x =>
      if beq O x (rat (-1)) then clear O n b && powerOk 1 b
      else if x.isRat && negNum x then
        match opNeg (ctors O n) x with
        | .ok y =>
          match (ctors O n).pow b y with
          | .ok p => clear O n p && decide (level p ≤ 1)
          | .error _ => false
        | .error _ => false
      else if beq O x (rat (1 / 2)) then clear O n b && unwrapped ((ctors O n).repr b)
      else clear O n b && clear O n x && powerOk 0 b && powerOk 1 x
    | log i b => clear O n i && unwrapped ((ctors O n).repr i) && clear O n b
    | trig _ i => clear O n i && unwrapped ((ctors O n).repr i)
    | absv i => clear O n i
    | _ => false
end

end Simpy
