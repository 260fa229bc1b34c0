import Verif.Model.Expr

/-!
# Specification: well-nested brackets
-/

namespace Simpy
open Expr

/-- The four bracket characters. -/
def isBracket (c : Char) : Bool := c = '(' || c = ')' || c = '{' || c = '}'

/-- Strings in which parentheses and curly braces are matched and properly nested. -/
inductive Nested : Str → Prop
  | nil : Nested []
  | char {c : Char} : isBracket c = false → Nested [c]
  | append {s t : Str} : Nested s → Nested t → Nested (s ++ t)
  | paren {s : Str} : Nested s → Nested ('(' :: s ++ [')'])
  | brace {s : Str} : Nested s → Nested ('{' :: s ++ ['}'])

mutual
/-- Every symbol (and wildcard) in the expression has a well-nested name. -/
def NamesNested : Expr → Prop
  | sym s => Nested s
  | any k => Nested k
  | sum ts => NamesNestedL ts
  | prod ts => NamesNestedL ts
  | pow b x => NamesNested b ∧ NamesNested x
  | log i b => NamesNested i ∧ NamesNested b
  | trig _ i => NamesNested i
  | absv i => NamesNested i
  | _ => True
def NamesNestedL : List Expr → Prop
  | [] => True
  | t :: r => NamesNested t ∧ NamesNestedL r
end

end Simpy
