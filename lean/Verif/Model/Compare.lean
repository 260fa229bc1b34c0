import Verif.Model.Evalf

/-! # Comparison of numbers (`Num.__lt__`, ..., expr.py:426-440) -/

namespace Simpy
open Expr

/-- `x < y` of two values. CPython compares a Fraction with a finite float exactly and with an infinite one as if it were 0.0; nothing
compares with nan. -/
def PyNum.lt : PyNum → PyNum → Bool
  | .nan, _ => false
  | _, .nan => false
  | .pinf, _ => false
  | _, .ninf => false
  | .ninf, _ => true
  | _, .pinf => true
  | .frac a, .frac b => decide (a < b)
  | .frac a, .fin b => decide (a < b)
  | .fin a, .frac b => decide (a < b)
  | .fin a, .fin b => decide (a < b)

/-- `x <= y` of two values. -/
def PyNum.le : PyNum → PyNum → Bool
  | .nan, _ => false
  | _, .nan => false
  | .ninf, _ => true
  | _, .pinf => true
  | .pinf, _ => false
  | _, .ninf => false
  | .frac a, .frac b => decide (a ≤ b)
  | .frac a, .fin b => decide (a ≤ b)
  | .fin a, .frac b => decide (a ≤ b)
  | .fin a, .fin b => decide (a ≤ b)

/-- `a < b` for a number `a` (`Num.__lt__`, expr.py:438-440): False if `b` is not a number. -/
def opLt (O : Oracle) (a b : Expr) : Bool := b.isNum && (numValue O a).lt (numValue O b)
/-- `a <= b` (`Num.__le__`, expr.py:434-436). -/
def opLe (O : Oracle) (a b : Expr) : Bool := b.isNum && (numValue O a).le (numValue O b)
/-- `a > b` (`Num.__gt__`, expr.py:430-432). -/
def opGt (O : Oracle) (a b : Expr) : Bool := b.isNum && (numValue O b).lt (numValue O a)
/-- `a >= b` (`Num.__ge__`, expr.py:426-428). -/
def opGe (O : Oracle) (a b : Expr) : Bool := b.isNum && (numValue O b).le (numValue O a)

end Simpy
