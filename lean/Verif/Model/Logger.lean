import Verif.Model.PrintTree
import Verif.Model.Match
import Mathlib.Data.List.Sort

/-!
# The log of integrals (debug/logger.py)

`Integration.logger` is `None` unless the user puts a `Logger` there; `integrate` calls `log` once for each integral (integration.py:253-254).
The file `integration_log.txt` is the text that is written to it. `plot` differs from `sort` only in what matplotlib draws, which is not modelled;
`log_time` measures the time and forgets it.
-/

namespace Simpy
namespace Logger
open Expr

/-- `Datum` (debug/logger.py:9-12). The time is a float, modelled as the rational number it stands for. `root` is the tree as it is when the log
is looked at: the object is shared with the integration, which goes on to fill in the solutions (integration.py:267). -/
structure Datum where
  expr : Expr
  time : ℚ
  root : Node

/-- `_data` (debug/logger.py:22): a dict, in the order of insertion. -/
abbrev Data := List (Str × Datum)

/-- `log(expr, time_spent, root)` (debug/logger.py:27-28). -/
def log (O : Oracle) (n : Nat) (d : Data) (x : Datum) : R Data := do
  let k ← (ctors O n).repr x.expr
  return dictSet k x d

/-- `sort()` (debug/logger.py:34-36): `sorted` is stable, also with `reverse=True`; that it
does not sort by insertion makes no difference, as the result of a stable sort is determined. -/
def sort (d : Data) : Data := d.insertionSort fun a b => b.2.time ≤ a.2.time

/-- `func=lambda x: f.write(f"{x}\n")` for each printed line (debug/logger.py:48, 50). -/
def written (ls : List Print.Line) : Str := ls.flatMap fun l => l.text ++ ['\n']

/-- `dump()` (debug/logger.py:38-50): the log afterwards, and the content of `integration_log.txt`. `tt` is the text of a float. Without an entry
`list(self._data.keys())[0]` is an IndexError. -/
def dump (O : Oracle) (n : Nat) (tt : ℚ → Str) (d : Data) : R (Data × Str) :=
  match sort d with
  | [] => .error .index
  | p :: r => do
    let a ← Print.solutionTree O n p.2.root
    let b ← Print.tree O n p.2.root
    return (p :: r, ((p :: r).flatMap fun q => q.1 ++ [':', ' '] ++ tt q.2.time ++ ['\n']) ++ "\n\n\nMost time spent: \n".toList ++ written a ++
      "\n\n\n".toList ++ written b)

/-- What is done with a log: an integral is logged, or the log is sorted (by `sort`, `dump` or `plot`). -/
inductive Event
  | log (x : Datum)
  | sort

/-- One event (debug/logger.py:27, 34). -/
def event (O : Oracle) (n : Nat) (d : Data) : Event → R Data
  | .log x => log O n d x
  | .sort => .ok (sort d)

/-- A history of the log, from a given state. -/
def run (O : Oracle) (n : Nat) : Data → List Event → R Data
  | d, [] => .ok d
  | d, e :: r =>
    match event O n d e with
    | .error x => .error x
    | .ok d' => run O n d' r

end Logger
end Simpy
