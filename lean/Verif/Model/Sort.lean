import Verif.Model.Py

/-!
# CPython's `sorted` for lists shorter than 64 elements

`list.sort` (CPython 3.11, Objects/listobject.c) on fewer than 64 elements: `count_run` finds the initial
run (reversing a strictly descending one), `binarysort` inserts the remaining elements by binary search.
The comparison is a Python callback and can raise.
Simplification: lists of 64 or more elements are sorted by the same two functions (CPython splits them in
runs of 32-64 elements sorted this way and merges the runs).
-/

namespace Simpy

variable {α : Type}

/-- Continue a run: `asc` tells which kind.  Splits `rest` (elements after `prev`) in the part that continues
the run and the remainder (count_run, listobject.c). -/
def runTail (lt : α → α → R Bool) (desc : Bool) (prev : α) : List α → R (List α × List α)
  | [] => .ok ([], [])
  | x :: r => do
    let b ← lt x prev
    if b == desc then
      let (run, rest) ← runTail lt desc x r
      return (x :: run, rest)
    else
      return ([], x :: r)

/-- `count_run` followed by `reverse_slice` when the run is descending: the sorted prefix and the rest. -/
def countRun (lt : α → α → R Bool) : List α → R (List α × List α)
  | [] => .ok ([], [])
  | [x] => .ok ([x], [])
  | x :: y :: r => do
    let d ← lt y x
    let (run, rest) ← runTail lt d y r
    if d then return ((x :: y :: run).reverse, rest) else return (x :: y :: run, rest)

/-- The binary search of `binarysort`: `l`, `r` bracket the insertion point of `p` in `a`; the first argument
bounds the number of halvings. -/
def bsearch (lt : α → α → R Bool) (p : α) (a : List α) : Nat → Nat → Nat → R Nat
  | 0, l, _ => .ok l
  | n + 1, l, r =>
    if l < r then
      let m := l + (r - l) / 2
      match a[m]? with
      | none => .error .index
      | some y => do
        if ← lt p y then bsearch lt p a n l m else bsearch lt p a n (m + 1) r
    else .ok l

/-- `binarysort`: insert the elements of `rest` one by one in the sorted prefix. -/
def binarySort (lt : α → α → R Bool) : List α → List α → R (List α)
  | pre, [] => .ok pre
  | pre, p :: r => do
    let i ← bsearch lt p pre pre.length 0 pre.length
    binarySort lt (pre.take i ++ p :: pre.drop i) r

/-- `sorted(terms, key=cmp_to_key(...))` where `lt a b` is `cmp(a, b) < 0`. -/
def pySorted (lt : α → α → R Bool) (l : List α) : R (List α) := do
  let (pre, rest) ← countRun lt l
  binarySort lt pre rest

end Simpy
