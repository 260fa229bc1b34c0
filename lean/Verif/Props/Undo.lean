import Verif.Spec.Undo
import Verif.Proofs.Labels
import Verif.Props.Engine
import Verif.Props.Tree

/-!
# C34, C90: the search does not go round in circles

`lineage [] p T = some (t, as)`: `t` is the node of `T` at the path `p`, and `as` are its ancestors, from its parent to the root.
-/

namespace Simpy
open Expr Node

variable {O : Oracle} {n k : Nat} {ν : Supply} {bf : Bool} {v : Str} {e : Expr} {T t b : Node} {p : List Nat} {as mid rest : List Node}

/-- **C34** In the tree of every search a node that is not a filler never has the problem of one of its ancestors, up to the name of
the variable. -/
theorem search_never_repeats (hO : O.NoConfusion) (h : search O n ν bf k v e = .ok T) (ht : lineage [] p T = some (t, as))
    (hf : t.filler = false) {a : Node} (ha : a ∈ as) (h1 : floatFree a.expr = true) (h2 : floatFree t.expr = true) :
    rename a.var t.var a.expr ≠ t.expr := by
  cases p with
  | nil =>
    simp only [lineage, Option.some.injEq, Prod.mk.injEq] at ht
    obtain ⟨rfl, rfl⟩ := ht
    cases ha
  | cons i p =>
    have := (may_at (bs := []) (search_law h) ht (by simp)).new hf (lab a) (List.mem_map_of_mem ha)
    intro hc
    rw [show eqWithVar O (lab a).var (lab t).var (lab a).expr (lab t).expr = eqWithVar O a.var t.var a.expr t.expr from rfl,
      (eq_with_var_iff hO a.var t.var h1 h2).2 hc] at this
    cases this

theorem slight_skip {m : Node} (h : Slight m) : ∃ s, m.tr = some s ∧ isLinearity s = true := by
  rcases h with ⟨c, h⟩ | h <;> exact ⟨_, h, rfl⟩

theorem slight_skip' {m : Node} (h : SlightOrExpand m) : ∃ s, m.tr = some s ∧ isLinearityOrExpand s = true := by
  rcases h with (⟨c, h⟩ | h) | h <;> exact ⟨_, h, rfl⟩

theorem path_ne {T t b : Node} {p : List Nat} {mid rest : List Node} (ht : lineage [] p T = some (t, mid ++ b :: rest)) : p ≠ [] := by
  rintro rfl
  simp [lineage] at ht

/-- **C90** No step undoes an earlier one from which it is separated only by pulling out constants and splitting sums. Missing: the
simplification that the program adds to some substitutions counts as a step, so behind it the substitution can be undone
(`undone_after_simplifying`). -/
theorem steps_are_not_undone_partial (h : search O n ν bf k v e = .ok T) (ht : lineage [] p T = some (t, mid ++ b :: rest))
    (hm : ∀ m ∈ mid, Slight m) : ¬ Undoes b.tr t.tr := by
  have hmay := may_at (bs := []) (search_law h) ht (path_ne ht)
  have hs : ∀ m ∈ mid, ∃ s, m.tr = some s ∧ isLinearity s = true := fun m h => slight_skip (hm m h)
  have hl : (lab t).tr = t.tr := rfl
  intro hu
  generalize hbt : b.tr = bt at hu
  generalize htt : t.tr = tt at hu
  cases hu with
  | expand =>
    have := hmay.square (by rw [hl, htt])
    rw [lastTr_labels, lastTr_mid hbt rfl hs] at this
    cases this
  | trig q r =>
    have := hmay.trig (by rw [hl, htt]; rfl)
    rw [lastTr_labels, lastTr_mid hbt rfl hs] at this
    cases this
  | inverse q r =>
    have := hmay.inverse (by rw [hl, htt]; rfl)
    rw [lastTr_labels, lastTr_mid hbt rfl hs] at this
    cases this

/-- **C90** Trigonometric functions are not rewritten twice with only constants, sums and multiplying out in between. -/
theorem trig_not_rewritten_twice (h : search O n ν bf k v e = .ok T) (ht : lineage [] p T = some (t, mid ++ b :: rest))
    (hm : ∀ m ∈ mid, SlightOrExpand m) : ¬ (b.tr = some .rewriteTrig ∧ t.tr = some .rewriteTrig) := by
  have hmay := may_at (bs := []) (search_law h) ht (path_ne ht)
  rintro ⟨h1, h2⟩
  have := hmay.rewrite (by rw [show (lab t).tr = t.tr from rfl, h2]; rfl)
  rw [lastTr_labels, lastTr_mid h1 rfl fun m h => slight_skip' (hm m h)] at this
  cases this

/-- `x ** 2 / (1 - x ** 2)`. -/
def overDiff : Expr := prod [pow (sym ['x']) (rat 2), pow (sum [rat 1, prod [rat (-1), pow (sym ['x']) (rat 2)]]) (rat (-1))]

def isSimplify : Option Transf → Bool
  | some .simplify => true
  | _ => false

theorem overDiff_run : (match search exactOracle 20 names false 1 ['x'] overDiff with
    | .ok T => (match lineage [] [0, 0, 0, 0, 0] T with
      | some (t, a :: b :: _) => isTrigSub t.tr && isSimplify a.tr && isInverseSub b.tr
      | _ => false)
    | .error _ => false) = true := by
  set_option maxRecDepth 10000 in decide +kernel

/-- **C90** For `x ** 2 / (1 - x ** 2)` the search substitutes a function of a new variable, simplifies, and then substitutes a
function of the variable for another new variable: with a simplification in between a step can be undone. -/
theorem undone_after_simplifying : ∃ T t a b rest, search exactOracle 20 names false 1 ['x'] overDiff = .ok T ∧
    lineage [] [0, 0, 0, 0, 0] T = some (t, a :: b :: rest) ∧ a.tr = some .simplify ∧ Undoes b.tr t.tr := by
  have h := overDiff_run
  cases h1 : search exactOracle 20 names false 1 ['x'] overDiff with
  | error er => rw [h1] at h; cases h
  | ok T =>
    rw [h1] at h
    dsimp only at h
    cases h2 : lineage [] [0, 0, 0, 0, 0] T with
    | none => rw [h2] at h; cases h
    | some r =>
      obtain ⟨t, l⟩ := r
      rw [h2] at h
      match l, h with
      | [], h => cases h
      | [_], h => cases h
      | a :: b :: rest, h =>
        simp only [Bool.and_eq_true] at h
        obtain ⟨⟨k1, k2⟩, k3⟩ := h
        refine ⟨T, t, a, b, rest, rfl, h2, ?_, ?_⟩
        · revert k2
          generalize a.tr = s
          intro k2
          unfold isSimplify at k2
          split at k2
          · rfl
          · cases k2
        · revert k1 k3
          generalize t.tr = s
          generalize b.tr = r
          intro k3 k1
          unfold isTrigSub at k1
          unfold isInverseSub at k3
          split at k1
          · split at k3
            · exact .trig _ _
            · cases k3
          · cases k1

/-- A completed square, a constant and a linear substitution in the search for `1 / (x ** 2 + x + 1)`. -/
example : ∃ T t a b rest, search exactOracle 20 names false 0 ['x']
      (pow (sum [pow (sym ['x']) (rat 2), sym ['x'], rat 1]) (rat (-1))) = .ok T ∧
    lineage [] [0, 0, 0] T = some (t, [a] ++ b :: rest) ∧ (∀ m ∈ [a], Slight m) ∧ b.tr = some .completeTheSquare := by
  have h : (match search exactOracle 20 names false 0 ['x'] (pow (sum [pow (sym ['x']) (rat 2), sym ['x'], rat 1]) (rat (-1))) with
    | .ok T => (match lineage [] [0, 0, 0] T with
      | some (_, a :: b :: _) => (match a.tr, b.tr with | some (.pullConstant _), some .completeTheSquare => true | _, _ => false)
      | _ => false)
    | .error _ => false) = true := by
    set_option maxRecDepth 10000 in decide +kernel
  cases h1 : search exactOracle 20 names false 0 ['x'] (pow (sum [pow (sym ['x']) (rat 2), sym ['x'], rat 1]) (rat (-1))) with
  | error er => rw [h1] at h; cases h
  | ok T =>
    rw [h1] at h
    dsimp only at h
    cases h2 : lineage [] [0, 0, 0] T with
    | none => rw [h2] at h; cases h
    | some r =>
      obtain ⟨t, l⟩ := r
      rw [h2] at h
      match l, h with
      | [], h => cases h
      | [_], h => cases h
      | a :: b :: rest, h =>
        dsimp only at h
        split at h
        · next c k1 k2 => exact ⟨T, t, a, b, rest, rfl, h2, fun m hm => (by
            simp only [List.mem_singleton] at hm; subst hm; exact .inl ⟨c, k1⟩), k2⟩
        · cases h

end Simpy
