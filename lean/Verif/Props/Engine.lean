import Verif.Proofs.EngineCtl
import Verif.Proofs.ExactOracle
import Verif.Spec.Engine

/-!
# C58, C59: the search of `integrate`

`cycle` is `Integration._cycle`, `search O n ν bf k v e` the tree with which the loop of `integrate(e, v)` ends when at most
`k + 1` cycles fit into the time limit, `bf` the option `breadth_first`, `ν` the supply of names for new variables.
-/

namespace Simpy
open Expr Node

variable {O : Oracle} {n k k' : Nat} {ν : Supply} {bf final : Bool} {v : Str} {e F : Expr} {t t' T : Node} {p q : List Nat} {nx : Next}

/-- **C58** Whenever `_cycle` is called, it is called on a node of the tree, and an unfinished leaf lies at or below that node. -/
theorem search_has_work (h : Visits O n ν bf v e t p) : ∃ q, p <+: q ∧ OpenLeaf t q := by
  have key : Workable t p := by
    cases h with
    | start h => exact ⟨t, rfl, unfinishedPaths_ne (startTree_open h)⟩
    | next _ h hf =>
      rcases (cycle_effect h).2 hf with h | ⟨q, l, h1, h2, h3⟩
      · cases h
      · cases h1
        exact ⟨l, h2, fun hn => by
          have := (mem_unfinishedPaths l ([], l)).2 ⟨rfl, h3⟩
          rw [hn] at this; simp at this⟩
    | solved _ _ hf hb =>
      obtain ⟨q, l, h1, h2, h3⟩ := bfNext_open (O := O) hf
      rw [h1] at hb
      cases hb
      exact ⟨l, h2, fun hn => by
          have := (mem_unfinishedPaths l ([], l)).2 ⟨rfl, h3⟩
          rw [hn] at this; simp at this⟩
  obtain ⟨l, h1, h2⟩ := key
  obtain ⟨b, hb⟩ := List.exists_mem_of_ne_nil _ h2
  obtain ⟨h3, h4⟩ := (mem_unfinishedPaths l b).1 hb
  exact ⟨p ++ b.1, List.prefix_append _ _, b.2, by simp [at_append, h1, h3], h4⟩

/-- A supply of names for the examples. -/
def names : Supply := fun l => 'u' :: l.map fun i => Char.ofNat (97 + i)

/-- `x ** 2 * cos(x)`. -/
def xSqCos : Expr := prod [pow (sym ['x']) (rat 2), trig .cos (sym ['x'])]

/-- What the first two cycles return for `x ** 2 * cos(x)`. -/
theorem xSqCos_run : (do
    let t ← startTree exactOracle 20 names ['x'] xSqCos
    let a ← cycle exactOracle 20 names false t []
    let b ← cycle exactOracle 20 names false a.1 [0, 1, 0]
    return (a.2, a.1.isFinished, b.2, b.1.isFinished)) = .ok (.node [0, 1, 0], false, .node [0, 1, 0, 0, 1], false) := by
  set_option maxRecDepth 10000 in decide +kernel

theorem xSqCos_visits : ∃ t t' p, Visits exactOracle 20 names false ['x'] xSqCos t [0, 1, 0] ∧ t.isFinished = false ∧
    cycle exactOracle 20 names false t [0, 1, 0] = .ok (t', .node p) ∧ t'.isFinished = false := by
  have h := xSqCos_run
  obtain ⟨t, h1, h⟩ := bind_ok.1 h
  obtain ⟨⟨a, x⟩, h2, h⟩ := bind_ok.1 h
  obtain ⟨⟨b, y⟩, h3, h⟩ := bind_ok.1 h
  simp only [pure, Except.pure, Except.ok.injEq, Prod.mk.injEq] at h
  obtain ⟨rfl, h5, rfl, h7⟩ := h
  exact ⟨a, b, _, .next (.start h1) h2 h5, h5, h3, h7⟩

/-- Search states with work below the node at hand: `x ** 2 * cos(x)` comes to its second cycle. -/
example : ∃ t p q, Visits exactOracle 20 names false ['x'] xSqCos t p ∧ p ≠ [] ∧ p <+: q ∧ OpenLeaf t q := by
  obtain ⟨t, t', p, h, -⟩ := xSqCos_visits
  obtain ⟨q, h1, h2⟩ := search_has_work h
  exact ⟨t, _, q, h, by simp, h1, h2⟩

/-- **C58** A cycle that leaves the tree unfinished never returns None (with which the loop would fail): it returns an unfinished
leaf of the tree, or "SOLVED", and then the choice from the root is an unfinished leaf. -/
theorem search_never_lost (h : cycle O n ν bf t p = .ok (t', nx)) (hf : t'.isFinished = false) :
    (∃ q, nx = .node q ∧ OpenLeaf t' q) ∨ nx = .solved ∧ ∃ q, bfNext O t' = .ok (.node q) ∧ OpenLeaf t' q := by
  obtain ⟨q, l, h1, h2, h3⟩ := bfNext_open (O := O) hf
  rcases (cycle_effect h).2 hf with h | ⟨q, l, h1, h2, h3⟩
  · exact .inr ⟨h, q, h1, l, h2, h3⟩
  · exact .inl ⟨q, h1, l, h2, h3⟩

/-- The second cycle of `x ** 2 * cos(x)` leaves the tree unfinished. -/
example : ∃ t t' p nx, cycle exactOracle 20 names false t p = .ok (t', nx) ∧ t'.isFinished = false := by
  obtain ⟨t, t', p, -, -, h, h'⟩ := xSqCos_visits
  exact ⟨t, t', _, _, h, h'⟩

/-- **C58** So the loop of `integrate` never fails for want of a node: it fails only if a cycle does. -/
theorem search_fails_only_in_cycle {er : Err} (ht : Visits O n ν bf v e t p) (h : searchLoop O n ν bf k t p = .error er) :
    ∃ t' p', Visits O n ν bf v e t' p' ∧ cycle O n ν bf t' p' = .error er := by
  induction k generalizing t p with
  | zero =>
    rw [searchLoop] at h
    cases hc : cycle O n ν bf t p with
    | error er' => rw [hc] at h; cases h; exact ⟨t, p, ht, hc⟩
    | ok r => rw [hc] at h; cases h
  | succ k ih =>
    rw [searchLoop] at h
    cases hc : cycle O n ν bf t p with
    | error er' => rw [hc] at h; cases h; exact ⟨t, p, ht, hc⟩
    | ok r =>
      obtain ⟨t', nx⟩ := r
      rw [hc] at h
      simp only [bind, Except.bind] at h
      cases hf : t'.isFinished with
      | true => rw [hf] at h; cases h
      | false =>
        rw [hf] at h
        simp only [Bool.false_eq_true, if_false] at h
        rcases search_never_lost hc hf with ⟨q, rfl, -⟩ | ⟨rfl, q, hq, -⟩
        · exact ih (.next ht hc hf) h
        · simp only [hq] at h
          exact ih (.solved ht hc hf hq) h

/-- **C58** A cycle works on unfinished leaves only: everything else stays as it is, except for solutions stored by ByParts. (So
a subtree that is solved stays solved, and one that is failed stays failed: `verdict_is_final`.) -/
theorem cycle_changes_leaves_only (h : cycle O n ν bf t p = .ok (t', nx)) : Later t t' := (cycle_effect h).1

/-- **C58** Every cycle makes progress: some unfinished leaf of the tree is finished afterwards, or has children. -/
theorem search_makes_progress (ht : Visits O n ν bf v e t p) (h : cycle O n ν bf t p = .ok (t', nx)) :
    ∃ (q : List Nat) (l : Node), OpenLeaf t q ∧ at? q t' = some l ∧ (l.isFinished = true ∨ l.children ≠ []) := by
  obtain ⟨q, hq, l, h1, h2⟩ := search_has_work ht
  have hw : Workable t p := by
    obtain ⟨w, rfl⟩ := hq
    rw [at_append] at h1
    obtain ⟨d, hd, h1⟩ := Option.bind_eq_some_iff.1 h1
    exact ⟨d, hd, fun hn => by
      have := (mem_unfinishedPaths d (w, l)).2 ⟨h1, h2⟩
      rw [hn] at this; simp at this⟩
  obtain ⟨q, l, l', -, h1, h2, h3, h4⟩ := cycle_progress hw h
  exact ⟨q, l', ⟨l, h1, h2⟩, h3, h4⟩

/-- `x ** 2 * cos(x)`: progress in the second cycle. -/
example : ∃ t t' q l, OpenLeaf t q ∧ at? q t' = some l ∧ (l.isFinished = true ∨ l.children ≠ []) := by
  obtain ⟨t, t', p, h, -, h', -⟩ := xSqCos_visits
  obtain ⟨q, l, h1, h2, h3⟩ := search_makes_progress h h'
  exact ⟨t, t', q, l, h1, h2, h3⟩

/-- `2 ** x * tan(x)`, for which the loop ends in a ValueError. -/
example : ∃ t, Visits exactOracle 20 names false ['x'] (prod [pow (rat 2) (sym ['x']), trig .tan (sym ['x'])]) t [] ∧
    searchLoop exactOracle 20 names false 8 t [] = .error .value := by
  have h : (match (do
        let t ← startTree exactOracle 20 names ['x'] (prod [pow (rat 2) (sym ['x']), trig .tan (sym ['x'])])
        return searchLoop exactOracle 20 names false 8 t []) with
      | .ok (.error .value) => true | _ => false) = true := by
    set_option maxRecDepth 10000 in decide +kernel
  cases h1 : startTree exactOracle 20 names ['x'] (prod [pow (rat 2) (sym ['x']), trig .tan (sym ['x'])]) with
  | error er => rw [h1] at h; cases h
  | ok t =>
    rw [h1] at h
    refine ⟨t, .start h1, ?_⟩
    simp only [bind, Except.bind, pure, Except.pure] at h
    split at h
    · next h2 => exact Except.ok.inj h2
    · cases h

/-! ### C59 -/

theorem searchLoop_more (h : searchLoop O n ν bf k t p = .ok T) (hf : T.isFinished = true) :
    searchLoop O n ν bf (k + 1) t p = .ok T := by
  induction k generalizing t p with
  | zero =>
    rw [searchLoop.eq_def] at h ⊢
    simp only at h ⊢
    obtain ⟨⟨t', nx⟩, h1, h⟩ := bind_ok.1 h
    cases pure_ok.1 h
    rw [h1]
    simp only [bind, Except.bind, hf]
    rfl
  | succ k ih =>
    rw [searchLoop] at h ⊢
    obtain ⟨⟨t', nx⟩, h1, h⟩ := bind_ok.1 h
    rw [h1]
    simp only [bind, Except.bind] at h ⊢
    split_ifs at h ⊢ with hc
    · exact h
    · cases nx with
      | none => exact h
      | node q => exact ih h
      | solved =>
        simp only at h ⊢
        cases hb : bfNext O t' with
        | error er => rw [hb] at h; cases h
        | ok nx =>
          rw [hb] at h
          cases nx with
          | none => exact h
          | solved => exact h
          | node q => exact ih h

/-- **C59** If the search comes to an end within the time limit, then with any longer time limit it ends with the same tree. -/
theorem search_end_independent_of_time (h : search O n ν bf k v e = .ok T) (hf : T.isFinished = true) (hk : k ≤ k') :
    search O n ν bf k' v e = .ok T := by
  induction hk with
  | refl => exact h
  | step _ ih =>
    unfold search at ih ⊢
    obtain ⟨t, h1, h2⟩ := bind_ok.1 ih
    rw [h1]
    exact searchLoop_more h2 hf

/-- **C59** An answer found within some time limit is the answer for every longer time limit. -/
theorem answer_independent_of_time (h : integrate O n ν bf k final v e = .ok (some F)) (hk : k ≤ k') :
    integrate O n ν bf k' final v e = .ok (some F) := by
  unfold integrate at h ⊢
  obtain ⟨T, h1, h⟩ := bind_ok.1 h
  cases hs : T.isSolved with
  | false => rw [hs] at h; cases h
  | true =>
    rw [search_end_independent_of_time h1 (by simp [isFinished, hs]) hk]
    exact h

/-- `x ** 2 * cos(x)` takes three cycles, and the answer `-2 (-x cos x + sin x) + sin x * x ** 2` is the same with any more. -/
example : ∀ k, 2 ≤ k → integrate exactOracle 20 names false k true ['x'] xSqCos =
    .ok (some (sum [prod [rat (-2), sum [prod [rat (-1), sym ['x'], trig .cos (sym ['x'])], trig .sin (sym ['x'])]],
      prod [trig .sin (sym ['x']), pow (sym ['x']) (rat 2)]])) := fun _ hk =>
  answer_independent_of_time (k := 2) (by set_option maxRecDepth 10000 in decide +kernel) hk

/-- **C59** "None" means that the root failed, which no more time would change, or that the time was up with the root
unfinished. -/
theorem no_answer_reason (h : integrate O n ν bf k final v e = .ok none) :
    ∃ T, search O n ν bf k v e = .ok T ∧
      (T.isFailed = true ∧ (∀ k', k ≤ k' → integrate O n ν bf k' final v e = .ok none) ∨ T.isFinished = false) := by
  unfold integrate at h
  obtain ⟨T, h1, h⟩ := bind_ok.1 h
  refine ⟨T, h1, ?_⟩
  have hs : T.isSolved = false := by
    cases hs : T.isSolved with
    | false => rfl
    | true =>
      rw [hs] at h
      simp only [Bool.not_true, Bool.false_eq_true, if_false] at h
      obtain ⟨⟨S, l⟩, -, h⟩ := bind_ok.1 h
      dsimp only at h
      split_ifs at h
      · obtain ⟨r, -, h⟩ := bind_ok.1 h
        cases pure_ok.1 h
      · cases pure_ok.1 h
  cases hf : T.isFailed with
  | false => right; simp [isFinished, hs, hf]
  | true =>
    left
    refine ⟨rfl, fun k' hk => ?_⟩
    rw [integrate, search_end_independent_of_time h1 (by simp [isFinished, hf]) hk]
    change (if (!T.isSolved) = true then _ else _) = _
    rw [hs]
    rfl

/-- `x ** 2 * cos(x)` with time for two cycles. -/
example : integrate exactOracle 20 names false 1 true ['x'] xSqCos = .ok none := by
  set_option maxRecDepth 10000 in decide +kernel

end Simpy
