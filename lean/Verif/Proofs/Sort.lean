import Verif.Proofs.Basic

/-! The sort returns a permutation of its input. -/

namespace Simpy

variable {α : Type}

theorem runTail_split {lt : α → α → R Bool} {d : Bool} : ∀ {l : List α} {prev : α} {run rest : List α},
    runTail lt d prev l = .ok (run, rest) → run ++ rest = l
  | [], _, run, rest, h => by
    simp only [runTail, Except.ok.injEq, Prod.mk.injEq] at h; simp [← h.1, ← h.2]
  | x :: r, prev, run, rest, h => by
    simp only [runTail, bind_ok] at h
    obtain ⟨b, _, h⟩ := h
    split at h
    · obtain ⟨⟨run', rest'⟩, h1, h2⟩ := bind_ok.1 h
      simp only [pure_ok, Prod.mk.injEq] at h2
      have := runTail_split h1
      rw [← h2.1, ← h2.2]; simp [this]
    · simp only [pure_ok, Prod.mk.injEq] at h
      simp [← h.1, ← h.2]

theorem countRun_perm {lt : α → α → R Bool} {l pre rest : List α} (h : countRun lt l = .ok (pre, rest)) :
    (pre ++ rest).Perm l := by
  match l, h with
  | [], h => simp only [countRun, Except.ok.injEq, Prod.mk.injEq] at h; simp [← h.1, ← h.2]
  | [x], h => simp only [countRun, Except.ok.injEq, Prod.mk.injEq] at h; simp [← h.1, ← h.2]
  | x :: y :: r, h =>
    simp only [countRun, bind_ok] at h
    obtain ⟨d, _, ⟨run, rest'⟩, h1, h2⟩ := h
    have hs := runTail_split h1
    dsimp only at h2
    split at h2
    · simp only [pure_ok, Prod.mk.injEq] at h2
      rw [← h2.1, ← h2.2, ← hs]
      exact ((List.reverse_perm _).append_right _)
    · simp only [pure_ok, Prod.mk.injEq] at h2
      rw [← h2.1, ← h2.2, ← hs]
      simp

theorem binarySort_perm {lt : α → α → R Bool} : ∀ {rest pre out : List α},
    binarySort lt pre rest = .ok out → out.Perm (pre ++ rest)
  | [], pre, out, h => by
    simp only [binarySort, Except.ok.injEq] at h; simp [← h]
  | p :: r, pre, out, h => by
    simp only [binarySort, bind_ok] at h
    obtain ⟨i, _, h⟩ := h
    refine (binarySort_perm h).trans ?_
    have h1 : (List.take i pre ++ p :: List.drop i pre).Perm (p :: pre) := by
      have := List.perm_middle (a := p) (l₁ := List.take i pre) (l₂ := List.drop i pre)
      rwa [List.take_append_drop] at this
    refine (h1.append_right r).trans ?_
    exact (List.perm_middle (a := p) (l₁ := pre) (l₂ := r)).symm

/-- `sorted` returns a permutation of its argument, whatever the comparison does. -/
theorem pySorted_perm {lt : α → α → R Bool} {l out : List α} (h : pySorted lt l = .ok out) : out.Perm l := by
  simp only [pySorted, bind_ok] at h
  obtain ⟨⟨pre, rest⟩, h1, h2⟩ := h
  exact (binarySort_perm h2).trans (countRun_perm h1)

theorem sortTerms_perm {C : Ctors} {l out : List Expr} (h : sortTerms C l = .ok out) : out.Perm l :=
  pySorted_perm h

end Simpy
