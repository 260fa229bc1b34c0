import Verif.Proofs.Closed

/-! `contains`, `den` and symbols; arguments without inverse trig functions. -/

namespace Simpy
open Expr

mutual
theorem contains_iff (v : Str) : ∀ e : Expr, contains v e = true ↔ v ∈ syms e := by
  intro e
  cases e <;> simp only [contains, syms, List.mem_append, Bool.or_eq_true, List.mem_singleton, List.not_mem_nil, beq_iff_eq,
    reduceCtorEq]
  · exact eq_comm
  · exact containsL_iff v _
  · exact containsL_iff v _
  · rw [contains_iff v, contains_iff v]
  · rw [contains_iff v, contains_iff v]
  · exact contains_iff v _
  · exact contains_iff v _
theorem containsL_iff (v : Str) : ∀ ts : List Expr, containsL v ts = true ↔ v ∈ symsL ts := by
  intro ts
  cases ts with
  | nil => simp [containsL, symsL]
  | cons t r => simp only [containsL, symsL, List.mem_append, Bool.or_eq_true]; rw [contains_iff v, containsL_iff v]
end

mutual
/-- The value depends only on the symbols that occur. -/
theorem den_congr {ρ ρ' : Str → ℝ} : ∀ e : Expr, (∀ s ∈ syms e, ρ s = ρ' s) → den ρ e = den ρ' e := by
  intro e h
  cases e <;> simp only [den]
  · simpa [syms] using h
  · exact denS_congr _ (by simpa [syms] using h)
  · exact denP_congr _ (by simpa [syms] using h)
  · rw [den_congr _ (fun s hs => h s (by simp [syms, hs])), den_congr (ρ := ρ) (ρ' := ρ') _ (fun s hs => h s (by simp [syms, hs]))]
  · rw [den_congr _ (fun s hs => h s (by simp [syms, hs])), den_congr (ρ := ρ) (ρ' := ρ') _ (fun s hs => h s (by simp [syms, hs]))]
  · rw [den_congr _ (by simpa [syms] using h)]
  · rw [den_congr _ (by simpa [syms] using h)]
theorem denS_congr {ρ ρ' : Str → ℝ} : ∀ ts : List Expr, (∀ s ∈ symsL ts, ρ s = ρ' s) → denS ρ ts = denS ρ' ts := by
  intro ts h
  cases ts with
  | nil => rfl
  | cons t r =>
    simp only [denS]
    rw [den_congr t (fun s hs => h s (by simp [symsL, hs])), denS_congr r (fun s hs => h s (by simp [symsL, hs]))]
theorem denP_congr {ρ ρ' : Str → ℝ} : ∀ ts : List Expr, (∀ s ∈ symsL ts, ρ s = ρ' s) → denP ρ ts = denP ρ' ts := by
  intro ts h
  cases ts with
  | nil => rfl
  | cons t r =>
    simp only [denP]
    rw [den_congr t (fun s hs => h s (by simp [symsL, hs])), denP_congr r (fun s hs => h s (by simp [symsL, hs]))]
end


theorem trigSide_of_noInv (O : Oracle) (ρ : Str → ℝ) : ∀ (n : Nat) {i : Expr}, containsCls isInvTrig i = false →
    TrigSide O ρ n i
  | 0, _, _ => trivial
  | n + 1, i, h => by
    refine ⟨?_, fun _ ni hn => trigSide_of_noInv O ρ n
      (opNeg_Q (Q := fun e => containsCls isInvTrig e = false) closed_noInv O (ctors_pres closed_noInv O n) h hn)⟩
    rintro g w x2 z rfl hg
    simp [containsCls, isInvTrig, hg] at h

end Simpy
