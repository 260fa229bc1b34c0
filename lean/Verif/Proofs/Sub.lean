import Verif.Spec.Sub
import Verif.Proofs.Basic

/-! Subexpressions and float-freeness. -/

namespace Simpy
open Expr

mutual
theorem floatFree_iff : ∀ e : Expr, floatFree e = true ↔ NoFlt e := by
  intro e
  cases e <;> simp only [floatFree, NoFlt, Bool.and_eq_true, Bool.false_eq_true]
  · exact floatFreeL_iff _
  · exact floatFreeL_iff _
  · rw [floatFree_iff, floatFree_iff]
  · rw [floatFree_iff, floatFree_iff]
  · exact floatFree_iff _
  · exact floatFree_iff _
theorem floatFreeL_iff : ∀ es : List Expr, floatFreeL es = true ↔ NoFltL es := by
  intro es
  cases es with
  | nil => simp [floatFreeL, NoFltL]
  | cons t r => simp only [floatFreeL, NoFltL, Bool.and_eq_true]; rw [floatFree_iff, floatFreeL_iff]
end

theorem floatFree_sub : ∀ {s e : Expr}, Sub s e → floatFree e = true → floatFree s = true := by
  intro s e h
  induction h with
  | here => exact id
  | @child t e hm _ ih =>
    intro he
    apply ih
    have hL : ∀ {ts : List Expr}, floatFreeL ts = true → ∀ t ∈ ts, floatFree t = true := by
      intro ts
      induction ts with
      | nil => simp
      | cons a r ih => simp only [floatFreeL, Bool.and_eq_true, List.mem_cons, forall_eq_or_imp]; exact fun h => ⟨h.1, ih h.2⟩
    cases e <;> simp only [children, List.mem_cons, List.not_mem_nil, or_false] at hm <;>
      simp only [floatFree, Bool.and_eq_true] at he
    · exact hL he t hm
    · exact hL he t hm
    · rcases hm with rfl | rfl; exacts [he.1, he.2]
    · rcases hm with rfl | rfl; exacts [he.1, he.2]
    · subst hm; exact he
    · subst hm; exact he

end Simpy
