import Verif.Proofs.NFOut
import Verif.Props.Simplify
import Verif.Proofs.Algebraic

/-! # Lemmas: `simplify` on polynomial expressions -/

namespace Simpy
namespace NF
open Expr Lin Mono1

variable {O : Oracle}

theorem no_fwd {e : Expr} (h : PolyExpr O e) : containsCls isFwdTrig e = false := by
  induction h with
  | rat q => simp [containsCls, isFwdTrig]
  | sym s hs => simp [containsCls, isFwdTrig]
  | sum n _ _ ih => exact closed_noFwd.sum.2 ih
  | prod n _ _ _ ih => exact closed_noFwd.prod.2 ih
  | pow n k _ _ _ _ ih => exact closed_noFwd.pow.2 ⟨ih, by simp [containsCls, isFwdTrig]⟩

theorem no_log {e : Expr} (h : PolyExpr O e) : containsCls isLog e = false := by
  induction h with
  | rat q => simp [containsCls, isLog]
  | sym s hs => simp [containsCls, isLog]
  | sum n _ _ ih => exact closed_noLog.sum.2 ih
  | prod n _ _ _ ih => exact closed_noLog.prod.2 ih
  | pow n k _ _ _ _ ih => exact closed_noLog.pow.2 ⟨ih, by simp [containsCls, isLog]⟩

/-- An expression without symbols is a number. -/
theorem no_syms (hO : O.Exact) {e : Expr} (h : PolyExpr O e) (hs : syms e = []) : ∃ q, e = rat q := by
  have all : ∀ {ts : List Expr}, symsL ts = [] → ∀ t ∈ ts, syms t = [] := by
    intro ts
    induction ts with
    | nil => simp
    | cons a r ih =>
      intro h t ht
      simp only [symsL, List.append_eq_nil_iff] at h
      rcases List.mem_cons.1 ht with rfl | ht
      · exact h.1
      · exact ih h.2 t ht
  have nums : ∀ {ts : List Expr}, (∀ t ∈ ts, ∃ q, t = rat q) → ts.filter isAcc = ts := by
    intro ts h
    refine List.filter_eq_self.2 fun t ht => ?_
    obtain ⟨q, rfl⟩ := h t ht; rfl
  induction h with
  | rat q => exact ⟨q, rfl⟩
  | sym s hs => simp [syms] at hs
  | @sum n ts hts hc ih =>
    have hb := (built_poly (.sum n hts hc)).canon hO
    rw [Canon] at hb
    rw [syms] at hs
    have := nums fun t ht => ih t ht (all hs t ht)
    have h1 := hb.1.1
    have h2 := hb.1.2.1
    rw [this] at h2
    omega
  | @prod n ts hts hnp hc ih =>
    have hb := (built_poly (.prod n hts hnp hc)).canon hO
    rw [Canon] at hb
    rw [syms] at hs
    have := nums fun t ht => ih t ht (all hs t ht)
    have h1 := hb.1.1
    have h2 := hb.1.2.1
    rw [this] at h2
    omega
  | @pow n b k hb hk hc hneg ih =>
    simp only [syms, List.append_nil] at hs
    obtain ⟨q, rfl⟩ := ih hs
    have := same_pow hc (pow_num 0 q k)
    cases this

theorem cls_polyE (hO : O.Exact) {e : Expr} (h : PolyExpr O e) {n : Nat} (hn : height e + 8 ≤ n) :
    containsCls isFwdTrig (polyE O (toMv e)) = false ∧ containsCls isLog (polyE O (toMv e)) = false := by
  have hx := expand_poly hO h hn
  unfold expandOr at hx
  rw [bind_ok] at hx
  obtain ⟨b, hb, hx⟩ := hx
  split at hx
  · exact ⟨(admE_noFwd O).expandE n ((admE_noFwd O).kid (no_fwd h)) hx, (admE_noLog O).expandE n ((admE_noLog O).kid (no_log h)) hx⟩
  · rw [← pure_ok.1 hx]; exact ⟨no_fwd h, no_log h⟩

/-- `simplify`: the shorter one of the expression and its normal form. -/
theorem simplify_poly (hO : O.Exact) {e : Expr} (h : PolyExpr O e) {n : Nat} (hn : height e + 8 ≤ n) :
    simplifyE O n e = .ok (if (syms (polyE O (toMv e))).length < (syms e).length then polyE O (toMv e) else e) := by
  have hx := expand_poly hO h hn
  have cls := cls_polyE hO h hn
  unfold simplifyE
  rw [hx, ok_bind, trigPart, isPlainTrig_eq, cls.1, if_neg (by simp), ok_bind]
  dsimp only
  rw [logPart, cls.2, if_neg (by simp), ok_bind]
  simp only [isSimpler, countSymbols_eq, Bool.false_eq_true, if_false, decide_eq_true_eq]
  rfl

/-- `simplify` again changes nothing. -/
theorem simplify_twice (hO : O.Exact) {e r : Expr} (h : PolyExpr O e) {n : Nat} (hn : height e + 8 ≤ n) (hr : simplifyE O n e = .ok r) :
    simplifyE O n r = .ok r := by
  have hs := simplify_poly hO h hn
  rw [hr] at hs
  have hs := Except.ok.inj hs
  split at hs
  · have f1 : containsCls isFwdTrig r = false := (hs ▸ (cls_polyE hO h hn).1 :)
    have f2 : containsCls isLog r = false := (hs ▸ (cls_polyE hO h hn).2 :)
    obtain ⟨n, rfl⟩ : ∃ m, n = m + 4 := ⟨n - 4, by omega⟩
    have f3 : expandableE O (n + 4) r = .ok false := by rw [hs]; exact able_polyE n _
    unfold simplifyE expandOr
    rw [f3, ok_bind]
    simp [trigPart, isPlainTrig_eq, f1, logPart, f2, pure, Except.pure, bind, Except.bind]
  · rw [hs] at hr ⊢; exact hr

end NF
end Simpy
