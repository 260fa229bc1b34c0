import Verif.Proofs.SimpSound
import Verif.Props.Expand
import Verif.Props.Simplify
import Verif.Model.Definite

/-! Expressions with integer powers and without logarithms and trig functions. -/

namespace Simpy
open Expr

variable {O : Oracle}

/-- Integer exponents, no logarithms, no trig functions. -/
def Alg (e : Expr) : Prop :=
  intPows e = true ∧ containsCls isLog e = false ∧ containsCls isInvTrig e = false ∧ containsCls isFwdTrig e = false

theorem Alg.easy {e : Expr} (h : Alg e) : Easy e := ⟨h.1, h.2.1, h.2.2.1⟩

theorem Alg.not_trig {f : TrigFn} {i : Expr} (h : Alg (trig f i)) : False := by
  obtain ⟨-, -, h1, h2⟩ := h
  simp only [containsCls, isInvTrig, isFwdTrig, Bool.or_eq_false_iff] at h1 h2
  cases hf : f.isInverse <;> simp_all

theorem Alg.not_log {i b : Expr} (h : Alg (log i b)) : False := by
  have := h.2.1
  simp [containsCls, isLog] at this

theorem Alg.rat (q : ℚ) : Alg (rat q) := by simp [Alg, intPows, containsCls, isLog, isInvTrig, isFwdTrig]
theorem Alg.sum {ts : List Expr} : Alg (sum ts) ↔ ∀ t ∈ ts, Alg t := by
  unfold Alg
  rw [closed_intPows.sum, closed_noLog.sum, closed_noInv.sum, closed_noFwd.sum]
  exact ⟨fun h t ht => ⟨h.1 t ht, h.2.1 t ht, h.2.2.1 t ht, h.2.2.2 t ht⟩,
    fun h => ⟨fun t ht => (h t ht).1, fun t ht => (h t ht).2.1, fun t ht => (h t ht).2.2.1, fun t ht => (h t ht).2.2.2⟩⟩
theorem Alg.prod {ts : List Expr} : Alg (prod ts) ↔ ∀ t ∈ ts, Alg t := by
  unfold Alg
  rw [closed_intPows.prod, closed_noLog.prod, closed_noInv.prod, closed_noFwd.prod]
  exact ⟨fun h t ht => ⟨h.1 t ht, h.2.1 t ht, h.2.2.1 t ht, h.2.2.2 t ht⟩,
    fun h => ⟨fun t ht => (h t ht).1, fun t ht => (h t ht).2.1, fun t ht => (h t ht).2.2.1, fun t ht => (h t ht).2.2.2⟩⟩
theorem Alg.pow {b x : Expr} (h : Alg (pow b x)) : Alg b ∧ Simpy.intExp x = true :=
  ⟨⟨h.easy.pow.1.1, h.easy.pow.1.2.1, h.easy.pow.1.2.2, (closed_noFwd.pow.1 h.2.2.2).1⟩, h.easy.pow.2⟩
theorem Alg.absv {i : Expr} (h : Alg (absv i)) : Alg i :=
  ⟨closed_intPows.absv.1 h.1, closed_noLog.absv.1 h.2.1, closed_noInv.absv.1 h.2.2.1, closed_noFwd.absv.1 h.2.2.2⟩

theorem admE_noLog (O : Oracle) : AdmE O (fun e => containsCls isLog e = false) where
  acc := closed_noLog.acc
  eul := by simp [containsCls, isLog]
  sum := closed_noLog.sum.1
  prod := closed_noLog.prod.1
  pow := closed_noLog.pow.1
  log := closed_noLog.log
  trig := closed_noLog.trig
  absv := closed_noLog.absv.1
  pres := ctors_pres closed_noLog O
  rlog := by
    intro i b i' r he
    simp [containsCls, isLog] at he
  rtrig := by
    intro n f i i' r he hi h
    refine trigCtor_Q closed_noLog n (fun j hj => ?_) hi h
    simp only [containsCls, isLog, Bool.or_eq_false_iff] at he ⊢
    exact ⟨he.1, hj⟩

theorem Alg.simplifyOk {st : Bool} {ρ : Str → ℝ} (n : Nat) {e : Expr} (h : Alg e) : SimplifyOk O st ρ n e := by
  have hT : ∀ e1, expandOr (expandableE O n) (expandE O n) e = .ok e1 → containsCls isFwdTrig e1 = false ∧
      containsCls isLog e1 = false := by
    intro e1 h1
    unfold expandOr at h1
    obtain ⟨b, hb, h1⟩ := bind_ok.1 h1
    cases b with
    | true => exact ⟨(admE_noFwd O).expandE n ((admE_noFwd O).kid h.2.2.2) h1, (admE_noLog O).expandE n ((admE_noLog O).kid h.2.1) h1⟩
    | false => cases pure_ok.1 h1; exact ⟨h.2.2.2, h.2.1⟩
  refine ⟨fun _ => h.easy.expandOk n, fun e1 h1 => ?_, fun e1 e2 b h1 h2 => ?_⟩
  · unfold trigRunOk
    rw [isPlainTrig_eq, (hT e1 h1).1]
    rfl
  · unfold trigPart at h2
    rw [isPlainTrig_eq, (hT e1 h1).1] at h2
    cases h2
    intro hl
    rw [(hT _ h1).2] at hl
    cases hl

theorem pres_alg (O : Oracle) (n : Nat) : Pres Alg (ctors O n) (fun x => intExp x = true) where
  sum ts r ht h := ⟨(ctors_pres closed_intPows O n).sum ts r (fun t m => (ht t m).1) h,
    (ctors_pres closed_noLog O n).sum ts r (fun t m => (ht t m).2.1) h,
    (ctors_pres closed_noInv O n).sum ts r (fun t m => (ht t m).2.2.1) h,
    (ctors_pres closed_noFwd O n).sum ts r (fun t m => (ht t m).2.2.2) h⟩
  prod ts r ht h := ⟨(ctors_pres closed_intPows O n).prod ts r (fun t m => (ht t m).1) h,
    (ctors_pres closed_noLog O n).prod ts r (fun t m => (ht t m).2.1) h,
    (ctors_pres closed_noInv O n).prod ts r (fun t m => (ht t m).2.2.1) h,
    (ctors_pres closed_noFwd O n).prod ts r (fun t m => (ht t m).2.2.2) h⟩
  pow b x r hb hx h := by
    obtain ⟨k, rfl⟩ := intExp_iff.1 hx
    exact ⟨(ctors_pres closed_intPows O n).pow _ _ r hb.1 hx h,
      (ctors_pres closed_noLog O n).pow _ _ r hb.2.1 (closed_noLog.acc rfl) h,
      (ctors_pres closed_noInv O n).pow _ _ r hb.2.2.1 (closed_noInv.acc rfl) h,
      (ctors_pres closed_noFwd O n).pow _ _ r hb.2.2.2 (closed_noFwd.acc rfl) h⟩
  abs i r hi h := ⟨(ctors_pres closed_intPows O n).abs i r hi.1 h, (ctors_pres closed_noLog O n).abs i r hi.2.1 h,
    (ctors_pres closed_noInv O n).abs i r hi.2.2.1 h, (ctors_pres closed_noFwd O n).abs i r hi.2.2.2 h⟩

theorem opSub_alg {n : Nat} {a b r : Expr} (ha : Alg a) (hb : Alg b) (h : opSub (ctors O n) a b = .ok r) : Alg r :=
  ⟨opSub_G (closed_intPows.g O) (ctors_pres closed_intPows O n) ha.1 hb.1 h,
    opSub_G (closed_noLog.g O) (ctors_pres closed_noLog O n) ha.2.1 hb.2.1 h,
    opSub_G (closed_noInv.g O) (ctors_pres closed_noInv O n) ha.2.2.1 hb.2.2.1 h,
    opSub_G (closed_noFwd.g O) (ctors_pres closed_noFwd O n) ha.2.2.2 hb.2.2.2 h⟩

theorem subs_alg {σ : Str → Option Expr} (hσ : ∀ s v, σ s = some v → Alg v) : ∀ (n : Nat) {e r : Expr}, Alg e →
    subsE O n σ e = .ok r → Alg r
  | 0, _, _, _, h => by simp [subsE] at h
  | n + 1, e, r, he, h => by
    have hP := pres_alg O n
    have ih := fun {e r : Expr} => subs_alg hσ n (e := e) (r := r)
    unfold subsE at h
    cases e with
    | sum ts =>
      obtain ⟨us, h1, h⟩ := bind_ok.1 h
      exact hP.sum us r (mapR_mem h1 fun t ht u hu => ih (Alg.sum.1 he t ht) hu) h
    | prod ts =>
      obtain ⟨us, h1, h⟩ := bind_ok.1 h
      exact hP.prod us r (mapR_mem h1 fun t ht u hu => ih (Alg.prod.1 he t ht) hu) h
    | pow b x =>
      obtain ⟨b', h1, h⟩ := bind_ok.1 h
      obtain ⟨x', h2, h⟩ := bind_ok.1 h
      obtain ⟨hb, hx⟩ := he.pow
      obtain ⟨k, rfl⟩ := intExp_iff.1 hx
      cases n with
      | zero => simp [subsE] at h2
      | succ n =>
        simp only [subsE, Except.ok.injEq] at h2
        subst h2
        exact hP.pow _ _ r (ih hb h1) hx h
    | absv i =>
      obtain ⟨i', h1, h⟩ := bind_ok.1 h
      exact hP.abs _ r (ih he.absv h1) h
    | log i b => exact he.not_log.elim
    | trig f i => exact he.not_trig.elim
    | sym s =>
      simp only [Except.ok.injEq] at h
      subst h
      cases hs : σ s with
      | none => exact he
      | some v => exact hσ s v hs
    | any k => simp at h
    | _ => simp only [Except.ok.injEq] at h; subst h; exact he

theorem Alg.subsOk {ρ : Str → ℝ} {σ : Str → Option Expr} : ∀ (n : Nat) {e : Expr}, Alg e → SubsOk O ρ σ n e
  | 0, _, _ => trivial
  | n + 1, e, h => by
    unfold SubsOk
    cases e with
    | sum ts => exact fun t ht => Alg.subsOk n (Alg.sum.1 h t ht)
    | prod ts => exact fun t ht => Alg.subsOk n (Alg.prod.1 h t ht)
    | pow b x =>
      obtain ⟨hb, hx⟩ := h.pow
      obtain ⟨k, rfl⟩ := intExp_iff.1 hx
      exact ⟨Alg.subsOk n hb, Alg.subsOk n (Alg.rat _), fun hf => absurd hx (by simp [hf])⟩
    | absv i => exact Alg.subsOk n h.absv
    | log i b => exact h.not_log.elim
    | trig f i => exact h.not_trig.elim
    | _ => trivial

end Simpy
