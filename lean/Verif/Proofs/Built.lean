import Verif.Spec.Built
import Verif.Proofs.TrigSound

/-! Everything built by the constructors is well-formed; on log-free well-formed expressions the principal
domain is the plain real domain. -/

namespace Simpy
open Expr

theorem Built.wf {O : Oracle} (hO : O.Exact) {e : Expr} (h : Built O e) : WF e := by
  induction h with
  | rat q => simp [WF]
  | flt v => simp [WF]
  | pi => simp [WF]
  | euler => simp [WF]
  | inf => simp [WF]
  | neginf => simp [WF]
  | sym s => simp [WF]
  | any s => simp [WF]
  | sum n _ h ih => exact (ctors_sound hO n).sumW _ _ ih h
  | prod n _ h ih => exact (ctors_sound hO n).prodW _ _ ih h
  | pow n _ _ h ih1 ih2 => exact (ctors_sound hO n).powW _ _ _ ih1 ih2 h
  | abs n _ h ih => exact (ctors_sound hO n).absW _ _ ih h
  | log _ _ h ih1 ih2 => exact logCtor_W ih1 ih2 h
  | trig n f _ h ih => exact trigCtor_W hO n ih h

theorem HN_of_baseOk {ρ : Str → ℝ} {b : Expr} (hb : baseOk b = true) : HN ρ b ↔ 0 ≤ den ρ b := by
  cases b <;> simp_all [HN, baseOk, den]

mutual
theorem Dom_iff_DomR {ρ : Str → ℝ} : ∀ {e : Expr}, WF e → containsCls isLog e = false →
    (Dom ρ e ↔ DomR ρ e) := by
  intro e w hl
  cases e with
  | sum ts => simp only [containsCls, isLog, Bool.false_or] at hl; exact DomL_iff_DomRL w hl
  | prod ts => simp only [containsCls, isLog, Bool.false_or] at hl; exact DomL_iff_DomRL w.2 hl
  | pow b x =>
    simp only [containsCls, isLog, Bool.false_or, Bool.or_eq_false_iff] at hl
    simp only [Dom, DomS, Bool.false_eq_true, false_implies, and_true, DomR, Dom_iff_DomR (ρ := ρ) w.1 hl.1, Dom_iff_DomR w.2.1 hl.2, HN_of_baseOk w.2.2]
  | log i b => simp [containsCls, isLog] at hl
  | trig f i =>
    simp only [containsCls, isLog, Bool.false_or] at hl
    simp only [Dom, DomS, Bool.false_eq_true, false_implies, and_true, DomR, Dom_iff_DomR (e := i) w hl]
  | absv i =>
    simp only [containsCls, isLog, Bool.false_or] at hl
    simp only [Dom, DomS, Bool.false_eq_true, false_implies, and_true, DomR, Dom_iff_DomR (e := i) w hl]
  | _ => simp [Dom, DomS, DomR]
theorem DomL_iff_DomRL {ρ : Str → ℝ} : ∀ {ts : List Expr}, WFL ts → containsClsL isLog ts = false →
    (DomSL false ρ ts ↔ DomRL ρ ts) := by
  intro ts w hl
  cases ts with
  | nil => simp [DomSL, DomRL]
  | cons t r =>
    simp only [containsClsL, Bool.or_eq_false_iff] at hl
    simp only [DomSL, DomRL, Dom_iff_DomR (ρ := ρ) w.1 hl.1, DomL_iff_DomRL w.2 hl.2]
end

mutual
theorem DomS.domR {ρ : Str → ℝ} : ∀ {e : Expr}, Dom ρ e → DomR ρ e := by
  intro e h
  cases e with
  | sum ts => exact DomSL.domR h
  | prod ts => exact DomSL.domR h
  | pow b x => exact ⟨h.1.domR, h.2.1.domR, h.2.2.1, fun hx => (h.2.2.2.1 hx).nonneg⟩
  | log i b => exact ⟨h.1.domR, h.2.1.domR, h.2.2.2⟩
  | trig f i => exact ⟨h.1.domR, h.2.1⟩
  | absv i => exact DomS.domR (e := i) h.1
  | _ => simpa [Dom, DomS, DomR] using h
theorem DomSL.domR {ρ : Str → ℝ} : ∀ {ts : List Expr}, DomSL false ρ ts → DomRL ρ ts := by
  intro ts h
  cases ts with
  | nil => trivial
  | cons t r => exact ⟨h.1.domR, DomSL.domR h.2⟩
end

end Simpy
