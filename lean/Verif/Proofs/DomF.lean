import Verif.Proofs.PowSound2

/-! The textbook domain. -/

namespace Simpy
open Expr

theorem DomFL_iff (ρ : Str → ℝ) : ∀ ts, DomFL ρ ts ↔ ∀ t ∈ ts, DomF ρ t
  | [] => by simp [DomFL]
  | t :: r => by simp [DomFL, DomFL_iff ρ r]

mutual
theorem DomF.noFlt {ρ : Str → ℝ} : ∀ {a : Expr}, DomF ρ a → NoFlt a := by
  intro a h
  cases a <;> simp_all [DomF, NoFlt]
  · exact DomFL.noFlt h
  · exact DomFL.noFlt h
  · exact ⟨h.1.noFlt, h.2.1.noFlt⟩
  · exact ⟨h.1.noFlt, h.2.1.noFlt⟩
  · exact h.1.noFlt
  · exact h.noFlt
theorem DomFL.noFlt {ρ : Str → ℝ} : ∀ {a : List Expr}, DomFL ρ a → NoFltL a := by
  intro a h
  cases a with
  | nil => simp [NoFltL]
  | cons x r => exact ⟨h.1.noFlt, DomFL.noFlt h.2⟩
end

theorem DomF.isAcc_rat {ρ : Str → ℝ} {a : Expr} (h : DomF ρ a) (ha : a.isAcc = true) : ∃ q, a = rat q := by
  cases a <;> simp_all [DomF, isAcc]

/-- `den`/`DomF` is an interpretation in the sense of `RingInterp`. -/
theorem denInterpF (ρ : Str → ℝ) : RingInterp (den ρ) (DomF ρ) where
  v_rat := fun q => by simp [den]
  v_sum := fun ts => by simp [den, denS_eq]
  v_prod := fun ts => by simp [den, denP_eq]
  D_rat := fun q => by simp [DomF]
  D_sum := fun ts => by simp [DomF, DomFL_iff]
  D_prod := fun ts => by simp [DomF, DomFL_iff]
  D_noFlt := fun a h => h.noFlt
  D_acc := fun a h h' => h.isAcc_rat h'

mutual
/-- The principal domain is contained in the textbook domain. -/
theorem DomS.domF {s : Bool} {ρ : Str → ℝ} : ∀ {a : Expr}, DomS s ρ a → DomF ρ a := by
  intro a h
  cases a with
  | sum ts => exact DomSL.domF h
  | prod ts => exact DomSL.domF h
  | pow b x =>
    refine ⟨DomS.domF h.1, DomS.domF h.2.1, h.2.2.1, ?_⟩
    cases hx : intExp x with
    | false => exact .inl (h.2.2.2.1 hx).nonneg
    | true =>
      obtain ⟨n, rfl⟩ := intExp_iff.1 hx
      exact .inr ⟨n, by simp, by simp⟩
  | log i b => exact ⟨DomS.domF h.1, DomS.domF h.2.1, h.2.2.2⟩
  | trig f i => exact ⟨DomS.domF h.1, h.2.1⟩
  | absv i => exact DomS.domF (a := i) h.1
  | _ => simpa [DomS, DomF] using h
theorem DomSL.domF {s : Bool} {ρ : Str → ℝ} : ∀ {a : List Expr}, DomSL s ρ a → DomFL ρ a := by
  intro a h
  cases a with
  | nil => trivial
  | cons t r => exact ⟨DomS.domF h.1, DomSL.domF h.2⟩
end

mutual
/-- The strict domain is contained in the principal domain. -/
theorem DomS.dom {s : Bool} {ρ : Str → ℝ} : ∀ {a : Expr}, DomS s ρ a → Dom ρ a := by
  intro a h
  cases a with
  | sum ts => exact DomSL.dom (a := ts) h
  | prod ts => exact DomSL.dom (a := ts) h
  | pow b x => exact ⟨DomS.dom h.1, DomS.dom h.2.1, h.2.2.1, h.2.2.2.1, by simp⟩
  | log i b => exact ⟨DomS.dom h.1, DomS.dom h.2.1, h.2.2⟩
  | trig f i => exact ⟨DomS.dom h.1, h.2.1, by simp⟩
  | absv i => exact ⟨DomS.dom h.1, by simp⟩
  | _ => simpa [DomS] using h
theorem DomSL.dom {s : Bool} {ρ : Str → ℝ} : ∀ {a : List Expr}, DomSL s ρ a → DomSL false ρ a := by
  intro a h
  cases a with
  | nil => trivial
  | cons t r => exact ⟨DomS.dom h.1, DomSL.dom h.2⟩
end

end Simpy
