import Verif.Spec.Eval

/-! Basic lemmas: the exception monad, lists, `den`, `Dom`, `WF`, `beq`. -/

namespace Simpy
open Expr

/-! ## Partial correctness of results -/

/-- If the call returns, the result satisfies `P`. -/
def Post {α : Type} (x : R α) (P : α → Prop) : Prop := ∀ a, x = .ok a → P a

theorem Post.bind {α β : Type} {x : R α} {f : α → R β} {P : α → Prop} {Q : β → Prop}
    (hx : Post x P) (hf : ∀ a, P a → Post (f a) Q) : Post (x >>= f) Q := by
  intro b hb
  cases x with
  | error e => simp [Bind.bind, Except.bind] at hb
  | ok a => exact hf a (hx a rfl) b hb

theorem Post.pure {α : Type} {a : α} {P : α → Prop} (h : P a) : Post (Pure.pure a : R α) P := by
  intro b hb
  simp only [Pure.pure, Except.pure, Except.ok.injEq] at hb
  exact hb ▸ h

theorem Post.ok {α : Type} {a : α} {P : α → Prop} (h : P a) : Post (Except.ok a : R α) P := by
  intro b hb
  simp only [Except.ok.injEq] at hb
  exact hb ▸ h

theorem Post.error {α : Type} {e : Err} {P : α → Prop} : Post (Except.error e : R α) P := by
  intro b hb; simp at hb

theorem Post.throw {α : Type} {e : Err} {P : α → Prop} : Post (throw e : R α) P := by
  intro b hb; cases hb

theorem Post.mono {α : Type} {x : R α} {P Q : α → Prop} (hx : Post x P) (h : ∀ a, P a → Q a) : Post x Q :=
  fun a ha => h a (hx a ha)

theorem Post.and {α : Type} {x : R α} {P Q : α → Prop} (hx : Post x P) (hy : Post x Q) :
    Post x (fun a => P a ∧ Q a) := fun a ha => ⟨hx a ha, hy a ha⟩

theorem Post.true {α : Type} {x : R α} : Post x (fun _ => True) := fun _ _ => trivial

/-- match on a result as in `match x with | .error e => .error e | .ok a => f a` -/
theorem Post.matchR {α β : Type} {x : R α} {f : α → R β} {P : α → Prop} {Q : β → Prop}
    (hx : Post x P) (hf : ∀ a, P a → Post (f a) Q) :
    Post (match x with | .error e => .error e | .ok a => f a) Q := by
  intro b hb
  cases x with
  | error e => simp at hb
  | ok a => exact hf a (hx a rfl) b hb

theorem bind_ok {α β : Type} {x : R α} {f : α → R β} {b : β} :
    (x >>= f) = .ok b ↔ ∃ a, x = .ok a ∧ f a = .ok b := by
  cases x with
  | error e => simp [Bind.bind, Except.bind]
  | ok a => simp [Bind.bind, Except.bind]

theorem pure_ok {α : Type} {a b : α} : (Pure.pure a : R α) = .ok b ↔ a = b := by
  simp [Pure.pure, Except.pure]

theorem mapR_ok {α β : Type} {f : α → R β} : ∀ {l : List α} {m : List β},
    mapR f l = .ok m ↔ List.Forall₂ (fun a b => f a = .ok b) l m
  | [], m => by
    simp only [mapR, Except.ok.injEq]
    constructor
    · rintro rfl; exact .nil
    · intro h; cases h; rfl
  | a :: r, m => by
    simp only [mapR]
    constructor
    · intro h
      cases hf : f a with
      | error e => rw [hf] at h; simp at h
      | ok b =>
        rw [hf] at h
        cases hr : mapR f r with
        | error e => rw [hr] at h; simp at h
        | ok bs =>
          rw [hr] at h
          simp only [Except.ok.injEq] at h
          subst h
          exact .cons hf (mapR_ok.1 hr)
    · intro h
      cases h with
      | cons hab hrm => rw [hab, mapR_ok.2 hrm]

theorem opNegL_eq (C : Ctors) : ∀ ts, opNegL C ts = mapR (opNeg C) ts
  | [] => by simp [opNegL, mapR]
  | t :: r => by
    simp only [opNegL, mapR]; rw [opNegL_eq C r]
    cases opNeg C t with
    | error e => rfl
    | ok a => cases mapR (opNeg C) r <;> rfl

/-! ## Lists of expressions -/

theorem denS_eq (ρ : Str → ℝ) : ∀ ts, denS ρ ts = (ts.map (den ρ)).sum
  | [] => by simp [denS]
  | t :: r => by simp [denS, denS_eq ρ r]

theorem denP_eq (ρ : Str → ℝ) : ∀ ts, denP ρ ts = (ts.map (den ρ)).prod
  | [] => by simp [denP]
  | t :: r => by simp [denP, denP_eq ρ r]

theorem DomSL_iff (ρ : Str → ℝ) : ∀ ts, DomSL s ρ ts ↔ ∀ t ∈ ts, DomS s ρ t
  | [] => by simp [DomSL]
  | t :: r => by simp [DomSL, DomSL_iff ρ r]

theorem HNL_iff (ρ : Str → ℝ) : ∀ ts, HNL ρ ts ↔ ∀ t ∈ ts, HN ρ t
  | [] => by simp [HNL]
  | t :: r => by simp [HNL, HNL_iff ρ r]

theorem RadOkL_iff (ρ : Str → ℝ) (x : Expr) : ∀ ts, RadOkL ρ x ts ↔ ∀ t ∈ ts, RadOk ρ x t
  | [] => by simp [RadOkL]
  | t :: r => by simp [RadOkL, RadOkL_iff ρ x r]

theorem WFL_iff : ∀ ts, WFL ts ↔ ∀ t ∈ ts, WF t
  | [] => by simp [WFL]
  | t :: r => by simp [WFL, WFL_iff r]

theorem flatSL_eq : ∀ ts, flatSL ts = ts.flatMap flatS
  | [] => by simp [flatSL]
  | t :: r => by simp [flatSL, flatSL_eq r]

theorem flatPL_eq : ∀ ts, flatPL ts = ts.flatMap flatP
  | [] => by simp [flatPL]
  | t :: r => by simp [flatPL, flatPL_eq r]

/-! ## Float-free expressions and `==` -/

mutual
/-- No float object anywhere in the expression. -/
def NoFlt : Expr → Prop
  | flt _ => False
  | sum ts => NoFltL ts
  | prod ts => NoFltL ts
  | pow b x => NoFlt b ∧ NoFlt x
  | log i b => NoFlt i ∧ NoFlt b
  | trig _ i => NoFlt i
  | absv i => NoFlt i
  | _ => True
def NoFltL : List Expr → Prop
  | [] => True
  | t :: r => NoFlt t ∧ NoFltL r
end

theorem NoFltL_iff : ∀ ts, NoFltL ts ↔ ∀ t ∈ ts, NoFlt t
  | [] => by simp [NoFltL]
  | t :: r => by simp [NoFltL, NoFltL_iff r]

mutual
theorem beq_eq {O : Oracle} (h1 : ∀ q, O.isPi q = false) (h2 : ∀ q, O.isE q = false) :
    ∀ a b : Expr, NoFlt a → NoFlt b → beq O a b = true → a = b := by
  intro a b ha hb h
  cases a <;> cases b <;> simp_all [beq, NoFlt]
  · exact beqL_eq h1 h2 _ _ ha hb h
  · exact beqL_eq h1 h2 _ _ ha hb h
  · exact ⟨beq_eq h1 h2 _ _ ha.1 hb.1 h.1, beq_eq h1 h2 _ _ ha.2 hb.2 h.2⟩
  · exact ⟨beq_eq h1 h2 _ _ ha.1 hb.1 h.1, beq_eq h1 h2 _ _ ha.2 hb.2 h.2⟩
  · exact beq_eq h1 h2 _ _ ha hb h.2
  · exact beq_eq h1 h2 _ _ ha hb h
theorem beqL_eq {O : Oracle} (h1 : ∀ q, O.isPi q = false) (h2 : ∀ q, O.isE q = false) :
    ∀ a b : List Expr, NoFltL a → NoFltL b → beqL O a b = true → a = b := by
  intro a b ha hb h
  cases a with
  | nil => cases b <;> simp_all [beqL]
  | cons x r =>
    cases b with
    | nil => simp_all [beqL]
    | cons y s =>
      simp only [beqL, Bool.and_eq_true] at h
      rw [beq_eq h1 h2 _ _ ha.1 hb.1 h.1, beqL_eq h1 h2 _ _ ha.2 hb.2 h.2]
end

mutual
theorem beq_refl {O : Oracle} : ∀ a : Expr, NoFlt a → beq O a a = true := by
  intro a ha
  cases a <;> simp_all [beq, NoFlt]
  · exact beqL_refl _ ha
  · exact beqL_refl _ ha
  · exact ⟨beq_refl _ ha.1, beq_refl _ ha.2⟩
  · exact ⟨beq_refl _ ha.1, beq_refl _ ha.2⟩
  · exact beq_refl _ ha
  · exact beq_refl _ ha
theorem beqL_refl {O : Oracle} : ∀ a : List Expr, NoFltL a → beqL O a a = true := by
  intro a ha
  cases a with
  | nil => simp [beqL]
  | cons x r => simp only [beqL, Bool.and_eq_true]; exact ⟨beq_refl _ ha.1, beqL_refl _ ha.2⟩
end

mutual
theorem DomS.noFlt {s : Bool} {ρ : Str → ℝ} : ∀ {a : Expr}, DomS s ρ a → NoFlt a := by
  intro a h
  cases a <;> simp_all [DomS, NoFlt]
  · exact DomSL.noFlt h
  · exact DomSL.noFlt h
  · exact ⟨h.1.noFlt, h.2.1.noFlt⟩
  · exact ⟨h.1.noFlt, h.2.1.noFlt⟩
  · exact h.1.noFlt
  · exact h.1.noFlt
theorem DomSL.noFlt {s : Bool} {ρ : Str → ℝ} : ∀ {a : List Expr}, DomSL s ρ a → NoFltL a := by
  intro a h
  cases a with
  | nil => simp [NoFltL]
  | cons x r => exact ⟨h.1.noFlt, DomSL.noFlt h.2⟩
end

/-- A numeric constant in the domain is a rational. -/
theorem DomS.isAcc_rat {s : Bool} {ρ : Str → ℝ} {a : Expr} (h : DomS s ρ a) (ha : a.isAcc = true) : ∃ q, a = rat q := by
  cases a <;> simp_all [DomS, isAcc]

/-! ## `pw` -/

theorem pw_of_nonneg {b : ℝ} (hb : 0 ≤ b) (x : ℝ) : pw b x = b ^ x := by
  unfold pw
  rw [dif_neg]
  intro h
  exact absurd h.1 (not_lt.2 hb)

theorem pw_odd {b : ℝ} (hb : b < 0) {q : ℚ} (hq : Odd q.den) :
    pw b q = if Even q.num then |b| ^ (q : ℝ) else -(|b| ^ (q : ℝ)) := by
  unfold pw
  have h : b < 0 ∧ ∃ p : ℚ, (p : ℝ) = q ∧ Odd p.den := ⟨hb, q, rfl, hq⟩
  rw [dif_pos h]
  have : h.2.choose = q := by
    have := h.2.choose_spec.1
    exact_mod_cast this
  rw [this]

theorem pw_int (b : ℝ) (n : ℤ) : pw b n = b ^ n := by
  rcases le_or_gt 0 b with hb | hb
  · rw [pw_of_nonneg hb, Real.rpow_intCast]
  · have := pw_odd hb (q := (n : ℚ)) (by simp)
    have h2 : ((n : ℚ) : ℝ) = (n : ℝ) := by norm_cast
    rw [h2] at this
    rw [this]
    simp only [Rat.num_intCast, Real.rpow_intCast]
    split
    · next h => exact h.zpow_abs b
    · next h =>
      have h' : Odd n := Int.not_even_iff_odd.1 h
      rw [abs_of_neg hb, h'.neg_zpow, neg_neg]

theorem intExp_iff {x : Expr} : intExp x = true ↔ ∃ n : ℤ, x = rat n := by
  cases x <;> simp [intExp]
  constructor
  · intro h; exact ⟨_, (Rat.den_eq_one_iff _).1 h |>.symm⟩
  · rintro ⟨n, rfl⟩; rfl

@[simp] theorem pw_zero (b : ℝ) : pw b 0 = 1 := by simpa using pw_int b 0
@[simp] theorem pw_one (b : ℝ) : pw b 1 = b := by simpa using pw_int b 1
@[simp] theorem pw_neg_one (b : ℝ) : pw b (-1) = b⁻¹ := by
  have := pw_int b (-1)
  simpa using this
@[simp] theorem one_pw (x : ℝ) : pw 1 x = 1 := by rw [pw_of_nonneg zero_le_one, Real.one_rpow]

mutual
theorem HN.nonneg {ρ : Str → ℝ} : ∀ {a : Expr}, HN ρ a → 0 ≤ den ρ a := by
  intro a h
  cases a <;> simp only [HN] at h <;> try exact h
  · split at h
    · simpa [den] using h
    · simpa [den] using HNL.nonneg h
  · have := HN.nonneg h
    simp only [den]
    rw [pw_of_nonneg this]
    exact Real.rpow_nonneg this _
theorem HNL.nonneg {ρ : Str → ℝ} : ∀ {a : List Expr}, HNL ρ a → 0 ≤ denP ρ a := by
  intro a h
  cases a with
  | nil => simp [denP]
  | cons x r => simp only [denP]; exact mul_nonneg h.1.nonneg (HNL.nonneg h.2)
end

mutual
theorem HN.radOk {ρ : Str → ℝ} {x : Expr} : ∀ {a : Expr}, HN ρ a → RadOk ρ x a := by
  intro a h
  cases a <;> simp only [HN, RadOk] at h ⊢ <;> try exact h
  · split
    · next hs => simpa [hs] using h
    · next hs => simp only [hs, Bool.false_eq_true, if_false] at h; exact HNL.radOk h
  · exact .inr h
theorem HNL.radOk {ρ : Str → ℝ} {x : Expr} : ∀ {a : List Expr}, HNL ρ a → RadOkL ρ x a := by
  intro a h
  cases a with
  | nil => simp [RadOkL]
  | cons y r => exact ⟨h.1.radOk, HNL.radOk h.2⟩
end

/-- What a stored power needs is what `PowDom` provides for a base the constructor does not take apart. -/
theorem DomS.pow_of {s : Bool} {ρ : Str → ℝ} {b x : Expr} (h : DomS s ρ (pow b x)) : PowDomS s ρ b x :=
  ⟨h.1, h.2.1, h.2.2.1, fun hx => (h.2.2.2.1 hx).radOk, h.2.2.2.2⟩

end Simpy
