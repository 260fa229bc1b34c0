import Verif.Proofs.Canon
import Verif.Proofs.ExpandSound

/-!
# `numerator_denominator` on the whole real domain, with logarithms
-/

namespace Simpy
open Expr

mutual
/-- No power of a subtraction other than a number has an integer exponent. -/
def NegFree : Expr → Prop
  | sum ts => NegFreeL ts
  | prod ts => NegFreeL ts
  | pow b x => (b.isSubtraction = true → intExp x = true → b.isAcc = true) ∧ NegFree b ∧ NegFree x
  | log i b => NegFree i ∧ NegFree b
  | trig _ i => NegFree i
  | absv i => NegFree i
  | _ => True
def NegFreeL : List Expr → Prop
  | [] => True
  | t :: r => NegFree t ∧ NegFreeL r
end

theorem negFreeL_iff : ∀ {ts : List Expr}, NegFreeL ts ↔ ∀ t ∈ ts, NegFree t
  | [] => by simp [NegFreeL]
  | t :: r => by simp [NegFreeL, negFreeL_iff (ts := r)]

theorem closed_negFree {O : Oracle} : ClosedG O NegFree NegFree where
  acc := by intro c hc; cases c <;> simp_all [isAcc, NegFree]
  sumE := fun h => negFreeL_iff.1 h
  prodE := fun h => negFreeL_iff.1 h
  powE := fun h => h.2
  sumI := fun _ _ ht => negFreeL_iff.2 ht
  prodI := fun _ _ ht => negFreeL_iff.2 ht
  powI := fun _ h hb hx => ⟨h, hb, hx⟩
  x := .inl rfl
  absvE := id
  absvI := id
  log := id
  trig := id

theorem Built.negFree {O : Oracle} {e : Expr} (h : Built O e) : NegFree e := by
  have hQ := closed_negFree (O := O)
  induction h with
  | rat q => trivial
  | flt v => trivial
  | pi => trivial
  | euler => trivial
  | inf => trivial
  | neginf => trivial
  | sym s => trivial
  | any s => trivial
  | sum n _ h ih => exact (ctors_presG hQ n).sum _ _ ih h
  | prod n _ h ih => exact (ctors_presG hQ n).prod _ _ ih h
  | pow n _ _ h ihb ihx => exact (ctors_presG hQ n).pow _ _ _ ihb ihx h
  | abs n _ h ih => exact (ctors_presG hQ n).abs _ _ ih h
  | log _ _ h ihi ihb => exact logCtor_G hQ (fun _ => id) (fun _ _ a b => ⟨a, b⟩) ihi ihb h
  | trig n f _ h ih => exact trigCtor_G hQ n (fun _ h => h) ih h

theorem domRL_iff {ρ : Str → ℝ} : ∀ {ts : List Expr}, DomRL ρ ts ↔ ∀ t ∈ ts, DomR ρ t
  | [] => by simp [DomRL]
  | t :: r => by simp [DomRL, domRL_iff (ts := r)]

theorem mkProdSkip_R {ρ : Str → ℝ} {ts : List Expr} {r : Expr} (h : mkProdSkip ts = .ok r) (hd : ∀ t ∈ ts, DomR ρ t) :
    DomR ρ r ∧ den ρ r = (ts.map (den ρ)).prod := by
  match ts, h with
  | [], h => simp only [mkProdSkip, Except.ok.injEq] at h; subst h; simp [DomR]
  | [t], h =>
    simp only [mkProdSkip] at h
    split at h
    · simp at h
    · simp only [Except.ok.injEq] at h; subst h; exact ⟨hd t (by simp), by simp⟩
  | a :: b :: l, h =>
    simp only [mkProdSkip, Except.ok.injEq] at h; subst h
    exact ⟨domRL_iff.2 hd, den_prod ..⟩

/-- The power with the negated exponent. -/
theorem recip_pow_R {O : Oracle} (hO : O.Exact) {n : Nat} {ρ : Str → ℝ} {b r : Expr} {q : ℚ} (w : WF (pow b (rat q)))
    (hf : NegFree (pow b (rat q))) (hq : q < 0) (hm : q ≠ -1)
    (hd : DomR ρ (pow b (rat q))) (h : (ctors O n).pow b (rat (-q)) = .ok r) :
    DomR ρ r ∧ den ρ r = (den ρ (pow b (rat q)))⁻¹ := by
  obtain ⟨db, -, d3, d4⟩ := hd
  have hb0 : den ρ b ≠ 0 := by
    rcases d3 with h | h
    · exact h
    · simp only [den_rat, Rat.cast_nonneg] at h; exact absurd h (not_le.2 hq)
  have hi : ∀ p : ℚ, intExp (rat p) = true ↔ p.den = 1 := by intro p; simp [intExp]
  have hv : pw (den ρ b) (((-q : ℚ)) : ℝ) = (den ρ (pow b (rat q)))⁻¹ := by
    simp only [den]
    push_cast
    refine pw_inv ?_
    by_cases h1 : q.den = 1
    · exact .inl h1
    · right
      refine d4 ?_
      rw [Bool.eq_false_iff]
      exact fun h2 => h1 ((hi q).1 h2)
  by_cases ha : b.isAcc = true
  · have hnl : containsCls isLog b = false := by cases b <;> simp_all [isAcc, containsCls, isLog]
    have hDb : Dom ρ b := (Dom_iff_DomR w.1 hnl).2 db
    have := (ctors_sound hO n).pow ρ b (rat (-q)) r w.1 (by simp [WF]) ⟨hDb, by simp [DomS], .inl hb0, ?_, by simp⟩ h
    · exact ⟨this.2.domR, by rw [this.1, ← hv]; simp [den]⟩
    · intro h2
      have h3 : 0 ≤ den ρ b := d4 (by
        rw [Bool.eq_false_iff] at h2 ⊢
        intro h4; exact h2 ((hi _).2 (by rw [Rat.den_neg_eq_den]; exact (hi _).1 h4)))
      cases b <;> simp_all [isAcc, RadOk]
  · cases n with
    | zero => exact absurd h (by simp [ctors])
    | succ n =>
    have hr : r = pow b (rat (-q)) := by
      have h : powCtor O (ctors O n) b (rat (-q)) = .ok r := h
      have h0 : beq O (rat (-q)) (rat 0) = false := by simp [beq]; exact hq.ne
      have h1 : beq O (rat (-q)) (rat 1) = false := by
        simp only [beq, beq_eq_false_iff_ne]; intro h2; apply hm; linarith
      have hb1 : beq O b (rat 1) = false := by
        cases b <;> first | exact absurd rfl ha | simp [beq, hO.isPi]
      have ht : powTail O (ctors O n) b (rat (-q)) = .ok r → r = pow b (rat (-q)) := by
        intro h
        have hs : ¬ ((b.isSubtraction && (-q).den == 1) = true) := by
          intro h2
          rw [Bool.and_eq_true] at h2
          exact ha (hf.1 h2.1 (by simpa [intExp] using h2.2))
        simp only [powTail] at h
        rw [if_neg hs] at h
        unfold powInf at h
        have i1 : beq O (rat (-q)) inf = false := by simp [beq]
        have i2 : beq O (rat (-q)) neginf = false := by simp [beq]
        rw [i1, i2] at h
        simp only [Bool.false_eq_true, if_false, ite_self, Except.ok.injEq] at h
        exact h.symm
      unfold powCtor at h
      rw [h0, h1, hb1] at h
      simp only [Bool.false_eq_true, if_false, ha, Bool.false_and] at h
      have wb := w.2.2
      cases b with
      | pow b' x' => simp [baseOk] at wb
      | prod ts =>
        simp only [baseOk] at wb
        simp only [wb, Bool.not_true, Bool.false_eq_true, if_false] at h
        exact ht h
      | _ => exact ht h
    subst hr
    · refine ⟨⟨db, trivial, .inl hb0, fun h2 => d4 ?_⟩, by rw [← hv]; simp [den]⟩
      rw [Bool.eq_false_iff] at h2 ⊢
      intro h4; exact h2 ((hi _).2 (by rw [Rat.den_neg_eq_den]; exact (hi _).1 h4))

theorem numDenTerm_R {O : Oracle} (hO : O.Exact) {n : Nat} {ρ : Str → ℝ} {t : Expr} {p : List Expr × List Expr}
    (wt : WF t) (ft : NegFree t) (dt : DomR ρ t) (h : numDenTerm O (ctors O n) t = .ok p) :
    (∀ u ∈ p.1, DomR ρ u) ∧ (∀ u ∈ p.2, DomR ρ u) ∧ (p.2.map (den ρ)).prod ≠ 0 ∧
      den ρ t * (p.2.map (den ρ)).prod = (p.1.map (den ρ)).prod := by
  have plain : p = ([t], []) → (∀ u ∈ p.1, DomR ρ u) ∧ (∀ u ∈ p.2, DomR ρ u) ∧ (p.2.map (den ρ)).prod ≠ 0 ∧
      den ρ t * (p.2.map (den ρ)).prod = (p.1.map (den ρ)).prod := by
    rintro rfl; simp [dt]
  cases t with
  | pow b x =>
    have h : (if negNum x = true then
        if beq O x (rat (-1)) = true then Except.ok ([], [b])
        else do
          let nx ← opNeg (ctors O n) x
          let p ← (ctors O n).pow b nx
          return ([], [p])
      else Except.ok ([pow b x], [])) = Except.ok p := h
    clear * - hO wt ft dt plain h
    by_cases hneg : negNum x = true
    · rw [if_pos hneg] at h
      have hxr : ∃ q : ℚ, x = rat q ∧ q < 0 := by
        have := dt.2.1
        cases x <;> simp [negNum] at hneg <;> simp [DomR] at this
        exact ⟨_, rfl, hneg⟩
      obtain ⟨q, rfl, hq⟩ := hxr
      have hb0 : den ρ b ≠ 0 := by
        rcases dt.2.2.1 with h | h
        · exact h
        · simp only [den_rat, Rat.cast_nonneg] at h; exact absurd h (not_le.2 hq)
      by_cases hm : beq O (rat q) (rat (-1)) = true
      · rw [if_pos hm] at h
        rw [beq_rat_iff] at hm
        subst hm
        simp only [Except.ok.injEq] at h
        subst h
        refine ⟨by simp, by simpa using dt.1, by simpa using hb0, ?_⟩
        simp [den, hb0]
      · rw [if_neg hm] at h
        obtain ⟨nx, h1, h⟩ := bind_ok.1 h
        obtain ⟨p', h2, h⟩ := bind_ok.1 h
        have := (pure_ok.1 h).symm; subst this
        have hnx : nx = rat (-q) := by simpa [opNeg, eq_comm] using h1
        subst hnx
        obtain ⟨b', c⟩ := recip_pow_R hO wt ft hq (fun h3 => hm (by subst h3; simp [beq])) dt h2
        have hv : den ρ (pow b (rat q)) ≠ 0 := by
          simp only [den]; exact pw_ne_zero (ρ := ρ) (e := rat q) (by simp [den]) dt.2.2.2 hb0
        refine ⟨by simp, by simpa using b', by simp [c, hv], by simp [c, hv]⟩
    · rw [if_neg hneg] at h
      exact plain (by simpa [eq_comm] using h)
  | rat q =>
    obtain ⟨a, b, c, d⟩ := numDenTerm_V hO (st := false) (ρ := ρ) wt (by simp [DomS]) h
    exact ⟨fun u hu => (a u hu).2.domR, fun u hu => (b u hu).2.domR, c, d⟩
  | _ =>
    refine plain ?_
    have hn : ¬ (negNum (rat 1) = true) := by decide +kernel
    unfold numDenTerm at h
    change (if negNum (rat 1) = true then _ else _) = _ at h
    rw [if_neg hn] at h
    simpa [eq_comm] using h

theorem numDenLoop_R {O : Oracle} (hO : O.Exact) {n : Nat} {ρ : Str → ℝ} : ∀ (ts : List Expr) {a b : List Expr},
    (∀ t ∈ ts, WF t ∧ NegFree t ∧ DomR ρ t) → numDenLoop O (ctors O n) ts = .ok (a, b) →
    (∀ u ∈ a, DomR ρ u) ∧ (∀ u ∈ b, DomR ρ u) ∧ (b.map (den ρ)).prod ≠ 0 ∧
      (ts.map (den ρ)).prod * (b.map (den ρ)).prod = (a.map (den ρ)).prod
  | [], a, b, _, h => by
    simp only [numDenLoop, Except.ok.injEq, Prod.mk.injEq] at h
    obtain ⟨rfl, rfl⟩ := h; simp
  | t :: ts, a, b, ht, h => by
    simp only [numDenLoop] at h
    obtain ⟨here, hh, h⟩ := bind_ok.1 h
    obtain ⟨⟨n', d'⟩, hr, h⟩ := bind_ok.1 h
    simp only [pure_ok, Prod.mk.injEq] at h
    obtain ⟨rfl, rfl⟩ := h
    obtain ⟨i1, i2, i3, i4⟩ := numDenLoop_R hO ts (fun u hu => ht u (by simp [hu])) hr
    obtain ⟨w, f, d⟩ := ht t (by simp)
    obtain ⟨j1, j2, j3, j4⟩ := numDenTerm_R hO w f d hh
    refine ⟨?_, ?_, ?_, ?_⟩
    · intro u hu; rcases List.mem_append.1 hu with hu | hu; exacts [j1 u hu, i1 u hu]
    · intro u hu; rcases List.mem_append.1 hu with hu | hu; exacts [j2 u hu, i2 u hu]
    · simp [j3, i3]
    · simp only [List.map_append, List.prod_append, List.map_cons, List.prod_cons]
      rw [← j4, ← i4]; ring

theorem numDen_R {O : Oracle} (hO : O.Exact) {n : Nat} {ρ : Str → ℝ} {ts : List Expr} {a b : Expr}
    (hg : ∀ t ∈ ts, WF t ∧ NegFree t ∧ DomR ρ t) (h : numDen O (ctors O n) ts = .ok (a, b)) :
    DomR ρ a ∧ DomR ρ b ∧ den ρ b ≠ 0 ∧ (ts.map (den ρ)).prod * den ρ b = den ρ a := by
  unfold numDen at h
  obtain ⟨⟨n', d'⟩, hr, h⟩ := bind_ok.1 h
  obtain ⟨ne, h1, h⟩ := bind_ok.1 h
  obtain ⟨de, h2, h⟩ := bind_ok.1 h
  simp only [pure_ok, Prod.mk.injEq] at h
  obtain ⟨rfl, rfl⟩ := h
  obtain ⟨i1, i2, i3, i4⟩ := numDenLoop_R hO ts hg hr
  obtain ⟨d1, v1⟩ := mkProdSkip_R h1 i1
  obtain ⟨d2, v2⟩ := mkProdSkip_R h2 i2
  exact ⟨d1, d2, by rw [v2]; exact i3, by rw [v2, v1]; exact i4⟩

end Simpy
