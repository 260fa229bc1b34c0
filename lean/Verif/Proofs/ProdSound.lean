import Verif.Proofs.SumSound

/-! Soundness of the operators and of `Prod(terms)`, given soundness one stack level down. -/

namespace Simpy
open Expr

/-- What every level of the constructor stack guarantees: well-formed inputs give well-formed results, and
wherever the inputs are defined the result is defined and has the expected value. -/
structure Sound (C : Ctors) : Prop where
  sumW : ∀ ts r, (∀ t ∈ ts, WF t) → C.sum ts = .ok r → WF r
  sum : ∀ {s} ρ ts r, (∀ t ∈ ts, WF t) → (∀ t ∈ ts, DomS s ρ t) → C.sum ts = .ok r →
    den ρ r = (ts.map (den ρ)).sum ∧ DomS s ρ r
  prodW : ∀ ts r, (∀ t ∈ ts, WF t) → C.prod ts = .ok r → WF r
  prod : ∀ {s} ρ ts r, (∀ t ∈ ts, WF t) → (∀ t ∈ ts, DomS s ρ t) → C.prod ts = .ok r →
    den ρ r = (ts.map (den ρ)).prod ∧ DomS s ρ r
  powW : ∀ b x r, WF b → WF x → C.pow b x = .ok r → WF r
  pow : ∀ {s} ρ b x r, WF b → WF x → PowDomS s ρ b x → C.pow b x = .ok r →
    den ρ r = pw (den ρ b) (den ρ x) ∧ DomS s ρ r
  absW : ∀ i r, WF i → C.abs i = .ok r → WF r
  abs : ∀ {s} ρ i r, WF i → DomS s ρ i → (s = true → den ρ i ≠ 0) → C.abs i = .ok r → den ρ r = |den ρ i| ∧ DomS s ρ r

/-- `den`/`Dom` is an interpretation in the sense of `RingInterp`. -/
theorem denInterp (ρ : Str → ℝ) : RingInterp (den ρ) (DomS s ρ) where
  v_rat := fun q => by simp [den]
  v_sum := fun ts => by simp [den, denS_eq]
  v_prod := fun ts => by simp [den, denP_eq]
  D_rat := fun q => by simp [DomS]
  D_sum := fun ts => by simp [DomS, DomSL_iff]
  D_prod := fun ts => by simp [DomS, DomSL_iff]
  D_noFlt := fun a h => h.noFlt
  D_acc := fun a h h' => h.isAcc_rat h'

@[simp] theorem den_rat (ρ : Str → ℝ) (q : ℚ) : den ρ (rat q) = (q : ℝ) := by simp [den]
@[simp] theorem Dom_rat (ρ : Str → ℝ) (q : ℚ) : DomS s ρ (rat q) := by simp [DomS]
@[simp] theorem WF_rat (q : ℚ) : WF (rat q) := by simp [WF]
theorem den_prod (ρ : Str → ℝ) (ts : List Expr) : den ρ (prod ts) = (ts.map (den ρ)).prod := by
  simp [den, denP_eq]
theorem den_sum (ρ : Str → ℝ) (ts : List Expr) : den ρ (sum ts) = (ts.map (den ρ)).sum := by
  simp [den, denS_eq]
theorem Dom_prod {s : Bool} {ρ : Str → ℝ} {ts : List Expr} : DomS s ρ (prod ts) ↔ ∀ t ∈ ts, DomS s ρ t := by
  simp [DomS, DomSL_iff]
theorem Dom_sum {s : Bool} {ρ : Str → ℝ} {ts : List Expr} : DomS s ρ (sum ts) ↔ ∀ t ∈ ts, DomS s ρ t := by
  simp [DomS, DomSL_iff]
theorem WF_sum {ts : List Expr} : WF (sum ts) ↔ ∀ t ∈ ts, WF t := by simp [WF, WFL_iff]
theorem WF_prod {ts : List Expr} : WF (prod ts) ↔ (ts.filter isAcc).length ≤ 1 ∧ ∀ t ∈ ts, WF t := by
  simp [WF, WFL_iff]

section
variable {C : Ctors}

/-- Combined statement used below: `r` is well-formed if the premise `W` holds, and has value `val` and is
defined at every `ρ` satisfying `P`. -/
theorem opAdd_W (hC : Sound C) {a b r : Expr} (ha : WF a) (hb : WF b) (h : opAdd C a b = .ok r) : WF r := by
  unfold opAdd at h
  split at h
  · simp only [Except.ok.injEq] at h; subst h; simp
  · exact hC.sumW _ _ (by simp [ha, hb]) h

theorem opAdd_V (hC : Sound C) {s : Bool} {ρ : Str → ℝ} {a b r : Expr} (ha : WF a) (hb : WF b) (da : DomS s ρ a)
    (db : DomS s ρ b) (h : opAdd C a b = .ok r) : den ρ r = den ρ a + den ρ b ∧ DomS s ρ r := by
  unfold opAdd at h
  split at h
  · simp only [Except.ok.injEq] at h; subst h; simp
  · simpa using hC.sum ρ _ _ (by simp [ha, hb]) (by simp [da, db]) h

theorem opMul_W (hC : Sound C) {a b r : Expr} (ha : WF a) (hb : WF b) (h : opMul C a b = .ok r) : WF r := by
  unfold opMul at h
  split at h
  · simp only [Except.ok.injEq] at h; subst h; simp
  · exact hC.prodW _ _ (by simp [ha, hb]) h

theorem opMul_V (hC : Sound C) {s : Bool} {ρ : Str → ℝ} {a b r : Expr} (ha : WF a) (hb : WF b) (da : DomS s ρ a)
    (db : DomS s ρ b) (h : opMul C a b = .ok r) : den ρ r = den ρ a * den ρ b ∧ DomS s ρ r := by
  unfold opMul at h
  split at h
  · simp only [Except.ok.injEq] at h; subst h; simp
  · simpa using hC.prod ρ _ _ (by simp [ha, hb]) (by simp [da, db]) h

theorem opSub_W (hC : Sound C) {a b r : Expr} (ha : WF a) (hb : WF b) (h : opSub C a b = .ok r) : WF r := by
  unfold opSub at h
  split at h
  · simp only [Except.ok.injEq] at h; subst h; simp
  · obtain ⟨m, hm, h⟩ := bind_ok.1 h
    exact opAdd_W hC ha (opMul_W hC (by simp) hb hm) h

theorem opSub_V (hC : Sound C) {s : Bool} {ρ : Str → ℝ} {a b r : Expr} (ha : WF a) (hb : WF b) (da : DomS s ρ a)
    (db : DomS s ρ b) (h : opSub C a b = .ok r) : den ρ r = den ρ a - den ρ b ∧ DomS s ρ r := by
  unfold opSub at h
  split at h
  · simp only [Except.ok.injEq] at h; subst h; simp
  · obtain ⟨m, hm, h⟩ := bind_ok.1 h
    obtain ⟨v1, d1⟩ := opMul_V hC (by simp) hb (by simp) db hm
    obtain ⟨v2, d2⟩ := opAdd_V hC ha (opMul_W hC (by simp) hb hm) da d1 h
    refine ⟨?_, d2⟩
    rw [v2, v1]; simp; ring

theorem PowDom_neg_one {s : Bool} {ρ : Str → ℝ} {b : Expr} (db : DomS s ρ b) (h : den ρ b ≠ 0) :
    PowDomS s ρ b (rat (-1)) := by
  refine ⟨db, by simp, .inl h, ?_, fun _ => .inl h⟩
  intro h; simp [intExp] at h

theorem PowDom_int {s : Bool} {ρ : Str → ℝ} {b : Expr} {n : ℤ} (db : DomS s ρ b) (h : den ρ b ≠ 0 ∨ 0 ≤ n)
    (hs : s = true → den ρ b ≠ 0 ∨ 1 ≤ n) : PowDomS s ρ b (rat n) := by
  refine ⟨db, by simp, ?_, ?_, ?_⟩
  · rcases h with h | h
    · exact .inl h
    · right; simpa using h
  · intro h; simp [intExp] at h
  · intro h
    rcases hs h with h | h
    · exact .inl h
    · right; refine ⟨by simp [intExp], ?_⟩; simpa using (by exact_mod_cast h : (1 : ℝ) ≤ (n : ℝ))

theorem opDiv_W (hC : Sound C) {a b r : Expr} (ha : WF a) (hb : WF b) (h : opDiv C a b = .ok r) : WF r := by
  have key : ∀ r, (do let i ← C.pow b (rat (-1)); C.prod [a, i]) = Except.ok r → WF r := by
    intro r h
    obtain ⟨i, hi, h⟩ := bind_ok.1 h
    exact hC.prodW _ _ (by simp [ha, hC.powW _ _ _ hb (by simp) hi]) h
  unfold opDiv at h
  split at h
  · split at h
    · simp only [Except.ok.injEq] at h; subst h; simp
    · exact key _ h
  · exact key _ h

theorem opDiv_V (hC : Sound C) {s : Bool} {ρ : Str → ℝ} {a b r : Expr} (ha : WF a) (hb : WF b) (da : DomS s ρ a)
    (db : DomS s ρ b) (hb0 : den ρ b ≠ 0) (h : opDiv C a b = .ok r) :
    den ρ r = den ρ a / den ρ b ∧ DomS s ρ r := by
  have key : ∀ r, (do let i ← C.pow b (rat (-1)); C.prod [a, i]) = Except.ok r →
      den ρ r = den ρ a / den ρ b ∧ DomS s ρ r := by
    intro r h
    obtain ⟨i, hi, h⟩ := bind_ok.1 h
    obtain ⟨v1, d1⟩ := hC.pow ρ _ _ _ hb (by simp) (PowDom_neg_one db hb0) hi
    obtain ⟨v2, d2⟩ := hC.prod (s := s) ρ _ _ (by simp [ha, hC.powW _ _ _ hb (by simp) hi]) (by simp [da, d1]) h
    refine ⟨?_, d2⟩
    rw [v2]; simp [v1, div_eq_mul_inv]
  unfold opDiv at h
  split at h
  · split at h
    · simp only [Except.ok.injEq] at h; subst h; simp
    · exact key _ h
  · exact key _ h

theorem opPow_W {O : Oracle} (hC : Sound C) {a b r : Expr} (ha : WF a) (hb : WF b)
    (h : opPow O C a b = .ok r) : WF r := by
  unfold opPow at h
  split at h
  · split at h
    · obtain ⟨q, _, h⟩ := bind_ok.1 h
      simp only [pure_ok] at h; subst h; simp
    · obtain ⟨_, _, h⟩ := bind_ok.1 h
      exact hC.powW _ _ _ (by simp) (by simp) h
  · exact hC.powW _ _ _ ha hb h

theorem opPow_V {O : Oracle} (hC : Sound C) {s : Bool} {ρ : Str → ℝ} {a b r : Expr} (ha : WF a) (hb : WF b)
    (hd : PowDomS s ρ a b) (h : opPow O C a b = .ok r) : den ρ r = pw (den ρ a) (den ρ b) ∧ DomS s ρ r := by
  unfold opPow at h
  split at h
  · next p q =>
    split at h
    · next hq =>
      obtain ⟨v, hv, h⟩ := bind_ok.1 h
      simp only [pure_ok] at h; subst h
      unfold fracPowInt at hv
      split at hv
      · simp at hv
      · simp only [Except.ok.injEq] at hv; subst hv
        have hq' : q = (q.num : ℚ) := ((Rat.den_eq_one_iff q).1 hq).symm
        have : (q : ℝ) = (q.num : ℝ) := by conv_lhs => rw [hq']; simp
        simp only [den_rat, Dom_rat, and_true, this, pw_int]
        push_cast; rfl
    · obtain ⟨_, _, h⟩ := bind_ok.1 h
      exact hC.pow ρ _ _ _ (by simp) (by simp) hd h
  · exact hC.pow ρ _ _ _ ha hb hd h

theorem neg_one_mul_W (hC : Sound C) {t r : Expr} (ht : WF t) (h : C.prod [rat (-1), t] = .ok r) : WF r :=
  hC.prodW _ _ (by simp [ht]) h

theorem neg_one_mul_V (hC : Sound C) {s : Bool} {ρ : Str → ℝ} {t r : Expr} (ht : WF t) (dt : DomS s ρ t)
    (h : C.prod [rat (-1), t] = .ok r) : den ρ r = -den ρ t ∧ DomS s ρ r := by
  simpa using hC.prod ρ _ _ (by simp [ht]) (by simp [dt]) h

mutual
theorem opNeg_W (hC : Sound C) : ∀ {t r : Expr}, WF t → opNeg C t = .ok r → WF r := by
  intro t r ht h
  cases t with
  | sum ts =>
    simp only [opNeg] at h
    split at h
    · simp at h
    · next ts' hts => exact hC.sumW _ _ (opNegL_W hC ts ((WF_sum).1 ht) hts) h
  | rat q => simp only [opNeg, Except.ok.injEq] at h; subst h; simp
  | flt x => cases x <;> (simp only [opNeg, Except.ok.injEq] at h; subst h; simp [WF])
  | inf => simp only [opNeg, Except.ok.injEq] at h; subst h; simp [WF]
  | neginf => simp only [opNeg, Except.ok.injEq] at h; subst h; simp [WF]
  | _ => exact neg_one_mul_W hC ht (by simpa only [opNeg] using h)
theorem opNegL_W (hC : Sound C) : ∀ (ts : List Expr) {ts' : List Expr}, (∀ t ∈ ts, WF t) →
    opNegL C ts = .ok ts' → ∀ t ∈ ts', WF t := by
  intro ts ts' hts h
  cases ts with
  | nil => simp only [opNegL, Except.ok.injEq] at h; subst h; simp
  | cons t r =>
    simp only [opNegL] at h
    split at h
    · simp at h
    · next t' ht' =>
      split at h
      · simp at h
      · next r' hr' =>
        simp only [Except.ok.injEq] at h; subst h
        intro u hu
        rcases List.mem_cons.1 hu with rfl | hu
        · exact opNeg_W hC (hts t (by simp)) ht'
        · exact opNegL_W hC r (fun t ht => hts t (by simp [ht])) hr' u hu
end

mutual
theorem opNeg_V (hC : Sound C) {s : Bool} {ρ : Str → ℝ} : ∀ {t r : Expr}, WF t → DomS s ρ t → opNeg C t = .ok r →
    den ρ r = -den ρ t ∧ DomS s ρ r := by
  intro t r ht dt h
  cases t with
  | sum ts =>
    simp only [opNeg] at h
    split at h
    · simp at h
    · next ts' hts =>
      obtain ⟨w, d, v⟩ := opNegL_V hC ts ((WF_sum).1 ht) ((Dom_sum).1 dt) hts
      have := hC.sum ρ _ _ w d h
      rw [den_sum, ← v]; exact this
  | rat q => simp only [opNeg, Except.ok.injEq] at h; subst h; simp
  | flt x => simp [DomS] at dt
  | inf => simp [DomS] at dt
  | neginf => simp [DomS] at dt
  | _ => exact neg_one_mul_V hC ht dt (by simpa only [opNeg] using h)
theorem opNegL_V (hC : Sound C) {s : Bool} {ρ : Str → ℝ} : ∀ (ts : List Expr) {ts' : List Expr}, (∀ t ∈ ts, WF t) →
    (∀ t ∈ ts, DomS s ρ t) → opNegL C ts = .ok ts' →
    (∀ t ∈ ts', WF t) ∧ (∀ t ∈ ts', DomS s ρ t) ∧ (ts'.map (den ρ)).sum = -(ts.map (den ρ)).sum := by
  intro ts ts' hts dts h
  cases ts with
  | nil => simp only [opNegL, Except.ok.injEq] at h; subst h; simp
  | cons t r =>
    simp only [opNegL] at h
    split at h
    · simp at h
    · next t' ht' =>
      split at h
      · simp at h
      · next r' hr' =>
        simp only [Except.ok.injEq] at h; subst h
        obtain ⟨v1, d1⟩ := opNeg_V hC (hts t (by simp)) (dts t (by simp)) ht'
        obtain ⟨w2, d2, v2⟩ := opNegL_V hC r (fun t ht => hts t (by simp [ht]))
          (fun t ht => dts t (by simp [ht])) hr'
        refine ⟨?_, ?_, ?_⟩
        · intro u hu
          rcases List.mem_cons.1 hu with rfl | hu
          · exact opNeg_W hC (hts t (by simp)) ht'
          · exact w2 u hu
        · intro u hu
          rcases List.mem_cons.1 hu with rfl | hu
          · exact d1
          · exact d2 u hu
        · simp only [List.map_cons, List.sum_cons, v1, v2]; ring
end

end

/-! ## Like factors -/

/-- The conditions a stored power `b^x` satisfies (also with `x = 1` for any other factor). -/
def StoredPow (s : Bool) (ρ : Str → ℝ) (b x : Expr) : Prop :=
  DomS s ρ b ∧ DomS s ρ x ∧ (den ρ b ≠ 0 ∨ 0 ≤ den ρ x) ∧ (intExp x = false → HN ρ b) ∧
    (s = true → den ρ b ≠ 0 ∨ intExp x = true ∧ 1 ≤ den ρ x)

theorem StoredPow.powDom {s : Bool} {ρ : Str → ℝ} {b x : Expr} (h : StoredPow s ρ b x) : PowDomS s ρ b x :=
  ⟨h.1, h.2.1, h.2.2.1, fun hx => (h.2.2.2.1 hx).radOk, h.2.2.2.2⟩

theorem deconPow_V {s : Bool} {ρ : Str → ℝ} {t : Expr} (h : DomS s ρ t) :
    StoredPow s ρ (deconPow t).1 (deconPow t).2 ∧ den ρ t = pw (den ρ (deconPow t).1) (den ρ (deconPow t).2) := by
  cases t with
  | pow b x => exact ⟨h, by simp [den, deconPow]⟩
  | _ =>
    refine ⟨⟨h, by simp [deconPow], .inr (by simp [deconPow]), ?_, fun _ => .inr (by simp [deconPow, intExp])⟩,
      by simp [deconPow]⟩
    intro h'; simp [deconPow, intExp] at h'

theorem deconPow_W {t : Expr} (h : WF t) : WF (deconPow t).1 ∧ WF (deconPow t).2 := by
  cases t with
  | pow b x => exact ⟨h.1, h.2.1⟩
  | _ => exact ⟨h, by simp [deconPow]⟩

/-- Adding exponents over one base. -/
theorem pw_add {s : Bool} {ρ : Str → ℝ} {b x y z : Expr} (hx : StoredPow s ρ b x) (hy : StoredPow s ρ b y)
    (dz : DomS s ρ z) (hz : den ρ z = den ρ x + den ρ y)
    (hi : intExp x = true → intExp y = true → intExp z = true) :
    StoredPow s ρ b z ∧ pw (den ρ b) (den ρ z) = pw (den ρ b) (den ρ x) * pw (den ρ b) (den ρ y) := by
  have hdom : den ρ b ≠ 0 ∨ 0 ≤ den ρ z := by
    by_cases hb : den ρ b = 0
    · right
      have h1 := hx.2.2.1.resolve_left (by simpa using hb)
      have h2 := hy.2.2.1.resolve_left (by simpa using hb)
      rw [hz]; linarith
    · exact .inl hb
  have hstr : s = true → den ρ b ≠ 0 ∨ intExp z = true ∧ 1 ≤ den ρ z := by
    intro hs
    by_cases hb : den ρ b = 0
    · right
      have h1 := (hx.2.2.2.2 hs).resolve_left (by simpa using hb)
      have h2 := (hy.2.2.2.2 hs).resolve_left (by simpa using hb)
      exact ⟨hi h1.1 h2.1, by rw [hz]; linarith [h1.2, h2.2]⟩
    · exact .inl hb
  have nonint : HN ρ b → StoredPow s ρ b z ∧
      pw (den ρ b) (den ρ z) = pw (den ρ b) (den ρ x) * pw (den ρ b) (den ρ y) := by
    intro hn
    have hb := hn.nonneg
    refine ⟨⟨hx.1, dz, hdom, fun _ => hn, hstr⟩, ?_⟩
    rw [pw_of_nonneg hb, pw_of_nonneg hb, pw_of_nonneg hb, hz]
    rcases hb.lt_or_eq with hb' | hb'
    · exact Real.rpow_add hb' _ _
    · have h1 := hx.2.2.1.resolve_left (by simpa using hb'.symm)
      have h2 := hy.2.2.1.resolve_left (by simpa using hb'.symm)
      exact Real.rpow_add_of_nonneg hb h1 h2
  cases hxi : intExp x with
  | false => exact nonint (hx.2.2.2.1 hxi)
  | true =>
    cases hyi : intExp y with
    | false => exact nonint (hy.2.2.2.1 hyi)
    | true =>
      have hzi := hi hxi hyi
      refine ⟨⟨hx.1, dz, hdom, (fun h => by simp [hzi] at h), hstr⟩, ?_⟩
      obtain ⟨n, rfl⟩ := intExp_iff.1 hxi
      obtain ⟨m, rfl⟩ := intExp_iff.1 hyi
      have h1 : den ρ z = ((n + m : ℤ) : ℝ) := by rw [hz]; simp
      have h2 : den ρ (rat n) = ((n : ℤ) : ℝ) := by simp
      have h3 : den ρ (rat m) = ((m : ℤ) : ℝ) := by simp
      rw [h1, h2, h3, pw_int, pw_int, pw_int]
      by_cases hb : den ρ b = 0
      · have h1 := hx.2.2.1.resolve_left (by simpa using hb)
        have h2 := hy.2.2.1.resolve_left (by simpa using hb)
        simp only [den_rat, Rat.cast_intCast] at h1 h2
        have hn0 : 0 ≤ n := by exact_mod_cast h1
        have hm0 : 0 ≤ m := by exact_mod_cast h2
        clear hz h1 h2 h3
        obtain ⟨n, rfl⟩ := Int.eq_ofNat_of_zero_le hn0
        obtain ⟨m, rfl⟩ := Int.eq_ofNat_of_zero_le hm0
        rw [← Int.natCast_add, zpow_natCast, zpow_natCast, zpow_natCast, pow_add]
      · exact zpow_add₀ hb n m

theorem opAdd_intExp {C : Ctors} {a b r : Expr} (h : opAdd C a b = .ok r) (ha : intExp a = true)
    (hb : intExp b = true) : intExp r = true := by
  obtain ⟨n, rfl⟩ := intExp_iff.1 ha
  obtain ⟨m, rfl⟩ := intExp_iff.1 hb
  simp only [opAdd, Except.ok.injEq] at h
  exact intExp_iff.2 ⟨n + m, by rw [← h]; simp⟩

theorem foldAdd_V {C : Ctors} (hC : Sound C) {s : Bool} {ρ : Str → ℝ} {b : Expr} : ∀ (xs : List Expr) (x z : Expr),
    WF x → (∀ y ∈ xs, WF y) → StoredPow s ρ b x → (∀ y ∈ xs, StoredPow s ρ b y) → foldAdd C x xs = .ok z →
    StoredPow s ρ b z ∧
      pw (den ρ b) (den ρ z) = pw (den ρ b) (den ρ x) * (xs.map (fun y => pw (den ρ b) (den ρ y))).prod
  | [], x, z, _, _, hx, _, h => by
    simp only [foldAdd, Except.ok.injEq] at h; subst h; exact ⟨hx, by simp⟩
  | y :: r, x, z, wx, wy, hx, hy, h => by
    simp only [foldAdd] at h
    split at h
    · simp at h
    · next a ha =>
      have wy' := wy y (by simp)
      have hy' := hy y (by simp)
      obtain ⟨v1, d1⟩ := opAdd_V hC wx wy' hx.2.1 hy'.2.1 ha
      obtain ⟨s1, p1⟩ := pw_add hx hy' d1 v1 (opAdd_intExp ha)
      obtain ⟨s2, p2⟩ := foldAdd_V hC r a z (opAdd_W hC wx wy' ha) (fun u hu => wy u (by simp [hu])) s1
        (fun u hu => hy u (by simp [hu])) h
      refine ⟨s2, ?_⟩
      rw [p2, p1]; simp [mul_assoc]

theorem foldAdd_W {C : Ctors} (hC : Sound C) : ∀ (xs : List Expr) (x z : Expr),
    WF x → (∀ y ∈ xs, WF y) → foldAdd C x xs = .ok z → WF z
  | [], x, z, wx, _, h => by
    simp only [foldAdd, Except.ok.injEq] at h; subst h; exact wx
  | y :: r, x, z, wx, wy, h => by
    simp only [foldAdd] at h
    split at h
    · simp at h
    · next a ha =>
      exact foldAdd_W hC r a z (opAdd_W hC wx (wy y (by simp)) ha) (fun u hu => wy u (by simp [hu])) h

theorem Exact.beq_eq {O : Oracle} (hO : O.Exact) {s : Bool} {ρ : Str → ℝ} {a b : Expr} (ha : DomS s ρ a) (hb : DomS s ρ b)
    (h : beq O a b = true) : a = b :=
  Simpy.beq_eq hO.isPi hO.isE a b ha.noFlt hb.noFlt h

theorem likeFactor_W {O : Oracle} {C : Ctors} (hC : Sound C) {b z : Expr} {o : Option Expr} (wb : WF b)
    (wz : WF z) (h : likeFactor O C b z = .ok o) : ∀ t ∈ o.toList, WF t := by
  unfold likeFactor at h
  split at h
  · simp only [Except.ok.injEq] at h; subst h; simp
  · split at h
    · simp only [Except.ok.injEq] at h; subst h; simpa using wb
    · split at h
      · simp at h
      · next t ht => simp only [Except.ok.injEq] at h; subst h; simpa using hC.powW _ _ _ wb wz ht

theorem likeFactor_V {O : Oracle} (hO : O.Exact) {C : Ctors} (hC : Sound C) {s : Bool} {ρ : Str → ℝ} {b z : Expr}
    {o : Option Expr} (wb : WF b) (wz : WF z) (hz : StoredPow s ρ b z) (h : likeFactor O C b z = .ok o) :
    (o.toList.map (den ρ)).prod = pw (den ρ b) (den ρ z) ∧ ∀ t ∈ o.toList, DomS s ρ t := by
  unfold likeFactor at h
  split at h
  · next h0 =>
    have := Exact.beq_eq hO hz.2.1 (Dom_rat ρ 0) h0
    simp only [Except.ok.injEq] at h; subst h this; simp
  · split at h
    · next h1 =>
      have := Exact.beq_eq hO hz.2.1 (Dom_rat ρ 1) h1
      simp only [Except.ok.injEq] at h; subst h this; simpa using hz.1
    · split at h
      · simp at h
      · next t ht =>
        simp only [Except.ok.injEq] at h; subst h
        simpa using hC.pow ρ _ _ _ wb wz hz.powDom ht

theorem combineProdLoop_W {O : Oracle} {C : Ctors} (hC : Sound C) : ∀ (n : Nat) (ts nc cs : List Expr),
    (∀ t ∈ ts, WF t) → combineProdLoop O C n ts = .ok (nc, cs) →
    (∀ t ∈ nc, WF t ∧ t.isAcc = false) ∧ (∀ c ∈ cs, c.isAcc = true)
  | 0, ts, nc, cs, _, h => by
    simp only [combineProdLoop, Except.ok.injEq, Prod.mk.injEq] at h
    simp [← h.1, ← h.2]
  | n + 1, [], nc, cs, _, h => by
    simp only [combineProdLoop, Except.ok.injEq, Prod.mk.injEq] at h
    simp [← h.1, ← h.2]
  | n + 1, t :: r, nc, cs, hW, h => by
    have hWr : ∀ t ∈ r, WF t := fun t ht => hW t (by simp [ht])
    have hWt := hW t (by simp)
    have hWf : ∀ u ∈ r.filter (fun u => !beq O (deconPow u).1 (deconPow t).1), WF u :=
      fun u hu => hWr u (List.mem_filter.1 hu).1
    have add : ∀ (u : Expr) (nc' cs' : List Expr), WF u →
        ((∀ t ∈ nc', WF t ∧ t.isAcc = false) ∧ (∀ c ∈ cs', c.isAcc = true)) →
        (if u.isAcc then (pure (nc', u :: cs') : R _) else pure (u :: nc', cs')) = .ok (nc, cs) →
        (∀ t ∈ nc, WF t ∧ t.isAcc = false) ∧ (∀ c ∈ cs, c.isAcc = true) := by
      intro u nc' cs' hu ih h
      split at h
      · next hacc =>
        simp only [pure_ok, Prod.mk.injEq] at h; rw [← h.1, ← h.2]
        refine ⟨ih.1, ?_⟩
        intro c hc
        rcases List.mem_cons.1 hc with rfl | hc
        · exact hacc
        · exact ih.2 c hc
      · next hacc =>
        simp only [pure_ok, Prod.mk.injEq] at h; rw [← h.1, ← h.2]
        refine ⟨?_, ih.2⟩
        intro c hc
        rcases List.mem_cons.1 hc with rfl | hc
        · exact ⟨hu, by simpa using hacc⟩
        · exact ih.1 c hc
    simp only [combineProdLoop] at h
    split at h
    · obtain ⟨⟨nc', cs'⟩, h', h⟩ := bind_ok.1 h
      exact add t nc' cs' hWt (combineProdLoop_W hC n _ nc' cs' hWf h') h
    · obtain ⟨z, hz, h⟩ := bind_ok.1 h
      obtain ⟨o, ho, h⟩ := bind_ok.1 h
      obtain ⟨⟨nc', cs'⟩, h', h⟩ := bind_ok.1 h
      have ih := combineProdLoop_W hC n _ nc' cs' hWf h'
      have wz : WF z := by
        refine foldAdd_W hC _ _ z (deconPow_W hWt).2 ?_ hz
        intro y hy
        simp only [List.mem_map] at hy
        obtain ⟨u, hu, rfl⟩ := hy
        exact (deconPow_W (hWr u (List.mem_filter.1 hu).1)).2
      have wo := likeFactor_W hC (deconPow_W hWt).1 wz ho
      cases o with
      | none => simp only [pure_ok, Prod.mk.injEq] at h; rw [← h.1, ← h.2]; exact ih
      | some u => exact add u nc' cs' (wo u (by simp)) ih h

theorem combineProdLoop_V {O : Oracle} (hO : O.Exact) {C : Ctors} (hC : Sound C) {s : Bool} {ρ : Str → ℝ} :
    ∀ (n : Nat) (ts nc cs : List Expr), ts.length ≤ n →
    (∀ t ∈ ts, WF t) → (∀ t ∈ ts, DomS s ρ t) → combineProdLoop O C n ts = .ok (nc, cs) →
    (nc.map (den ρ)).prod * (cs.map (den ρ)).prod = (ts.map (den ρ)).prod ∧ (∀ t ∈ nc, DomS s ρ t) ∧
      (∀ c ∈ cs, DomS s ρ c)
  | 0, ts, nc, cs, hl, _, _, h => by
    have : ts = [] := List.length_eq_zero_iff.1 (Nat.le_zero.1 hl)
    simp only [combineProdLoop, Except.ok.injEq, Prod.mk.injEq] at h
    simp [this, ← h.1, ← h.2]
  | n + 1, [], nc, cs, _, _, _, h => by
    simp only [combineProdLoop, Except.ok.injEq, Prod.mk.injEq] at h
    simp [← h.1, ← h.2]
  | n + 1, t :: r, nc, cs, hl, hW, hD, h => by
    have hlr : r.length ≤ n := by simpa using hl
    have hWr : ∀ t ∈ r, WF t := fun t ht => hW t (by simp [ht])
    have hWt := hW t (by simp)
    have hDr : ∀ t ∈ r, DomS s ρ t := fun t ht => hD t (by simp [ht])
    have hDt := hD t (by simp)
    simp only [combineProdLoop] at h
    generalize hp : (fun u => beq O (deconPow u).1 (deconPow t).1) = p at h
    have hp' : (fun u => !beq O (deconPow u).1 (deconPow t).1) = fun u => !p u := by rw [← hp]
    rw [hp'] at h
    have hlf : (r.filter (fun u => !p u)).length ≤ n := (List.length_filter_le _ _).trans hlr
    have hWf : ∀ u ∈ r.filter (fun u => !p u), WF u := fun u hu => hWr u (List.mem_filter.1 hu).1
    have hDf : ∀ u ∈ r.filter (fun u => !p u), DomS s ρ u := fun u hu => hDr u (List.mem_filter.1 hu).1
    have hsplit := prod_map_split (den ρ) p r
    have add : ∀ (u : Expr) (nc' cs' : List Expr), DomS s ρ u →
        ((∀ t ∈ nc', DomS s ρ t) ∧ (∀ c ∈ cs', DomS s ρ c)) →
        (if u.isAcc then (pure (nc', u :: cs') : R _) else pure (u :: nc', cs')) = .ok (nc, cs) →
        ((nc.map (den ρ)).prod * (cs.map (den ρ)).prod =
          den ρ u * ((nc'.map (den ρ)).prod * (cs'.map (den ρ)).prod)) ∧
        (∀ t ∈ nc, DomS s ρ t) ∧ (∀ c ∈ cs, DomS s ρ c) := by
      intro u nc' cs' hu ih h
      split at h
      · simp only [pure_ok, Prod.mk.injEq] at h; rw [← h.1, ← h.2]
        refine ⟨by simp only [List.map_cons, List.prod_cons]; ring, ih.1, ?_⟩
        intro c hc
        rcases List.mem_cons.1 hc with rfl | hc
        · exact hu
        · exact ih.2 c hc
      · simp only [pure_ok, Prod.mk.injEq] at h; rw [← h.1, ← h.2]
        refine ⟨by simp only [List.map_cons, List.prod_cons]; ring, ?_, ih.2⟩
        intro c hc
        rcases List.mem_cons.1 hc with rfl | hc
        · exact hu
        · exact ih.1 c hc
    split at h
    · next hemp =>
      obtain ⟨⟨nc', cs'⟩, h', h⟩ := bind_ok.1 h
      obtain ⟨e1, e2⟩ := combineProdLoop_V hO hC n _ nc' cs' hlf hWf hDf h'
      have hemp' : r.filter p = [] := by simpa using hemp
      rw [hemp'] at hsplit
      obtain ⟨a1, a2⟩ := add t nc' cs' hDt e2 h
      refine ⟨?_, a2⟩
      rw [a1, e1]; simp only [List.map_cons, List.prod_cons, hsplit]; simp
    · obtain ⟨z, hz, h⟩ := bind_ok.1 h
      obtain ⟨o, ho, h⟩ := bind_ok.1 h
      obtain ⟨⟨nc', cs'⟩, h', h⟩ := bind_ok.1 h
      obtain ⟨e1, e2⟩ := combineProdLoop_V hO hC n _ nc' cs' hlf hWf hDf h'
      obtain ⟨st, vt⟩ := deconPow_V hDt
      have hhit : ∀ u ∈ r.filter p, (deconPow u).1 = (deconPow t).1 := by
        intro u hu
        obtain ⟨hu, hpu⟩ := List.mem_filter.1 hu
        have hb : beq O (deconPow u).1 (deconPow t).1 = true := by rw [← hp] at hpu; exact hpu
        exact Exact.beq_eq hO (deconPow_V (hDr u hu)).1.1 st.1 hb
      have wxs : ∀ y ∈ (r.filter p).map (fun u => (deconPow u).2), WF y := by
        intro y hy
        simp only [List.mem_map] at hy
        obtain ⟨u, hu, rfl⟩ := hy
        exact (deconPow_W (hWr u (List.mem_filter.1 hu).1)).2
      have sxs : ∀ y ∈ (r.filter p).map (fun u => (deconPow u).2), StoredPow s ρ (deconPow t).1 y := by
        intro y hy
        simp only [List.mem_map] at hy
        obtain ⟨u, hu, rfl⟩ := hy
        have := (deconPow_V (hDr u (List.mem_filter.1 hu).1)).1
        rwa [hhit u hu] at this
      obtain ⟨sz, vz⟩ := foldAdd_V hC _ _ z (deconPow_W hWt).2 wxs st sxs hz
      have wz := foldAdd_W hC _ _ z (deconPow_W hWt).2 wxs hz
      obtain ⟨vo, dO⟩ := likeFactor_V hO hC (deconPow_W hWt).1 wz sz ho
      have hmap : ((r.filter p).map (fun u => (deconPow u).2)).map
          (fun y => pw (den ρ (deconPow t).1) (den ρ y)) = (r.filter p).map (den ρ) := by
        rw [List.map_map]
        apply List.map_congr_left
        intro u hu
        have := (deconPow_V (hDr u (List.mem_filter.1 hu).1)).2
        rw [this, hhit u hu]; rfl
      rw [hmap, ← vt, ← vo] at vz
      cases o with
      | none =>
        simp only [pure_ok, Prod.mk.injEq] at h; rw [← h.1, ← h.2]
        refine ⟨?_, e2⟩
        simp only [Option.toList_none, List.map_nil, List.prod_nil] at vz vo
        rw [e1, List.map_cons, List.prod_cons, hsplit, ← mul_assoc, ← vz, one_mul]
      | some u =>
        obtain ⟨a1, a2⟩ := add u nc' cs' (dO u (by simp)) e2 h
        refine ⟨?_, a2⟩
        simp only [Option.toList_some, List.map_cons, List.map_nil, List.prod_cons, List.prod_nil,
          mul_one] at vz vo
        rw [a1, e1, List.map_cons, List.prod_cons, hsplit, ← mul_assoc (den ρ t), ← vz, vo]

mutual
theorem flatP_val {s : Bool} {ρ : Str → ℝ} : ∀ t : Expr,
    ((flatP t).map (den ρ)).prod = den ρ t ∧ (DomS s ρ t → ∀ u ∈ flatP t, DomS s ρ u) := by
  intro t
  cases t with
  | prod ts => simp only [flatP, den_prod, Dom_prod]; exact flatPL_val ts
  | _ => simp [flatP]
theorem flatPL_val {s : Bool} {ρ : Str → ℝ} : ∀ ts : List Expr,
    ((flatPL ts).map (den ρ)).prod = (ts.map (den ρ)).prod ∧
      ((∀ t ∈ ts, DomS s ρ t) → ∀ u ∈ flatPL ts, DomS s ρ u)
  | [] => by simp [flatPL]
  | t :: r => by
    have ih1 := flatP_val (s := s) (ρ := ρ) t
    have ih2 := flatPL_val (s := s) (ρ := ρ) r
    simp only [flatPL, List.map_append, List.prod_append, List.map_cons, List.prod_cons, List.mem_append,
      List.mem_cons]
    refine ⟨by rw [ih1.1, ih2.1], ?_⟩
    intro h u hu
    rcases hu with hu | hu
    · exact ih1.2 (h t (.inl rfl)) u hu
    · exact ih2.2 (fun t ht => h t (.inr ht)) u hu
end

mutual
theorem flatP_WF : ∀ t : Expr, WF t → ∀ u ∈ flatP t, WF u := by
  intro t hW u hu
  cases t with
  | prod ts => simp only [flatP] at hu; exact flatPL_WF ts hW.2 u hu
  | _ => simp only [flatP, List.mem_singleton] at hu; subst hu; exact hW
theorem flatPL_WF : ∀ ts : List Expr, WFL ts → ∀ u ∈ flatPL ts, WF u := by
  intro ts hW u hu
  cases ts with
  | nil => simp [flatPL] at hu
  | cons t r =>
    simp only [flatPL, List.mem_append] at hu
    rcases hu with hu | hu
    · exact flatP_WF t hW.1 u hu
    · exact flatPL_WF r hW.2 u hu
end

theorem combineProd_W {O : Oracle} {C : Ctors} (hC : Sound C) {ts fs : List Expr} (hW : ∀ t ∈ ts, WF t)
    (h : combineProd O C ts = .ok fs) : (∀ t ∈ fs, WF t) ∧ (fs.filter isAcc).length ≤ 1 := by
  simp only [combineProd, bind_ok] at h
  obtain ⟨⟨nc, cs⟩, h', h⟩ := h
  obtain ⟨e2, e3⟩ := combineProdLoop_W hC _ _ nc cs hW h'
  have hnil : nc.filter isAcc = [] := filter_isAcc_nil fun c hc => (e2 c hc).2
  dsimp only at h
  split at h
  · simp only [pure_ok] at h; subst h; exact ⟨fun t ht => (e2 t ht).1, by simp [hnil]⟩
  · obtain ⟨c, hc, h⟩ := bind_ok.1 h
    have hacc := accumulateProd_isAcc e3 hc
    split at h
    · simp only [pure_ok] at h; subst h
      exact ⟨by simp [isAcc_WF hacc], by simp [hacc]⟩
    · split at h
      · simp only [pure_ok] at h; subst h; exact ⟨fun t ht => (e2 t ht).1, by simp [hnil]⟩
      · simp only [pure_ok] at h; subst h
        refine ⟨?_, by simp [List.filter_append, hnil, hacc]⟩
        intro t ht
        rcases List.mem_append.1 ht with ht | ht
        · exact (e2 t ht).1
        · simp only [List.mem_singleton] at ht; subst ht; exact isAcc_WF hacc

theorem combineProd_V {O : Oracle} (hO : O.Exact) {C : Ctors} (hC : Sound C) {s : Bool} {ρ : Str → ℝ}
    {ts fs : List Expr} (hW : ∀ t ∈ ts, WF t) (hD : ∀ t ∈ ts, DomS s ρ t)
    (h : combineProd O C ts = .ok fs) :
    (fs.map (den ρ)).prod = (ts.map (den ρ)).prod ∧ (∀ t ∈ fs, DomS s ρ t) := by
  simp only [combineProd, bind_ok] at h
  obtain ⟨⟨nc, cs⟩, h', h⟩ := h
  obtain ⟨_, w3⟩ := combineProdLoop_W hC _ _ nc cs hW h'
  obtain ⟨e1, e2, e3⟩ := combineProdLoop_V hO hC _ _ nc cs le_rfl hW hD h'
  dsimp only at h
  split at h
  · next hemp =>
    simp only [pure_ok] at h; subst h
    have : cs = [] := by simpa using hemp
    subst this
    exact ⟨by simpa using e1, e2⟩
  · obtain ⟨qs, rfl⟩ := all_rat (denInterp (s := s) ρ) e3 w3
    rw [accumulateProd_rat] at h
    rw [map_rat_prod (denInterp (s := s) ρ)] at e1
    simp only [bind_ok, Except.ok.injEq, exists_eq_left', beq_rat_iff] at h
    split at h
    · next h0 =>
      simp only [pure_ok] at h; subst h
      rw [h0] at e1 ⊢
      refine ⟨by rw [← e1]; simp, by simp⟩
    · split at h
      · next h1 => simp only [pure_ok] at h; subst h; rw [h1] at e1; exact ⟨by simpa using e1, e2⟩
      · simp only [pure_ok] at h; subst h
        refine ⟨by simpa using e1, ?_⟩
        intro t ht
        rcases List.mem_append.1 ht with ht | ht
        · exact e2 t ht
        · simp only [List.mem_singleton] at ht; subst ht; simp

theorem prodCtor_W {O : Oracle} {C : Ctors} (hC : Sound C) {ts : List Expr} {r : Expr}
    (hW : ∀ t ∈ ts, WF t) (h : prodCtor O C ts = .ok r) : WF r := by
  simp only [prodCtor, bind_ok] at h
  obtain ⟨fs, hf, h⟩ := h
  obtain ⟨w1, w2⟩ := combineProd_W hC (flatPL_WF ts ((WFL_iff ts).2 hW)) hf
  match fs, h with
  | [], h => simp only [pure_ok] at h; subst h; simp
  | [t], h => simp only [pure_ok] at h; subst h; exact w1 t (by simp)
  | a :: b :: fs, h =>
    obtain ⟨s, hs, h⟩ := bind_ok.1 h
    have hp := sortTerms_perm hs
    have hWs : WF (prod s) := by
      rw [WF_prod]
      exact ⟨by rw [(hp.filter _).length_eq]; exact w2, fun t ht => w1 t (hp.mem_iff.1 ht)⟩
    split at h
    · next c us =>
      split at h
      · refine opNeg_W hC ?_ h
        exact ((WF_prod).1 hWs).2 _ (by simp)
      · simp only [pure_ok] at h; subst h; exact hWs
    · simp only [pure_ok] at h; subst h; exact hWs

theorem prodCtor_V {O : Oracle} (hO : O.Exact) {C : Ctors} (hC : Sound C) {s : Bool} {ρ : Str → ℝ} {ts : List Expr}
    {r : Expr} (hW : ∀ t ∈ ts, WF t) (hD : ∀ t ∈ ts, DomS s ρ t) (h : prodCtor O C ts = .ok r) :
    den ρ r = (ts.map (den ρ)).prod ∧ DomS s ρ r := by
  simp only [prodCtor, bind_ok] at h
  obtain ⟨fs, hf, h⟩ := h
  obtain ⟨fv, fd⟩ := flatPL_val (s := s) (ρ := ρ) ts
  have hWf := flatPL_WF ts ((WFL_iff ts).2 hW)
  obtain ⟨w1, w2⟩ := combineProd_W hC hWf hf
  obtain ⟨cv, cd⟩ := combineProd_V hO hC hWf (fd hD) hf
  rw [← fv, ← cv]
  match fs, h with
  | [], h => simp only [pure_ok] at h; subst h; simp
  | [t], h => simp only [pure_ok] at h; subst h; exact ⟨by simp, cd t (by simp)⟩
  | a :: b :: fs, h =>
    obtain ⟨ss, hs, h⟩ := bind_ok.1 h
    have hp := sortTerms_perm hs
    have hres : den ρ (prod ss) = ((a :: b :: fs).map (den ρ)).prod ∧ DomS s ρ (prod ss) := by
      rw [den_prod, Dom_prod]
      exact ⟨(hp.map _).prod_eq, fun t ht => cd t (hp.mem_iff.1 ht)⟩
    split at h
    · next c us =>
      split at h
      · next hc =>
        have hds := (Dom_prod).1 hres.2
        have := Exact.beq_eq hO (hds c (by simp)) (Dom_rat ρ (-1)) hc
        subst this
        have hw : WF (Expr.sum us) := w1 _ (hp.mem_iff.1 (by simp))
        obtain ⟨v, d⟩ := opNeg_V hC hw (hds _ (by simp)) h
        refine ⟨?_, d⟩
        rw [v, ← hres.1, den_prod]; simp
      · simp only [pure_ok] at h; subst h; exact hres
    · simp only [pure_ok] at h; subst h; exact hres

end Simpy
