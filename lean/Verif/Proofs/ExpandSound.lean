import Verif.Model.Calculus
import Verif.Proofs.AdmExpand
import Verif.Proofs.DiffSound
import Verif.Props.Comb

/-! `numerator_denominator` and `expand` preserve the value. -/

namespace Simpy
open Expr

variable {O : Oracle}

/-- `a^(-x) = 1 / a^x` for the powers that occur: integer exponents, or non-negative base. -/
theorem pw_neg' {b x : ℝ} {e : Expr} {ρ : Str → ℝ} (hx : x = den ρ e) (h : intExp e = false → 0 ≤ b) :
    pw b (-x) = (pw b x)⁻¹ := by
  cases hi : intExp e with
  | true =>
    obtain ⟨k, rfl⟩ := intExp_iff.1 hi
    subst hx
    simp only [den_rat]
    exact pw_inv (.inl (by simp))
  | false =>
    rw [pw_of_nonneg (h hi), pw_of_nonneg (h hi), Real.rpow_neg (h hi)]

theorem pw_ne_zero {b x : ℝ} {e : Expr} {ρ : Str → ℝ} (hx : x = den ρ e) (h : intExp e = false → 0 ≤ b) (hb : b ≠ 0) :
    pw b x ≠ 0 := by
  cases hi : intExp e with
  | true =>
    obtain ⟨k, rfl⟩ := intExp_iff.1 hi
    subst hx
    simp only [den_rat, Rat.cast_intCast]
    rw [pw_int]; exact zpow_ne_zero _ hb
  | false =>
    rw [pw_of_nonneg (h hi)]; exact (Real.rpow_pos_of_pos ((h hi).lt_of_ne' hb) x).ne'

theorem opNeg_intExp {C : Ctors} (hC : Sound C) {st : Bool} {ρ : Str → ℝ} {x nx : Expr} (h : opNeg C x = .ok nx)
    (hi : intExp x = true) : intExp nx = true := by
  obtain ⟨k, rfl⟩ := intExp_iff.1 hi
  simp only [opNeg, Except.ok.injEq] at h
  subst h
  simp [intExp]

/-- The reciprocal of a power is the power with the negated exponent. -/
theorem recip_pow_V (hO : O.Exact) {n : Nat} {st : Bool} {ρ : Str → ℝ} {b x nx r : Expr} (wb : WF b) (wx : WF x)
    (hd : DomS st ρ (pow b x)) (hb : den ρ b ≠ 0 ∨ den ρ x = 0 ∧ st = false) (h1 : opNeg (ctors O n) x = .ok nx)
    (h : (ctors O n).pow b nx = .ok r) : WF r ∧ DomS st ρ r ∧ den ρ r = (den ρ (pow b x))⁻¹ := by
  have hC := ctors_sound hO n
  obtain ⟨db, dx, d3, d4, d5⟩ := hd
  obtain ⟨v1, d1⟩ := opNeg_V hC wx dx h1
  have w1 := opNeg_W hC wx h1
  have hnn : intExp x = false → 0 ≤ den ρ b := fun hi => (d4 hi).nonneg
  have hpd : PowDomS st ρ b nx := by
    refine ⟨db, d1, ?_, ?_, ?_⟩
    · rcases hb with hb | hb
      · exact .inl hb
      · right; rw [v1, hb.1]; simp
    · intro hi
      refine (d4 ?_).radOk
      cases hx : intExp x with
      | false => rfl
      | true => rw [opNeg_intExp hC (st := st) (ρ := ρ) h1 hx] at hi; simp at hi
    · intro hs
      rcases hb with hb | hb
      · exact .inl hb
      · rw [hb.2] at hs; simp at hs
  obtain ⟨v2, d2⟩ := hC.pow ρ b nx r wb w1 hpd h
  refine ⟨hC.powW b nx r wb w1 h, d2, ?_⟩
  rw [v2, v1]
  simp only [den]
  exact pw_neg' rfl hnn

theorem recip_V (hO : O.Exact) {n : Nat} {st : Bool} {ρ : Str → ℝ} {t r : Expr} (wt : WF t)
    (hd : DomS st ρ t) (h0 : den ρ t ≠ 0) (h : (ctors O n).pow t (rat (-1)) = .ok r) :
    WF r ∧ DomS st ρ r ∧ den ρ r = (den ρ t)⁻¹ := by
  have hC := ctors_sound hO n
  have hpd : PowDomS st ρ t (rat ((-1 : ℤ) : ℚ)) := PowDom_int hd (.inl h0) (fun _ => .inl h0)
  have e : rat ((-1 : ℤ) : ℚ) = rat (-1) := by norm_num
  rw [e] at hpd
  obtain ⟨v2, d2⟩ := hC.pow ρ t (rat (-1)) r wt (by simp) hpd h
  refine ⟨hC.powW _ _ _ wt (by simp) h, d2, ?_⟩
  rw [v2]; simp

/-! ### numerator and denominator -/

/-- All elements are well-formed and defined. -/
def Good (st : Bool) (ρ : Str → ℝ) (ts : List Expr) : Prop := ∀ t ∈ ts, WF t ∧ DomS st ρ t

theorem numDenTerm_V (hO : O.Exact) {n : Nat} {st : Bool} {ρ : Str → ℝ} {t : Expr} {p : List Expr × List Expr}
    (wt : WF t) (dt : DomS st ρ t) (h : numDenTerm O (ctors O n) t = .ok p) :
    Good st ρ p.1 ∧ Good st ρ p.2 ∧ (p.2.map (den ρ)).prod ≠ 0 ∧
      den ρ t * (p.2.map (den ρ)).prod = (p.1.map (den ρ)).prod := by
  have plain : p = ([t], []) → Good st ρ p.1 ∧ Good st ρ p.2 ∧ (p.2.map (den ρ)).prod ≠ 0 ∧
      den ρ t * (p.2.map (den ρ)).prod = (p.1.map (den ρ)).prod := by
    rintro rfl; simp [Good, wt, dt]
  cases t with
  | rat q =>
    simp only [numDenTerm, Except.ok.injEq] at h
    subst h
    have hq : (q : ℝ) * (q.den : ℝ) = (q.num : ℝ) := by exact_mod_cast q.mul_den_eq_num
    have hd : (q.den : ℝ) ≠ 0 := by exact_mod_cast q.den_nz
    refine ⟨?_, ?_, ?_, ?_⟩
    · intro u hu; dsimp only at hu; split at hu <;> simp at hu; subst hu; simp
    · intro u hu; dsimp only at hu; split at hu <;> simp at hu; subst hu; simp
    · dsimp only; split
      · simp
      · simp
    · by_cases h1 : q.num = 1 <;> by_cases h2 : q.den = 1 <;> simp [h1, h2] <;> simp_all
  | pow b x =>
    have h : (if negNum x = true then
        if beq O x (rat (-1)) = true then Except.ok ([], [b])
        else do
          let nx ← opNeg (ctors O n) x
          let p ← (ctors O n).pow b nx
          return ([], [p])
      else Except.ok ([pow b x], [])) = Except.ok p := h
    clear * - hO wt dt plain h
    by_cases hneg : negNum x = true
    · rw [if_pos hneg] at h
      have hxr : ∃ q : ℚ, x = rat q ∧ q < 0 := by
        have := dt.2.1
        cases x <;> simp [negNum] at hneg <;> simp [DomS] at this
        exact ⟨_, rfl, hneg⟩
      obtain ⟨q, rfl, hq⟩ := hxr
      have hb0 : den ρ b ≠ 0 := by
        rcases dt.2.2.1 with h | h
        · exact h
        · simp only [den_rat, Rat.cast_nonneg] at h; exact absurd h (not_le.2 hq)
      have hnn : intExp (rat q) = false → 0 ≤ den ρ b := fun hi => (dt.2.2.2.1 hi).nonneg
      by_cases hm : beq O (rat q) (rat (-1)) = true
      · rw [if_pos hm] at h
        rw [beq_rat_iff] at hm
        subst hm
        simp only [Except.ok.injEq] at h
        subst h
        refine ⟨by simp [Good], by simp [Good, wt.1, dt.1], by simpa using hb0, ?_⟩
        simp [den, hb0]
      · rw [if_neg hm] at h
        obtain ⟨nx, h1, h⟩ := bind_ok.1 h
        obtain ⟨p', h2, h⟩ := bind_ok.1 h
        have := (pure_ok.1 h).symm; subst this
        obtain ⟨a, b', c⟩ := recip_pow_V hO wt.1 wt.2.1 dt (.inl hb0) h1 h2
        have hv : den ρ (pow b (rat q)) ≠ 0 := by
          simp only [den]; exact pw_ne_zero (ρ := ρ) (e := rat q) (by simp [den]) hnn hb0
        refine ⟨by simp [Good], by simp [Good, a, b'], by simp [c, hv], by simp [c, hv]⟩
    · rw [if_neg hneg] at h
      exact plain (by simpa [eq_comm] using h)
  | _ =>
    refine plain ?_
    have hn : ¬ (negNum (rat 1) = true) := by decide +kernel
    unfold numDenTerm at h
    change (if negNum (rat 1) = true then _ else _) = _ at h
    rw [if_neg hn] at h
    simpa [eq_comm] using h

theorem numDenLoop_V (hO : O.Exact) {n : Nat} {st : Bool} {ρ : Str → ℝ} : ∀ (ts : List Expr) {a b : List Expr},
    Good st ρ ts → numDenLoop O (ctors O n) ts = .ok (a, b) →
    Good st ρ a ∧ Good st ρ b ∧ (b.map (den ρ)).prod ≠ 0 ∧
      (ts.map (den ρ)).prod * (b.map (den ρ)).prod = (a.map (den ρ)).prod
  | [], a, b, _, h => by
    simp only [numDenLoop, Except.ok.injEq, Prod.mk.injEq] at h
    obtain ⟨rfl, rfl⟩ := h; simp [Good]
  | t :: ts, a, b, ht, h => by
    simp only [numDenLoop] at h
    obtain ⟨here, hh, h⟩ := bind_ok.1 h
    obtain ⟨⟨n', d'⟩, hr, h⟩ := bind_ok.1 h
    simp only [pure_ok, Prod.mk.injEq] at h
    obtain ⟨rfl, rfl⟩ := h
    obtain ⟨i1, i2, i3, i4⟩ := numDenLoop_V hO ts (fun u hu => ht u (by simp [hu])) hr
    obtain ⟨j1, j2, j3, j4⟩ := numDenTerm_V hO (ht t (by simp)).1 (ht t (by simp)).2 hh
    refine ⟨?_, ?_, ?_, ?_⟩
    · intro u hu; rcases List.mem_append.1 hu with hu | hu; exacts [j1 u hu, i1 u hu]
    · intro u hu; rcases List.mem_append.1 hu with hu | hu; exacts [j2 u hu, i2 u hu]
    · simp [j3, i3]
    · simp only [List.map_append, List.prod_append, List.map_cons, List.prod_cons]
      rw [← j4, ← i4]; ring

theorem numDen_V (hO : O.Exact) {n : Nat} {st : Bool} {ρ : Str → ℝ} {ts : List Expr} {a b : Expr}
    (hg : Good st ρ ts) (h : numDen O (ctors O n) ts = .ok (a, b)) :
    Kid WF a ∧ Kid WF b ∧ DomS st ρ a ∧ DomS st ρ b ∧ den ρ b ≠ 0 ∧
      (ts.map (den ρ)).prod * den ρ b = den ρ a := by
  obtain ⟨k1, k2⟩ := (adm_WF hO).numDen (n := n) (fun t ht => (hg t ht).1) h
  unfold numDen at h
  obtain ⟨⟨n', d'⟩, hr, h⟩ := bind_ok.1 h
  obtain ⟨ne, h1, h⟩ := bind_ok.1 h
  obtain ⟨de, h2, h⟩ := bind_ok.1 h
  simp only [pure_ok, Prod.mk.injEq] at h
  obtain ⟨rfl, rfl⟩ := h
  obtain ⟨i1, i2, i3, i4⟩ := numDenLoop_V hO ts hg hr
  obtain ⟨d1, v1⟩ := mkProdSkip_val (denInterp (s := st) ρ) h1 (fun t ht => (i1 t ht).2)
  obtain ⟨d2, v2⟩ := mkProdSkip_val (denInterp (s := st) ρ) h2 (fun t ht => (i2 t ht).2)
  exact ⟨k1, k2, d1, d2, by rw [v2]; exact i3, by rw [v2, v1]; exact i4⟩

/-! ### the reciprocal of the denominator -/

theorem den_ne_of_pow {st : Bool} {ρ : Str → ℝ} {b x : Expr} (d : DomS st ρ (pow b x)) (h0 : den ρ (pow b x) ≠ 0) :
    den ρ b ≠ 0 ∨ den ρ x = 0 ∧ st = false := by
  by_cases hb : den ρ b = 0
  · right
    have hx : den ρ x = 0 := by
      by_contra hx
      apply h0
      simp only [den]
      rw [hb, pw_of_nonneg le_rfl, Real.zero_rpow hx]
    refine ⟨hx, ?_⟩
    cases st with
    | false => rfl
    | true =>
      rcases d.2.2.2.2 rfl with h | h
      · exact absurd hb h
      · rw [hx] at h; exact absurd h.2 (by norm_num)
  · exact .inl hb

theorem recipTerms_V (hO : O.Exact) {n : Nat} {st : Bool} {ρ : Str → ℝ} {d : Expr} {ds : List Expr}
    (kd : Kid WF d) (dd : DomS st ρ d) (h0 : den ρ d ≠ 0) (h : recipTerms (ctors O n) d = .ok ds) :
    Good st ρ ds ∧ (ds.map (den ρ)).prod = (den ρ d)⁻¹ := by
  have gen : ∀ d, WF d → DomS st ρ d → den ρ d ≠ 0 →
      (do let p ← (ctors O n).pow d (Expr.rat (-1)); return [p] : R (List Expr)) = .ok ds →
      Good st ρ ds ∧ (ds.map (den ρ)).prod = (den ρ d)⁻¹ := by
    intro d wd dd h0 h
    obtain ⟨p, hp, h⟩ := bind_ok.1 h
    have := (pure_ok.1 h).symm; subst this
    obtain ⟨a, b, c⟩ := recip_V hO wd dd h0 hp
    exact ⟨by simp [Good, a, b], by simp [c]⟩
  cases d with
  | prod us =>
    simp only [recipTerms] at h
    rw [mapR_ok] at h
    replace dd := Dom_prod.1 dd
    rw [den_prod] at h0 ⊢
    replace kd : ∀ t ∈ us, WF t := kd
    replace h0 : ∀ t ∈ us, den ρ t ≠ 0 := by
      intro t ht hz
      exact h0 (List.prod_eq_zero (List.mem_map.2 ⟨t, ht, hz⟩))
    have key : List.Forall₂ (fun t u => WF u ∧ DomS st ρ u ∧ den ρ u = (den ρ t)⁻¹) us ds := by
      refine forall₂_of_mem h fun t ht u hu => ?_
      cases t with
      | pow b x =>
        simp only [recipTerm] at hu
        obtain ⟨nx, h1, h2⟩ := bind_ok.1 hu
        exact recip_pow_V hO (kd _ ht).1 (kd _ ht).2.1 (dd _ ht) (den_ne_of_pow (dd _ ht) (h0 _ ht)) h1 h2
      | _ => simp only [recipTerm] at hu; exact recip_V hO (kd _ ht) (dd _ ht) (h0 _ ht) hu
    clear h h0 dd kd gen
    induction key with
    | nil => simp [Good]
    | cons h1 h2 ih =>
      refine ⟨?_, ?_⟩
      · intro u hu; rcases List.mem_cons.1 hu with rfl | hu
        · exact ⟨h1.1, h1.2.1⟩
        · exact ih.1 u hu
      · simp only [List.map_cons, List.prod_cons, ih.2, h1.2.2, mul_inv]
  | _ => exact gen _ kd dd h0 h

/-! ### distributing -/

theorem forall₂_map {α β γ : Type} {f : α → γ} {g : β → γ} : ∀ {as : List α} {bs : List β},
    List.Forall₂ (fun a b => g b = f a) as bs → bs.map g = as.map f
  | [], _, .nil => rfl
  | _ :: _, _ :: _, .cons h1 h2 => by simp [h1, forall₂_map h2]

theorem cartesian_sum (v : Expr → ℝ) : ∀ ls : List (List Expr),
    ((cartesian ls).map (fun c => (c.map v).prod)).sum = (ls.map (fun l => (l.map v).sum)).prod
  | [] => by simp [cartesian]
  | l :: ls => by
    simp only [cartesian, List.map_flatMap, List.map_cons, List.prod_cons]
    rw [show ∀ g : Expr → List ℝ, (l.flatMap g).sum = (l.map (fun v => (g v).sum)).sum from
      fun g => by rw [List.flatMap, List.sum_flatten, List.map_map]; rfl]
    rw [← cartesian_sum v ls, ← List.sum_map_mul_right]
    congr 1
    refine List.map_congr_left ?_
    intro a _
    rw [List.map_map, ← List.sum_map_mul_left]
    rfl

theorem sums_split (ρ : Str → ℝ) : ∀ es : List Expr,
    ((es.filter (fun t => !t.isSum)).map (den ρ)).prod *
      ((es.filterMap sumTerms).map
        (fun l => (l.map (den ρ)).sum)).prod = (es.map (den ρ)).prod
  | [] => by simp
  | e :: es => by
    have ih := sums_split ρ es
    cases e with
    | sum ws =>
      rw [List.filter_cons_of_neg (by simp [isSum])]
      simp only [List.filterMap_cons, sumTerms, List.map_cons, List.prod_cons, den_sum]
      rw [← ih]; ring
    | _ =>
      rw [List.filter_cons_of_pos (by simp [isSum])]
      simp only [List.filterMap_cons, sumTerms, List.map_cons, List.prod_cons]
      rw [← ih]; ring

/-- The sum of products that distributing gives. -/
theorem distribute_V (hO : O.Exact) {n : Nat} {st : Bool} {ρ : Str → ℝ} {other ds : List Expr} {ls : List (List Expr)}
    {ps : List Expr} {r : Expr} (ho : Good st ρ other) (hd : Good st ρ ds) (hl : ∀ l ∈ ls, Good st ρ l)
    (h1 : mapR (fun c => (ctors O n).prod (other ++ c ++ ds)) (cartesian ls) = .ok ps)
    (h2 : (ctors O n).sum ps = .ok r) :
    WF r ∧ DomS st ρ r ∧ den ρ r = (other.map (den ρ)).prod * (ls.map (fun l => (l.map (den ρ)).sum)).prod *
      (ds.map (den ρ)).prod := by
  have hC := ctors_sound hO n
  rw [mapR_ok] at h1
  have hgood : ∀ c ∈ cartesian ls, Good st ρ (other ++ c ++ ds) := by
    intro c hc u hu
    rcases List.mem_append.1 hu with hu | hu
    · rcases List.mem_append.1 hu with hu | hu
      · exact ho u hu
      · obtain ⟨l, hl', hul⟩ := forall₂_mem (P := fun u => ∃ l ∈ ls, u ∈ l) (cartesian_mem hc)
          (fun l hl a ha => ⟨l, hl, ha⟩) u hu
        exact hl l hl' u hul
    · exact hd u hu
  have key : List.Forall₂ (fun c p => WF p ∧ DomS st ρ p ∧ den ρ p = (other.map (den ρ)).prod *
      (c.map (den ρ)).prod * (ds.map (den ρ)).prod) (cartesian ls) ps := by
    refine forall₂_of_mem h1 fun c hc p hp => ?_
    have hg := hgood c hc
    obtain ⟨v, d⟩ := hC.prod ρ _ p (fun t ht => (hg t ht).1) (fun t ht => (hg t ht).2) hp
    refine ⟨hC.prodW _ p (fun t ht => (hg t ht).1) hp, d, ?_⟩
    rw [v]; simp [mul_assoc]
  have hw : ∀ p ∈ ps, WF p ∧ DomS st ρ p := forall₂_mem (P := fun p => WF p ∧ DomS st ρ p) key
    (fun c _ p hp => ⟨hp.1, hp.2.1⟩)
  obtain ⟨v, d⟩ := hC.sum ρ ps r (fun t ht => (hw t ht).1) (fun t ht => (hw t ht).2) h2
  refine ⟨hC.sumW ps r (fun t ht => (hw t ht).1) h2, d, ?_⟩
  rw [v, ← cartesian_sum]
  have hm : ps.map (den ρ) = (cartesian ls).map (fun c => (other.map (den ρ)).prod *
      (c.map (den ρ)).prod * (ds.map (den ρ)).prod) := by
    exact forall₂_map (key.imp fun _ _ h => h.2.2)
  rw [hm, List.sum_map_mul_right, List.sum_map_mul_left]

/-! ### the multinomial expansion -/

theorem pow_nat_V (hO : O.Exact) {n : Nat} {st : Bool} {ρ : Str → ℝ} {t r : Expr} (p : Nat) (wt : WF t)
    (dt : DomS st ρ t) (h : (ctors O n).pow t (rat p) = .ok r) : WF r ∧ DomS st ρ r ∧ den ρ r = den ρ t ^ p := by
  have hC := ctors_sound hO n
  refine ⟨hC.powW _ _ _ wt (by simp) h, ?_⟩
  cases p with
  | zero =>
    have : r = rat 1 := by
      cases n with
      | zero => simp [ctors] at h
      | succ n =>
        have h' : powCtor O (ctors O n) t (rat ((0 : ℕ) : ℚ)) = .ok r := h
        simp [powCtor, beq] at h'
        exact h'.symm
    subst this; simp
  | succ p =>
    have hpd : PowDomS st ρ t (rat (((p + 1 : ℕ) : ℤ) : ℚ)) :=
      PowDom_int dt (.inr (by positivity)) (fun _ => .inr (by push_cast; omega))
    have e : rat ((((p + 1 : ℕ) : ℤ)) : ℚ) = rat ((p + 1 : ℕ) : ℚ) := by push_cast; rfl
    rw [e] at hpd
    obtain ⟨v, d⟩ := hC.pow ρ _ _ r wt (by simp) hpd h
    refine ⟨d, ?_⟩
    rw [v]
    simp only [den_rat]
    have := pw_int (den ρ t) ((p + 1 : ℕ) : ℤ)
    push_cast at this ⊢
    rw [this]
    exact_mod_cast zpow_natCast (den ρ t) (p + 1)

theorem zipPow_V (hO : O.Exact) {n : Nat} {st : Bool} {ρ : Str → ℝ} : ∀ (ts : List Expr) (perm : List Nat) {zs : List Expr},
    Good st ρ ts → mapR (fun (tp : Expr × Nat) => (ctors O n).pow tp.1 (rat tp.2)) (ts.zip perm) = .ok zs →
    Good st ρ zs ∧ (zs.map (den ρ)).prod = monomial (ts.map (den ρ)) perm
  | [], perm, zs, _, h => by
    simp [mapR] at h; subst h; simp [Good, monomial]
  | t :: ts, [], zs, _, h => by
    simp [mapR] at h; subst h; simp [Good, monomial]
  | t :: ts, p :: perm, zs, hg, h => by
    rw [List.zip_cons_cons, mapR_ok] at h
    cases h with
    | @cons _ z _ zs h1 h2 =>
      rw [← mapR_ok] at h2
      obtain ⟨i1, i2⟩ := zipPow_V hO ts perm (fun u hu => hg u (by simp [hu])) h2
      obtain ⟨a, b, c⟩ := pow_nat_V hO p (hg t (by simp)).1 (hg t (by simp)).2 h1
      refine ⟨?_, ?_⟩
      · intro u hu; rcases List.mem_cons.1 hu with rfl | hu
        · exact ⟨a, b⟩
        · exact i1 u hu
      · simp only [List.map_cons, List.prod_cons, i2, c, monomial]

theorem multinomial_V (hO : O.Exact) {n : Nat} {st : Bool} {ρ : Str → ℝ} {ws ps : List Expr} {s : Expr} {k : Nat}
    (hg : Good st ρ ws)
    (h1 : mapR (multinomialTerm (ctors O n) ws k) (generatePermutations ws.length k) = .ok ps)
    (h2 : (ctors O n).sum ps = .ok s) : WF s ∧ DomS st ρ s ∧ den ρ s = (ws.map (den ρ)).sum ^ k := by
  have hC := ctors_sound hO n
  rw [mapR_ok] at h1
  have key : List.Forall₂ (fun perm p => WF p ∧ DomS st ρ p ∧ den ρ p = (coeffVal perm k : ℝ) *
      monomial (ws.map (den ρ)) perm) (generatePermutations ws.length k) ps := by
    refine forall₂_of_mem h1 fun perm _ p hp => ?_
    unfold multinomialTerm at hp
    obtain ⟨c, hc, hp⟩ := bind_ok.1 hp
    obtain ⟨zs, hzs, hp⟩ := bind_ok.1 hp
    obtain ⟨z1, z2⟩ := zipPow_V hO ws perm hg hzs
    cases c with
    | int m =>
      have hg' : Good st ρ (rat m :: zs) := by
        intro u hu; rcases List.mem_cons.1 hu with rfl | hu
        · exact ⟨by simp, by simp⟩
        · exact z1 u hu
      obtain ⟨v, d⟩ := hC.prod ρ _ p (fun t ht => (hg' t ht).1) (fun t ht => (hg' t ht).2) hp
      refine ⟨hC.prodW _ p (fun t ht => (hg' t ht).1) hp, d, ?_⟩
      rw [v]
      simp [z2, coeffVal, hc]
    | message => simp at hp
  have hw : ∀ p ∈ ps, WF p ∧ DomS st ρ p := forall₂_mem (P := fun p => WF p ∧ DomS st ρ p) key
    (fun c _ p hp => ⟨hp.1, hp.2.1⟩)
  obtain ⟨v, d⟩ := hC.sum ρ ps s (fun t ht => (hw t ht).1) (fun t ht => (hw t ht).2) h2
  refine ⟨hC.sumW ps s (fun t ht => (hw t ht).1) h2, d, ?_⟩
  have hm : ps.map (den ρ) = (generatePermutations ws.length k).map (fun perm => (coeffVal perm k : ℝ) *
      monomial (ws.map (den ρ)) perm) := by
    exact forall₂_map (key.imp fun _ _ h => h.2.2)
  rw [v, hm]
  by_cases hne : ws = []
  · subst hne
    rw [mapR_ok.symm] at h1
    cases k with
    | zero =>
      simp [generatePermutations, genPerms, mapR, multinomialTerm, multinomialCoefficient, Bind.bind, Except.bind] at h1
    | succ k =>
      have : generatePermutations ([] : List Expr).length ((k + 1 : ℕ) : ℤ) = [] := by
        simp only [generatePermutations, genPerms, List.length_nil]
        rw [if_neg (by push_cast; omega)]
      rw [this]; simp
  · rw [multinomial_theorem (ws.map (den ρ)) k (by simpa using hne), List.length_map]

/-! ### `expand` -/

/-- What a run of `e.expand()` with `n` stack levels needs besides `e` being defined: a base that is expanded under a
non-integer exponent stays principal, logarithms are natural and stay principal, trig functions of inverse trig functions
have principal radicands (`TrigSide`), and no inverse trig function is applied to its own trig function. -/
def ExpandOk (O : Oracle) (ρ : Str → ℝ) : Nat → Expr → Prop
  | 0, _ => True
  | n + 1, e =>
    match e with
    | sum ts => ∀ t ∈ ts, ExpandOk O ρ n t
    | prod ts => ∀ a b, numDen O (ctors O n) ts = .ok (a, b) → ((∀ us, a ≠ prod us) → ExpandOk O ρ n a) ∧ ExpandOk O ρ n b ∧
        ∀ us, a = prod us → ∀ u ∈ us, ExpandOk O ρ n u
    | pow b x => ExpandOk O ρ n b ∧ ExpandOk O ρ n x ∧ (intExp x = false → expandableE O n b = .ok true →
        ∀ b' x', expandE O n b = .ok b' → expandOr (expandableE O n) (expandE O n) x = .ok x' → intExp x' = false →
          RadOk ρ x' b')
    | log i b => ExpandOk O ρ n i ∧ b = euler ∧ ∀ i', expandE O n i = .ok i' → HN ρ i'
    | trig f i => ExpandOk O ρ n i ∧ ∀ i', expandE O n i = .ok i' →
        if f.isInverse then ∀ g w, i' = trig g w → g.isInverse = true
        else TrigSide O ρ n i' ∧ (f = .cot → (∃ g w, i' = trig g w ∧ g.isInverse = true) → Real.cos (den ρ i') ≠ 0)
    | absv i => ExpandOk O ρ n i
    | _ => True

theorem good_of_forall₂ {st : Bool} {ρ : Str → ℝ} : ∀ {ts us : List Expr},
    List.Forall₂ (fun t u => WF u ∧ DomS st ρ u ∧ den ρ u = den ρ t) ts us →
    Good st ρ us ∧ us.map (den ρ) = ts.map (den ρ)
  | [], _, .nil => by simp [Good]
  | _ :: _, _ :: _, .cons h1 h2 => by
    obtain ⟨a, c⟩ := good_of_forall₂ h2
    refine ⟨?_, by simp [h1.2.2, c]⟩
    intro u hu; rcases List.mem_cons.1 hu with rfl | hu; exacts [⟨h1.1, h1.2.1⟩, a u hu]

theorem multi_V (hO : O.Exact) {n : Nat} {st : Bool} {ρ : Str → ℝ} {new r : Expr} (wn : WF new) (dn : DomS st ρ new)
    (h : (match new with
      | pow (sum ws) (rat q) =>
        if powerExpandable (sum ws) (rat q) then do
          let ps ← mapR (multinomialTerm (ctors O n) ws q.num.natAbs) (generatePermutations ws.length q.num.natAbs)
          let s ← (ctors O n).sum ps
          opPow O (ctors O n) s (rat (if q < 0 then -1 else 1))
        else return new
      | _ => return new) = .ok r) : WF r ∧ DomS st ρ r ∧ den ρ r = den ρ new := by
  have hC := ctors_sound hO n
  split at h
  · next ws q =>
    split at h
    · next hp =>
      obtain ⟨ps, h1, h⟩ := bind_ok.1 h
      obtain ⟨s, h2, h⟩ := bind_ok.1 h
      obtain ⟨db, dx, d3, d4, d5⟩ := dn
      have hg : Good st ρ ws := fun t ht => ⟨WF_sum.1 wn.1 t ht, Dom_sum.1 db t ht⟩
      simp only [powerExpandable, Bool.and_eq_true, beq_iff_eq, bne_iff_ne, ne_eq] at hp
      have hq : (q : ℝ) = (q.num : ℝ) := by
        have : q = (q.num : ℚ) := ((Rat.den_eq_one_iff q).1 hp.1).symm
        conv_lhs => rw [this]
        norm_cast
      obtain ⟨w1, d1, v1⟩ := multinomial_V hO hg h1 h2
      have hval : den ρ (pow (sum ws) (rat q)) = (den ρ (sum ws)) ^ q.num := by
        simp only [den_rat, den]
        rw [hq, pw_int]
      have hs : den ρ (sum ws) = (ws.map (den ρ)).sum := den_sum ρ ws
      rw [hval, hs]
      by_cases hneg : q < 0
      · rw [if_pos hneg] at h
        have hb0 : (ws.map (den ρ)).sum ≠ 0 := by
          rw [← hs]
          rcases d3 with h | h
          · exact h
          · simp only [den_rat, Rat.cast_nonneg] at h; exact absurd h (not_le.2 hneg)
        have hs0 : den ρ s ≠ 0 := by rw [v1]; exact pow_ne_zero _ hb0
        have hpd : PowDomS st ρ s (rat ((-1 : ℤ) : ℚ)) := PowDom_int d1 (.inl hs0) (fun _ => .inl hs0)
        have e : rat ((-1 : ℤ) : ℚ) = rat (-1) := by norm_num
        rw [e] at hpd
        obtain ⟨v2, d2⟩ := opPow_V hC w1 (by simp) hpd h
        refine ⟨opPow_W hC w1 (by simp) h, d2, ?_⟩
        rw [v2, v1]
        have hn : q.num < 0 := Rat.num_neg.2 hneg
        have : q.num = -(q.num.natAbs : ℤ) := by omega
        conv_rhs => rw [this]
        rw [zpow_neg, zpow_natCast]
        simp
      · rw [if_neg hneg] at h
        have hpd : PowDomS st ρ s (rat ((1 : ℤ) : ℚ)) := PowDom_int d1 (.inr (by simp)) (fun _ => .inr le_rfl)
        have e : rat ((1 : ℤ) : ℚ) = rat 1 := by norm_num
        rw [e] at hpd
        obtain ⟨v2, d2⟩ := opPow_V hC w1 (by simp) hpd h
        refine ⟨opPow_W hC w1 (by simp) h, d2, ?_⟩
        rw [v2, v1]
        have hn : 0 ≤ q.num := Rat.num_nonneg.2 (not_lt.1 hneg)
        have : q.num = (q.num.natAbs : ℤ) := by omega
        conv_rhs => rw [this]
        rw [zpow_natCast]
        simp
    · have := (pure_ok.1 h).symm; subst this; exact ⟨wn, dn, rfl⟩
  · have := (pure_ok.1 h).symm; subst this; exact ⟨wn, dn, rfl⟩

theorem expandable_int {n : Nat} {x x' : Expr} (hi : intExp x = true)
    (h : expandOr (expandableE O n) (expandE O n) x = .ok x') : x' = x := by
  obtain ⟨k, rfl⟩ := intExp_iff.1 hi
  unfold expandOr at h
  obtain ⟨b, h1, h⟩ := bind_ok.1 h
  cases n with
  | zero => simp [expandableE] at h1
  | succ n =>
    simp only [expandableE, Except.ok.injEq] at h1
    subst h1
    simp only [Bool.false_eq_true, if_false] at h
    exact pure_ok.1 h |>.symm

theorem expand_sound (hO : O.Exact) {ρ : Str → ℝ} {st : Bool} : ∀ (n : Nat) {e r : Expr}, Kid WF e → DomS st ρ e →
    ExpandOk O ρ n e → expandE O n e = .ok r → WF r ∧ DomS st ρ r ∧ den ρ r = den ρ e
  | 0, _, _, _, _, _, h => by simp [expandE] at h
  | n + 1, e, r, we, de, hok, h => by
    have hC := ctors_sound hO n
    have ih := fun {e r : Expr} => expand_sound hO (ρ := ρ) (st := st) n (e := e) (r := r)
    have hK : ∀ {t : Expr}, WF t → Kid WF t := fun h => (adm_WF hO).kid h
    have ihO : ∀ {t r : Expr}, WF t → DomS st ρ t → ExpandOk O ρ n t →
        expandOr (expandableE O n) (expandE O n) t = .ok r → WF r ∧ DomS st ρ r ∧ den ρ r = den ρ t := by
      intro t r wt dt ok h
      unfold expandOr at h
      obtain ⟨b, _, h⟩ := bind_ok.1 h
      split at h
      · exact ih (hK wt) dt ok h
      · have := (pure_ok.1 h).symm; subst this; exact ⟨wt, dt, rfl⟩
    have ihK : ∀ {t r : Expr}, Kid WF t → DomS st ρ t → ExpandOk O ρ n t →
        expandOr (expandableE O n) (expandE O n) t = .ok r → Kid WF r ∧ DomS st ρ r ∧ den ρ r = den ρ t := by
      intro t r wt dt ok h
      unfold expandOr at h
      obtain ⟨b, _, h⟩ := bind_ok.1 h
      split at h
      · obtain ⟨a, b, c⟩ := ih wt dt ok h; exact ⟨hK a, b, c⟩
      · have := (pure_ok.1 h).symm; subst this; exact ⟨wt, dt, rfl⟩
    cases e with
    | sum ts =>
      simp only [expandE] at h
      obtain ⟨b, _, h⟩ := bind_ok.1 h
      obtain ⟨_, _, h⟩ := bind_ok.1 h
      obtain ⟨us, h1, h⟩ := bind_ok.1 h
      rw [mapR_ok] at h1
      obtain ⟨g, v⟩ := good_of_forall₂ (forall₂_of_mem h1 fun t ht u hu =>
        ihO (WF_sum.1 we t ht) (Dom_sum.1 de t ht) ((show ∀ t ∈ ts, ExpandOk O ρ n t from hok) t ht) hu)
      obtain ⟨v2, d2⟩ := hC.sum ρ us r (fun t ht => (g t ht).1) (fun t ht => (g t ht).2) h
      exact ⟨hC.sumW us r (fun t ht => (g t ht).1) h, d2, by rw [v2, v, den_sum]⟩
    | prod ts =>
      simp only [expandE] at h
      obtain ⟨b, _, h⟩ := bind_ok.1 h
      obtain ⟨_, _, h⟩ := bind_ok.1 h
      obtain ⟨⟨num, dn⟩, hnd, h⟩ := bind_ok.1 h
      obtain ⟨dn', hd', h⟩ := bind_ok.1 h
      obtain ⟨ds, hds, h⟩ := bind_ok.1 h
      have hg : Good st ρ ts := fun t ht => ⟨(show ∀ t ∈ ts, WF t from we) t ht, Dom_prod.1 de t ht⟩
      obtain ⟨kn, kd, d1, d2, d3, d4⟩ := numDen_V hO hg hnd
      obtain ⟨o1, o2, o3⟩ := (show ∀ a b, numDen O (ctors O n) ts = .ok (a, b) → ((∀ us, a ≠ prod us) → ExpandOk O ρ n a) ∧ ExpandOk O ρ n b ∧
        ∀ us, a = prod us → ∀ u ∈ us, ExpandOk O ρ n u from hok) num dn hnd
      obtain ⟨kd', dd', vd'⟩ := ihK kd d2 o2 hd'
      obtain ⟨gds, vds⟩ := recipTerms_V hO kd' dd' (by rw [vd']; exact d3) hds
      rw [vd'] at vds
      have hfin : ∀ z, z = den ρ num * (den ρ dn)⁻¹ → z = den ρ (prod ts) := by
        intro z hz; rw [hz, den_prod, ← d4]; field_simp
      have fin : (∀ us, num ≠ prod us) → WF num → (do
          let num' ← expandOr (expandableE O n) (Simpy.expandE O n) num
          match num' with
          | Expr.sum ws => do
            let ps ← mapR (fun c => (ctors O n).prod (c ++ ds)) (cartesian [ws])
            (ctors O n).sum ps
          | _ => (ctors O n).prod (num' :: ds)) = .ok r → WF r ∧ DomS st ρ r ∧ den ρ r = den ρ (prod ts) := by
        intro hnp wn h
        obtain ⟨num', hn', h⟩ := bind_ok.1 h
        obtain ⟨w1, e1, v1⟩ := ihO wn d1 (o1 hnp) hn'
        have gen : (ctors O n).prod (num' :: ds) = .ok r → WF r ∧ DomS st ρ r ∧ den ρ r = den ρ (prod ts) := by
          intro h
          have g : Good st ρ (num' :: ds) := by
            intro u hu; rcases List.mem_cons.1 hu with rfl | hu
            · exact ⟨w1, e1⟩
            · exact gds u hu
          obtain ⟨v, d⟩ := hC.prod ρ _ r (fun t ht => (g t ht).1) (fun t ht => (g t ht).2) h
          refine ⟨hC.prodW _ r (fun t ht => (g t ht).1) h, d, hfin _ ?_⟩
          rw [v, List.map_cons, List.prod_cons, vds, v1]
        cases num' with
        | sum ws =>
          simp only at h
          obtain ⟨ps, hps, h⟩ := bind_ok.1 h
          obtain ⟨a, b, c⟩ := distribute_V hO (other := []) (ds := ds) (ls := [ws]) (st := st) (ρ := ρ) (by simp [Good]) gds
            (by
              intro l hl; simp only [List.mem_singleton] at hl; subst hl
              exact fun t ht => ⟨WF_sum.1 w1 t ht, Dom_sum.1 e1 t ht⟩) (by simpa using hps) h
          refine ⟨a, b, hfin _ ?_⟩
          rw [c, vds, ← v1, den_sum]; simp
        | _ => exact gen h
      cases num with
      | prod us =>
        simp only at h
        obtain ⟨es, hes, h⟩ := bind_ok.1 h
        rw [mapR_ok] at hes
        obtain ⟨ges, ves⟩ := good_of_forall₂ (forall₂_of_mem hes fun t ht u hu =>
          ihO ((show ∀ t ∈ us, WF t from kn) t ht) (Dom_prod.1 d1 t ht) (o3 us rfl t ht) hu)
        have split := sums_split ρ es
        rw [ves, ← den_prod ρ us] at split
        have gother : Good st ρ (es.filter (fun t => !t.isSum)) := fun t ht => ges t (List.mem_filter.1 ht).1
        split at h
        · next hemp =>
          have hemp := List.isEmpty_iff.1 hemp
          rw [hemp] at split
          have g : Good st ρ (es.filter (fun t => !t.isSum) ++ ds) := by
            intro u hu; rcases List.mem_append.1 hu with hu | hu
            · exact gother u hu
            · exact gds u hu
          obtain ⟨v, d⟩ := hC.prod ρ _ r (fun t ht => (g t ht).1) (fun t ht => (g t ht).2) h
          refine ⟨hC.prodW _ r (fun t ht => (g t ht).1) h, d, hfin _ ?_⟩
          rw [v, List.map_append, List.prod_append, vds, ← split]; simp
        · obtain ⟨ps, hps, h⟩ := bind_ok.1 h
          obtain ⟨a, b, c⟩ := distribute_V hO gother gds (by
              intro l hl u hu
              obtain ⟨t, ht, htl⟩ := List.mem_filterMap.1 hl
              cases t <;> simp [sumTerms] at htl
              subst htl
              exact ⟨WF_sum.1 (ges _ ht).1 u hu, Dom_sum.1 (ges _ ht).2 u hu⟩) hps h
          refine ⟨a, b, hfin _ ?_⟩
          rw [c, vds, split]
      | _ => exact fin (by simp) kn h
    | pow b x =>
      simp only [expandE] at h
      obtain ⟨a, _, h⟩ := bind_ok.1 h
      obtain ⟨_, _, h⟩ := bind_ok.1 h
      obtain ⟨b', h1, h⟩ := bind_ok.1 h
      obtain ⟨x', h2, h⟩ := bind_ok.1 h
      obtain ⟨new, hnew, h⟩ := bind_ok.1 h
      obtain ⟨o1, o2, o3⟩ := hok
      obtain ⟨db, dx, d3, d4, d5⟩ := de
      have we : WF (pow b x) := we
      obtain ⟨w1, e1, v1⟩ := ihO we.1 db o1 h1
      obtain ⟨w2, e2, v2⟩ := ihO we.2.1 dx o2 h2
      have hpd : PowDomS st ρ b' x' := by
        refine ⟨e1, e2, by rw [v1, v2]; exact d3, ?_, ?_⟩
        · intro hx'
          have hx : intExp x = false := by
            cases hi : intExp x with
            | false => rfl
            | true => rw [expandable_int hi h2, hi] at hx'; simp at hx'
          unfold expandOr at h1
          obtain ⟨c, hc, h1⟩ := bind_ok.1 h1
          cases c with
          | true => exact o3 hx hc b' x' (by simpa using h1) h2 hx'
          | false =>
            simp only [Bool.false_eq_true, if_false] at h1
            have := (pure_ok.1 h1).symm; subst this
            exact (d4 hx).radOk
        · intro hs
          rw [v1, v2]
          refine (d5 hs).imp_right fun ⟨a, b⟩ => ⟨?_, b⟩
          rw [expandable_int a h2]; exact a
      obtain ⟨v3, d6⟩ := hC.pow ρ b' x' new w1 w2 hpd hnew
      obtain ⟨a, b, c⟩ := multi_V hO (hC.powW b' x' new w1 w2 hnew) d6 h
      exact ⟨a, b, by rw [c, v3, v1, v2]; simp only [den]⟩
    | log i b =>
      simp only [expandE] at h
      obtain ⟨a, _, h⟩ := bind_ok.1 h
      obtain ⟨_, _, h⟩ := bind_ok.1 h
      obtain ⟨i', h1, h⟩ := bind_ok.1 h
      obtain ⟨o1, rfl, o3⟩ := hok
      obtain ⟨di, db, d3, d4, d5, d6⟩ := de
      have we : WF i ∧ WF euler := we
      obtain ⟨w1, e1, v1⟩ := ih (hK we.1) di o1 h1
      obtain ⟨v3, -, d7⟩ := logCtor_V hO.isPi hO.isE (st := st) (ρ := ρ)
        ⟨e1.domF, db.domF, by rw [v1]; exact d4, d5, d6⟩ h
      exact ⟨logCtor_W w1 we.2 h, d7 e1 db (o3 i' h1), by rw [v3, v1]; simp only [den]⟩
    | trig f i =>
      simp only [expandE] at h
      obtain ⟨a, _, h⟩ := bind_ok.1 h
      obtain ⟨_, _, h⟩ := bind_ok.1 h
      obtain ⟨i', h1, h⟩ := bind_ok.1 h
      obtain ⟨o1, o2⟩ := hok
      obtain ⟨di, d2, d3⟩ := de
      have we : WF i := we
      obtain ⟨w1, e1, v1⟩ := ih (hK we) di o1 h1
      have o2 := o2 i' h1
      refine ⟨trigCtor_W hO n w1 h, ?_⟩
      simp only [den]
      rw [← v1]
      rw [← v1] at d2 d3
      cases hf : f.isInverse with
      | true =>
        rw [hf, if_pos rfl] at o2
        obtain ⟨-, a, b⟩ := trigCtor_inv_V n hf e1 d2 d3 (fun g w hg hgi => absurd (o2 g w hg) (by simp [hgi])) h
        exact ⟨b, a⟩
      | false =>
        rw [hf, if_neg (by simp)] at o2
        obtain ⟨a, b⟩ := trigCtor_V hO n hf w1 e1 d2 o2.1 o2.2 h
        exact ⟨b, a⟩
    | absv i =>
      simp only [expandE] at h
      obtain ⟨a, _, h⟩ := bind_ok.1 h
      obtain ⟨_, _, h⟩ := bind_ok.1 h
      obtain ⟨i', h1, h⟩ := bind_ok.1 h
      obtain ⟨di, d2⟩ := de
      have we : WF i := we
      obtain ⟨w1, e1, v1⟩ := ih (hK we) di hok h1
      obtain ⟨v3, d6⟩ := hC.abs ρ i' r w1 e1 (by rw [v1]; exact d2) h
      exact ⟨hC.absW i' r w1 h, d6, by rw [v3, v1]; simp only [den]⟩
    | _ => simp [expandE] at h

end Simpy
