import Verif.Proofs.PowSound
import Mathlib.Analysis.SpecialFunctions.Log.Base

/-! Soundness of `Power(b, x)` and `Abs(i)` (continued), and of the whole constructor stack. -/

namespace Simpy
open Expr

theorem opMul_intExp {C : Ctors} {a b r : Expr} (h : opMul C a b = .ok r) (ha : intExp a = true)
    (hb : intExp b = true) : intExp r = true := by
  obtain ⟨n, rfl⟩ := intExp_iff.1 ha
  obtain ⟨m, rfl⟩ := intExp_iff.1 hb
  simp only [opMul, Except.ok.injEq] at h
  exact intExp_iff.2 ⟨n * m, by rw [← h]; simp⟩

theorem ratEven_iff {p : ℚ} : ratEven p = true ↔ p.den = 1 ∧ p.num % 2 = 0 := by
  simp [ratEven]

theorem multiplyExponents_W {O : Oracle} {C : Ctors} (hC : Sound C) {b x y r : Expr} (wb : WF b)
    (wx : WF x) (wy : WF y) (h : multiplyExponents O C b x y = .ok r) : WF r := by
  have gen : ∀ r, (do let m ← opMul C x y; opPow O C b m) = Except.ok r → WF r := by
    intro r h
    obtain ⟨m, hm, h⟩ := bind_ok.1 h
    exact opPow_W hC wb (opMul_W hC wx wy hm) h
  unfold multiplyExponents at h
  split at h
  · split at h
    · split at h
      · simp at h
      · split at h
        · exact hC.absW _ _ wb h
        · exact gen _ h
    · exact gen _ h
  · exact gen _ h

theorem even_root {c : ℝ} {p q : ℚ} (hd : p.den = 1) (he : p.num % 2 = 0) (hpq : p * q = 1)
    (hc : c ≠ 0 ∨ 0 ≤ (p : ℝ)) : pw (pw c p) q = |c| := by
  have hpn : p = (p.num : ℚ) := ((Rat.den_eq_one_iff p).1 hd).symm
  have hp' : (p : ℝ) = (p.num : ℝ) := by conv_lhs => rw [hpn]; simp
  have hev : Even p.num := Int.even_iff.2 he
  have h1 : pw c p = |c| ^ (p : ℝ) := by
    rw [hp', pw_int, Real.rpow_intCast, hev.zpow_abs]
  have hpqr : (p : ℝ) * (q : ℝ) = 1 := by exact_mod_cast hpq
  rw [h1, pw_of_nonneg (Real.rpow_nonneg (abs_nonneg c) _), ← Real.rpow_mul (abs_nonneg c), hpqr,
    Real.rpow_one]

/-- `(c^y)^x = c^(y x)` on the principal domain. -/
theorem pw_pw {s : Bool} {ρ : Str → ℝ} {c y x : Expr} (h : DomS s ρ (pow c y))
    (hr : intExp x = false → HN ρ c) : pw (pw (den ρ c) (den ρ y)) (den ρ x) = pw (den ρ c) (den ρ y * den ρ x) := by
  have nn : HN ρ c → pw (pw (den ρ c) (den ρ y)) (den ρ x) = pw (den ρ c) (den ρ y * den ρ x) := by
    intro hn
    have h0 := hn.nonneg
    rw [pw_of_nonneg h0, pw_of_nonneg h0, pw_of_nonneg (Real.rpow_nonneg h0 _), Real.rpow_mul h0]
  cases hy : intExp y with
  | false => exact nn (h.2.2.2.1 hy)
  | true =>
    cases hx : intExp x with
    | false => exact nn (hr hx)
    | true =>
      obtain ⟨n, rfl⟩ := intExp_iff.1 hy
      obtain ⟨m, rfl⟩ := intExp_iff.1 hx
      simp only [den_rat, Rat.cast_intCast]
      rw [← Int.cast_mul, pw_int, pw_int, pw_int, zpow_mul]

theorem multiplyExponents_V {O : Oracle} {C : Ctors} (hC : Sound C) {s : Bool} {ρ : Str → ℝ}
    {c y x r : Expr} (wc : WF c) (wy : WF y) (wx : WF x) (hd : PowDomS s ρ (pow c y) x)
    (h : multiplyExponents O C c y x = .ok r) : den ρ r = pw (den ρ (pow c y)) (den ρ x) ∧ DomS s ρ r := by
  obtain ⟨dp, dx, hne, hrad, hstr⟩ := hd
  have gen : (∀ p q, y = rat p → x = rat q → p.den = 1 → p.num % 2 = 0 → p * q ≠ 1) →
      ∀ r, (do let m ← opMul C y x; opPow O C c m) = Except.ok r →
      den ρ r = pw (den ρ (pow c y)) (den ρ x) ∧ DomS s ρ r := by
    intro hnot r h
    obtain ⟨m, hm, h⟩ := bind_ok.1 h
    have hHN : intExp x = false → HN ρ c := by
      intro hx
      rcases hrad hx with ⟨p, q, rfl, rfl, h1, h2, h3⟩ | h
      · exact absurd h3 (hnot p q rfl rfl h1 h2)
      · exact h
    obtain ⟨vm, dm⟩ := opMul_V hC wy wx dp.2.1 dx hm
    have hpd : PowDomS s ρ c m := by
      refine ⟨dp.1, dm, ?_, ?_, ?_⟩
      · by_cases hc : den ρ c = 0
        · right
          have h0 := dp.2.2.1.resolve_left (by simpa using hc)
          rw [vm]
          rcases hne with hne | hne
          · have : den ρ y = 0 := by
              by_contra hy
              apply hne
              simp only [den]
              rw [hc, pw_of_nonneg le_rfl, Real.zero_rpow hy]
            rw [this]; simp
          · exact mul_nonneg h0 hne
        · exact .inl hc
      · intro hmi
        apply HN.radOk
        cases hy : intExp y with
        | false => exact dp.2.2.2.1 hy
        | true =>
          cases hx : intExp x with
          | false => exact hHN hx
          | true => rw [opMul_intExp hm hy hx] at hmi; simp at hmi
      · intro hs
        by_cases hc : den ρ c = 0
        · right
          have h1 := (dp.2.2.2.2 hs).resolve_left (by simpa using hc)
          have h0 : den ρ (pow c y) = 0 := by
            simp only [den]
            rw [hc, pw_of_nonneg le_rfl, Real.zero_rpow (by linarith [h1.2])]
          have h2 := (hstr hs).resolve_left (by simpa using h0)
          refine ⟨opMul_intExp hm h1.1 h2.1, ?_⟩
          rw [vm]; nlinarith [h1.2, h2.2]
        · exact .inl hc
    obtain ⟨v, d⟩ := opPow_V hC wc (opMul_W hC wy wx hm) hpd h
    refine ⟨?_, d⟩
    rw [v, vm]; simp only [den]; rw [pw_pw dp hHN]
  unfold multiplyExponents at h
  split at h
  · next p q =>
    split at h
    · next hev =>
      split at h
      · simp at h
      · next hq =>
        split at h
        · next hpq =>
          obtain ⟨h1, h2⟩ := ratEven_iff.1 hev
          obtain ⟨v, d⟩ := hC.abs ρ _ _ wc dp.1 (by
            intro hs hc
            have h1' := (dp.2.2.2.2 hs).resolve_left (by simpa using hc)
            have h0 : den ρ (pow c (rat p)) = 0 := by
              simp only [den]
              rw [hc, pw_of_nonneg le_rfl, Real.zero_rpow (by have := h1'.2; simp only [den_rat] at this; linarith)]
            have h2' := (hstr hs).resolve_left (by simpa using h0)
            obtain ⟨n, hn⟩ := intExp_iff.1 h2'.1
            simp only [Expr.rat.injEq] at hn
            have hq1 : (1 : ℚ) ≤ q := by have := h2'.2; simp only [den_rat] at this; exact_mod_cast this
            have hp1 : (1 : ℚ) ≤ p := by have := h1'.2; simp only [den_rat] at this; exact_mod_cast this
            have : p = 1 := le_antisymm (by rw [hpq]; exact (div_le_one (by linarith)).2 hq1) hp1
            rw [this] at h2; norm_num at h2) h
          refine ⟨?_, d⟩
          rw [v]; simp only [den]
          rw [even_root h1 h2 (by rw [hpq]; field_simp)]
          have := dp.2.2.1
          simpa using this
        · next hpq =>
          refine gen ?_ _ h
          rintro p' q' hp hq' _ _ h3
          simp only [Expr.rat.injEq] at hp hq'; subst hp hq'
          exact hpq (eq_one_div_of_mul_eq_one_left h3)
    · next hev =>
      refine gen ?_ _ h
      rintro p' q' hp hq' h1 h2 _
      simp only [Expr.rat.injEq] at hp hq'; subst hp hq'
      exact hev (ratEven_iff.2 ⟨h1, h2⟩)
  · next hnr =>
    refine gen ?_ _ h
    intro p q hp hq _ _ _
    exact hnr p q hp hq

/-! ## Distribution over products -/

theorem pw_prod_int {l : List ℝ} (n : ℤ) : pw l.prod n = (l.map (fun t => pw t n)).prod := by
  induction l with
  | nil => simp
  | cons a r ih =>
    rw [List.prod_cons, List.map_cons, List.prod_cons, ← ih, pw_int, pw_int, pw_int, mul_zpow]

theorem pw_prod_nonneg {l : List ℝ} (x : ℝ) (h : ∀ t ∈ l, 0 ≤ t) :
    pw l.prod x = (l.map (fun t => pw t x)).prod := by
  induction l with
  | nil => simp
  | cons a r ih =>
    have ha := h a (by simp)
    have hr : ∀ t ∈ r, 0 ≤ t := fun t ht => h t (by simp [ht])
    have hp : 0 ≤ r.prod := List.prod_nonneg hr
    simp only [List.prod_cons, List.map_cons, ← ih hr]
    rw [pw_of_nonneg ha, pw_of_nonneg hp, pw_of_nonneg (mul_nonneg ha hp), Real.mul_rpow ha hp]

mutual
theorem RadOk.nonneg {ρ : Str → ℝ} {x : Expr} : ∀ {a : Expr}, RadOk ρ x a → 0 ≤ den ρ a := by
  intro a h
  cases a <;> simp only [RadOk] at h <;> try exact h
  · split at h
    · simpa [den] using h
    · simpa [den] using RadOkL.nonneg h
  · rcases h with ⟨p, q, rfl, rfl, h1, h2, h3⟩ | h
    · have hpn : p = (p.num : ℚ) := ((Rat.den_eq_one_iff p).1 h1).symm
      have hp' : (p : ℝ) = (p.num : ℝ) := by conv_lhs => rw [hpn]; simp
      simp only [den]
      rw [hp', pw_int]
      exact (Int.even_iff.2 h2).zpow_nonneg _
    · have := h.nonneg
      simp only [den]
      rw [pw_of_nonneg this]
      exact Real.rpow_nonneg this _
theorem RadOkL.nonneg {ρ : Str → ℝ} {x : Expr} : ∀ {a : List Expr}, RadOkL ρ x a → 0 ≤ denP ρ a := by
  intro a h
  cases a with
  | nil => simp [denP]
  | cons y r => simp only [denP]; exact mul_nonneg h.1.nonneg (RadOkL.nonneg h.2)
end

theorem powEach_W {C : Ctors} (hC : Sound C) {x : Expr} (wx : WF x) : ∀ {ts ps : List Expr},
    (∀ t ∈ ts, WF t) → powEach C x ts = .ok ps → ∀ p ∈ ps, WF p := by
  intro ts ps hW h
  have h := mapR_ok.1 h
  induction h with
  | nil => simp
  | @cons a b l m hab hlm ih =>
    intro p hp
    rcases List.mem_cons.1 hp with rfl | hp
    · exact hC.powW _ _ _ (hW a (by simp)) wx hab
    · exact ih (fun t ht => hW t (by simp [ht])) (mapR_ok.2 hlm) p hp

theorem powEach_V {C : Ctors} (hC : Sound C) {s : Bool} {ρ : Str → ℝ} {x : Expr} (wx : WF x) : ∀ {ts ps : List Expr},
    (∀ t ∈ ts, WF t) → (∀ t ∈ ts, PowDomS s ρ t x) → powEach C x ts = .ok ps →
    ps.map (den ρ) = ts.map (fun t => pw (den ρ t) (den ρ x)) ∧ ∀ p ∈ ps, DomS s ρ p := by
  intro ts ps hW hD h
  have h := mapR_ok.1 h
  induction h with
  | nil => simp
  | @cons a b l m hab hlm ih =>
    obtain ⟨v, d⟩ := hC.pow ρ _ _ _ (hW a (by simp)) wx (hD a (by simp)) hab
    obtain ⟨v2, d2⟩ := ih (fun t ht => hW t (by simp [ht])) (fun t ht => hD t (by simp [ht])) (mapR_ok.2 hlm)
    refine ⟨by simp [v, v2], ?_⟩
    intro p hp
    rcases List.mem_cons.1 hp with rfl | hp
    · exact d
    · exact d2 p hp

theorem powDom_factors {s : Bool} {ρ : Str → ℝ} {ts : List Expr} {x : Expr} (hs : (prod ts).isSubtraction = false)
    (h : PowDomS s ρ (prod ts) x) : (∀ t ∈ ts, PowDomS s ρ t x) ∧
      pw (den ρ (prod ts)) (den ρ x) = (ts.map (fun t => pw (den ρ t) (den ρ x))).prod := by
  obtain ⟨db, dx, hne, hrad, hstr⟩ := h
  have hrad' : intExp x = false → ∀ t ∈ ts, RadOk ρ x t := by
    intro hx
    have := hrad hx
    simp only [RadOk, hs, Bool.false_eq_true, if_false] at this
    exact (RadOkL_iff ρ x ts).1 this
  refine ⟨?_, ?_⟩
  · intro t ht
    have hz : den ρ (prod ts) ≠ 0 → den ρ t ≠ 0 := by
      intro hne h0
      apply hne
      rw [den_prod]
      exact List.prod_eq_zero (List.mem_map.2 ⟨t, ht, h0⟩)
    exact ⟨Dom_prod.1 db t ht, dx, hne.imp_left hz, fun hx => hrad' hx t ht, fun hs => (hstr hs).imp_left hz⟩
  · rw [den_prod]
    have hmap : ts.map (fun t => pw (den ρ t) (den ρ x)) = (ts.map (den ρ)).map (fun t => pw t (den ρ x)) := by
      simp [List.map_map, Function.comp_def]
    rw [hmap]
    cases hx : intExp x with
    | true =>
      obtain ⟨n, rfl⟩ := intExp_iff.1 hx
      simp only [den_rat, Rat.cast_intCast]
      exact pw_prod_int n
    | false =>
      apply pw_prod_nonneg
      intro t ht
      obtain ⟨u, hu, rfl⟩ := List.mem_map.1 ht
      exact (hrad' hx u hu).nonneg

/-! ## Exponents that contain a logarithm -/

theorem findLog_split {O : Oracle} {b : Expr} : ∀ {ts pre rest : List Expr} {i : Expr},
    findLog O b pre ts = some (i, rest) →
    ∃ l1 l2 b', ts = l1 ++ log i b' :: l2 ∧ beq O b' b = true ∧ rest = pre ++ l1 ++ l2 := by
  intro ts
  induction ts with
  | nil => intro pre rest i h; simp [findLog] at h
  | cons t r ih =>
    intro pre rest i h
    simp only [findLog] at h
    split at h
    · next i' hi =>
      simp only [Option.some.injEq, Prod.mk.injEq] at h
      obtain ⟨rfl, rfl⟩ := h
      unfold logWithBase at hi
      split at hi
      · next i0 b0 =>
        split at hi
        · next hb =>
          simp only [Option.some.injEq] at hi; subst hi
          exact ⟨[], r, b0, by simp, hb, by simp⟩
        · simp at hi
      · simp at hi
    · obtain ⟨l1, l2, b', rfl, hb, rfl⟩ := ih h
      exact ⟨t :: l1, l2, b', by simp, hb, by simp⟩

theorem pw_logb {b i y : ℝ} (hb : 0 < b) (hb1 : b ≠ 1) (hi : 0 < i) :
    pw b (y * (Real.log i / Real.log b)) = pw i y := by
  rw [pw_of_nonneg hb.le, pw_of_nonneg hi.le, mul_comm, Real.rpow_mul hb.le, Real.log_div_log,
    Real.rpow_logb hb hb1 hi]

theorem powTail_W {O : Oracle} {C : Ctors} (hC : Sound C) {b x r : Expr} (wb : WF b) (wx : WF x)
    (hb : baseOk b = true) (h : powTail O C b x = .ok r) : WF r := by
  have infc : ∀ r, powInf O b x = .ok r → WF r := by
    intro r h
    unfold powInf at h
    split at h
    · split at h
      · simp only [Except.ok.injEq] at h; subst h; simp [WF]
      · split at h <;> (simp only [Except.ok.injEq] at h; subst h; simp [WF, wb, wx, hb])
    · simp only [Except.ok.injEq] at h; subst h; exact ⟨wb, wx, hb⟩
  unfold powTail at h
  split at h
  · split at h
    · obtain ⟨nb, hn, h⟩ := bind_ok.1 h
      have wn := opNeg_W hC wb hn
      split at h
      · exact hC.powW _ _ _ wn wx h
      · obtain ⟨p, hp, h⟩ := bind_ok.1 h
        exact opNeg_W hC (hC.powW _ _ _ wn wx hp) h
    · exact infc _ h
  · exact infc _ h

theorem powTail_V {O : Oracle} (hO : O.Exact) {C : Ctors} (hC : Sound C) {s : Bool} {ρ : Str → ℝ} {b x r : Expr}
    (wb : WF b) (wx : WF x) (hd : PowDomS s ρ b x)
    (hshape : (∃ ts, b = prod ts ∧ b.isSubtraction = true) ∨ (b.isProd = false ∧ b.isPow = false))
    (h : powTail O C b x = .ok r) : den ρ r = pw (den ρ b) (den ρ x) ∧ DomS s ρ r := by
  have hst : DomS s ρ (pow b x) := by
    refine ⟨hd.1, hd.2.1, hd.2.2.1, fun hx => ?_, hd.2.2.2.2⟩
    have := hd.2.2.2.1 hx
    rcases hshape with ⟨ts, rfl, hs⟩ | ⟨h1, h2⟩
    · simpa only [RadOk, HN, hs, if_true] using this
    · cases b <;> simp_all [RadOk, HN, isProd, isPow]
  have infc : ∀ r, powInf O b x = .ok r → den ρ r = pw (den ρ b) (den ρ x) ∧ DomS s ρ r := by
    intro r h
    have hni : beq O x inf = false := by
      have := hd.2.1
      cases x <;> simp_all [beq, DomS, hO.isPi, hO.isE]
    have hnn : beq O x neginf = false := by
      have := hd.2.1
      cases x <;> simp_all [beq, DomS, hO.isPi, hO.isE]
    simp only [powInf, hni, hnn, Bool.false_eq_true, if_false, ite_self, Except.ok.injEq] at h
    subst h
    exact ⟨by simp only [den], hst⟩
  unfold powTail at h
  split at h
  · next q =>
    split at h
    · next hcond =>
      simp only [Bool.and_eq_true, beq_iff_eq] at hcond
      have hqn : q = (q.num : ℚ) := ((Rat.den_eq_one_iff q).1 hcond.2).symm
      have hq' : (q : ℝ) = (q.num : ℝ) := by conv_lhs => rw [hqn]; simp
      obtain ⟨nb, hn, h⟩ := bind_ok.1 h
      have wn := opNeg_W hC wb hn
      obtain ⟨vn, dn⟩ := opNeg_V hC wb hd.1 hn
      have hpd : PowDomS s ρ nb (rat q) := by
        refine ⟨dn, by simp, ?_, ?_, ?_⟩
        · rw [vn]; rcases hd.2.2.1 with h | h
          · exact .inl (neg_ne_zero.2 h)
          · exact .inr h
        · intro hi; simp [intExp, hcond.2] at hi
        · intro hs; rw [vn]; exact (hd.2.2.2.2 hs).imp_left neg_ne_zero.2
      split at h
      · next he =>
        obtain ⟨v, d⟩ := hC.pow ρ _ _ _ wn wx hpd h
        refine ⟨?_, d⟩
        rw [v, vn]; simp only [den_rat]; rw [hq', pw_int, pw_int, (Int.even_iff.2 he).neg_zpow]
      · next he =>
        obtain ⟨p, hp, h⟩ := bind_ok.1 h
        obtain ⟨v, d⟩ := hC.pow ρ _ _ _ wn wx hpd hp
        obtain ⟨v2, d2⟩ := opNeg_V hC (hC.powW _ _ _ wn wx hp) d h
        refine ⟨?_, d2⟩
        have ho : Odd q.num := Int.not_even_iff_odd.1 (fun h' => he (Int.even_iff.1 h'))
        rw [v2, v, vn]; simp only [den_rat]; rw [hq', pw_int, pw_int, ho.neg_zpow, neg_neg]
    · exact infc _ h
  · exact infc _ h

theorem powLog_W {O : Oracle} {C : Ctors} (hC : Sound C) {b x r : Expr} (wb : WF b) (wx : WF x)
    (hb : baseOk b = true) (h : powLog O C b x = .ok r) : WF r := by
  unfold powLog at h
  split at h
  · split at h
    · simp only [Except.ok.injEq] at h; subst h; exact wx.1
    · exact powTail_W hC wb wx hb h
  · next ts =>
    split at h
    · next i rest hf =>
      obtain ⟨y, hy, hcp⟩ := bind_ok.1 h
      obtain ⟨l1, l2, b', rfl, _, rfl⟩ := findLog_split hf
      obtain ⟨wl, wt⟩ := WF_prod.1 wx
      refine hC.powW _ _ _ (wt (log i b') (by simp)).1 (mkProdSkip_WF hy ?_ ?_) hcp
      · intro t ht
        simp only [List.nil_append, List.mem_append] at ht
        exact wt t (by simp; tauto)
      · refine le_trans ?_ wl
        simp [List.filter_append, List.filter_cons]
        split <;> simp
    · exact powTail_W hC wb wx hb h
  · exact powTail_W hC wb wx hb h

theorem powLog_V {O : Oracle} (hO : O.Exact) {C : Ctors} (hC : Sound C) {s : Bool} {ρ : Str → ℝ} {b x r : Expr}
    (wb : WF b) (wx : WF x) (hd : PowDomS s ρ b x)
    (hshape : (∃ ts, b = prod ts ∧ b.isSubtraction = true) ∨ (b.isProd = false ∧ b.isPow = false))
    (h : powLog O C b x = .ok r) : den ρ r = pw (den ρ b) (den ρ x) ∧ DomS s ρ r := by
  unfold powLog at h
  split at h
  · next i b' =>
    split at h
    · next hb =>
      simp only [Except.ok.injEq] at h; subst h
      have dx := hd.2.1
      have := Exact.beq_eq hO hd.1 dx.2.1 hb
      subst this
      refine ⟨?_, dx.1⟩
      simp only [den]
      have := pw_logb (y := 1) dx.2.2.2.2.1 dx.2.2.2.2.2 dx.2.2.2.1
      simpa using this.symm
    · exact powTail_V hO hC wb wx hd hshape h
  · next ts =>
    split at h
    · next i rest hf =>
      obtain ⟨y, hy, hcp⟩ := bind_ok.1 h
      obtain ⟨l1, l2, b', rfl, hb, rfl⟩ := findLog_split hf
      obtain ⟨wl, wt⟩ := WF_prod.1 wx
      have dt := Dom_prod.1 hd.2.1
      have dl : DomS s ρ (log i b') := dt _ (by simp)
      have := Exact.beq_eq hO dl.2.1 hd.1 hb
      subst this
      have drest : ∀ t ∈ [] ++ l1 ++ l2, DomS s ρ t := by
        intro t ht
        simp only [List.nil_append, List.mem_append] at ht
        exact dt t (by simp; tauto)
      obtain ⟨dy, vy⟩ := mkProdSkip_val (denInterp (s := s) ρ) hy drest
      have wy : WF y := by
        refine mkProdSkip_WF hy ?_ ?_
        · intro t ht
          simp only [List.nil_append, List.mem_append] at ht
          exact wt t (by simp; tauto)
        · refine le_trans ?_ wl
          simp [List.filter_append, List.filter_cons]
          split <;> simp
      obtain ⟨v, d⟩ := hC.pow ρ _ _ _ (wt (log i b') (by simp)).1 wy
        ⟨dl.1, dy, .inl dl.2.2.2.1.ne', fun _ => dl.2.2.1.radOk, fun _ => .inl dl.2.2.2.1.ne'⟩ hcp
      refine ⟨?_, d⟩
      rw [v, den_prod]
      have e : ((l1 ++ log i b' :: l2).map (den ρ)).prod
          = den ρ y * (Real.log (den ρ i) / Real.log (den ρ b')) := by
        rw [vy]; simp [den]; ring
      rw [e, pw_logb dl.2.2.2.2.1 dl.2.2.2.2.2 dl.2.2.2.1]
    · exact powTail_V hO hC wb wx hd hshape h
  · exact powTail_V hO hC wb wx hd hshape h

theorem accumulatePower_W {O : Oracle} {C : Ctors} (hC : Sound C) {b x r : Expr}
    (h : accumulatePower O C b x = .ok (some r)) : WF r := by
  unfold accumulatePower at h
  split at h
  · exact accumulatePowerRat_W hC h
  · split at h
    · simp at h
    · next v _ =>
      simp only [Except.ok.injEq, Option.some.injEq] at h; subst h
      cases v <;> simp [const, WF]

theorem powCtor_W {O : Oracle} {C : Ctors} (hC : Sound C) {b x r : Expr} (wb : WF b) (wx : WF x)
    (h : powCtor O C b x = .ok r) : WF r := by
  unfold powCtor at h
  split at h
  · simp only [Except.ok.injEq] at h; subst h; simp
  · split at h
    · simp only [Except.ok.injEq] at h; subst h; exact wb
    · split at h
      · simp only [Except.ok.injEq] at h; subst h; simp
      · split at h
        · next hacc =>
          split at h
          · simp at h
          · simp only [Except.ok.injEq] at h; subst h
            refine ⟨wb, wx, ?_⟩
            simp only [Bool.and_eq_true] at hacc
            cases b <;> simp_all [isAcc, baseOk]
          · next r' hr => simp only [Except.ok.injEq] at h; subst h; exact accumulatePower_W hC hr
        · split at h
          · next b' x' => exact multiplyExponents_W hC wb.1 wb.2.1 wx h
          · next ts =>
            split at h
            · obtain ⟨ps, hp, h⟩ := bind_ok.1 h
              exact hC.prodW _ _ (powEach_W hC wx (WF_prod.1 wb).2 hp) h
            · next hs => exact powLog_W hC wb wx (by simpa [baseOk] using hs) h
          · next hnp hnq =>
            refine powLog_W hC wb wx ?_ h
            cases b <;> simp_all [baseOk]

theorem powCtor_V {O : Oracle} (hO : O.Exact) {C : Ctors} (hC : Sound C) {s : Bool} {ρ : Str → ℝ} {b x r : Expr}
    (wb : WF b) (wx : WF x) (hd : PowDomS s ρ b x) (h : powCtor O C b x = .ok r) :
    den ρ r = pw (den ρ b) (den ρ x) ∧ DomS s ρ r := by
  unfold powCtor at h
  split at h
  · next h0 =>
    have := Exact.beq_eq hO hd.2.1 (Dom_rat ρ 0) h0
    simp only [Except.ok.injEq] at h; subst h this; simp
  · next hx0 =>
    split at h
    · next h1 =>
      have := Exact.beq_eq hO hd.2.1 (Dom_rat ρ 1) h1
      simp only [Except.ok.injEq] at h; subst h this; simpa using hd.1
    · split at h
      · next h1 =>
        have := Exact.beq_eq hO hd.1 (Dom_rat ρ 1) h1
        simp only [Except.ok.injEq] at h; subst h this; simp
      · split at h
        · next hacc =>
          simp only [Bool.and_eq_true] at hacc
          obtain ⟨p, rfl⟩ := hd.1.isAcc_rat hacc.1
          obtain ⟨q, rfl⟩ := hd.2.1.isAcc_rat hacc.2
          have hq0 : q ≠ 0 := by rintro rfl; simp [beq] at hx0
          have hne : p ≠ 0 ∨ 0 ≤ q := by
            rcases hd.2.2.1 with h | h
            · left; simpa using h
            · right; simpa using h
          have hrad : q.den ≠ 1 → 0 ≤ p := by
            intro hqd
            have := hd.2.2.2.1 (by simp [intExp, hqd])
            simpa [RadOk] using this
          split at h
          · simp at h
          · simp only [Except.ok.injEq] at h; subst h
            refine ⟨by simp only [den], hd.1, hd.2.1, hd.2.2.1, ?_, hd.2.2.2.2⟩
            intro hi
            have := hd.2.2.2.1 hi
            simpa only [RadOk, HN] using this
          · next r' hr =>
            simp only [Except.ok.injEq] at h; subst h
            simp only [accumulatePower] at hr
            simpa using accumulatePowerRat_V hO hC (ρ := ρ) hq0 hne hrad hr
        · split at h
          · next b' x' => exact multiplyExponents_V hC wb.1 wb.2.1 wx hd h
          · next ts =>
            split at h
            · next hs =>
              simp only [Bool.not_eq_true', ] at hs
              obtain ⟨ps, hp, h⟩ := bind_ok.1 h
              obtain ⟨fd, fv⟩ := powDom_factors hs hd
              obtain ⟨v1, d1⟩ := powEach_V hC wx (WF_prod.1 wb).2 fd hp
              obtain ⟨v2, d2⟩ := hC.prod ρ _ _ (powEach_W hC wx (WF_prod.1 wb).2 hp) d1 h
              exact ⟨by rw [v2, v1, fv], d2⟩
            · next hs =>
              exact powLog_V hO hC wb wx hd (.inl ⟨_, rfl, by simpa using hs⟩) h
          · next hnp hnq =>
            refine powLog_V hO hC wb wx hd (.inr ⟨?_, ?_⟩) h
            · cases b <;> simp_all [isProd]
            · cases b <;> simp_all [isPow]

/-! ## `Abs` -/

mutual
theorem strictlyPositive_nonneg {s : Bool} {ρ : Str → ℝ} : ∀ {t : Expr}, DomS s ρ t → strictlyPositive t = true →
    0 ≤ den ρ t := by
  intro t d h
  cases t with
  | rat q => simp only [strictlyPositive, decide_eq_true_eq] at h; simpa using h
  | pi => simp only [den]; positivity
  | euler => simp only [den]; positivity
  | sum ts => rw [den_sum]; exact (strictlyPositiveL_nonneg (Dom_sum.1 d) (by simpa [strictlyPositive] using h)).1
  | prod ts => rw [den_prod]; exact (strictlyPositiveL_nonneg (Dom_prod.1 d) (by simpa [strictlyPositive] using h)).2
  | pow b x =>
    have := strictlyPositive_nonneg d.1 (by simpa [strictlyPositive] using h)
    simp only [den]; rw [pw_of_nonneg this]; exact Real.rpow_nonneg this _
  | _ => simp_all [strictlyPositive, DomS]
theorem strictlyPositiveL_nonneg {s : Bool} {ρ : Str → ℝ} : ∀ {ts : List Expr}, (∀ t ∈ ts, DomS s ρ t) →
    strictlyPositiveL ts = true → 0 ≤ (ts.map (den ρ)).sum ∧ 0 ≤ (ts.map (den ρ)).prod := by
  intro ts d h
  cases ts with
  | nil => simp
  | cons t r =>
    simp only [strictlyPositiveL, Bool.and_eq_true] at h
    have h1 := strictlyPositive_nonneg (d t (by simp)) h.1
    have h2 := strictlyPositiveL_nonneg (fun t ht => d t (by simp [ht])) h.2
    simp only [List.map_cons, List.sum_cons, List.prod_cons]
    exact ⟨add_nonneg h1 h2.1, mul_nonneg h1 h2.2⟩
end

theorem absCtor_W {C : Ctors} (hC : Sound C) {i r : Expr} (wi : WF i) (h : absCtor C i = .ok r) : WF r := by
  unfold absCtor at h
  split at h <;> try (simp only [Except.ok.injEq] at h; subst h; simp [WF]; done)
  split at h
  · split at h
    · simp at h
    · next ni hn =>
      split at h
      · simp at h
      · simp only [Except.ok.injEq] at h; subst h; exact wi
      · next r' _ hr =>
        simp only [Except.ok.injEq] at h; subst h; exact hC.absW _ _ (opNeg_W hC wi hn) (by assumption)
  · split at h <;> (simp only [Except.ok.injEq] at h; subst h; exact wi)

theorem absCtor_V {C : Ctors} (hC : Sound C) {s : Bool} {ρ : Str → ℝ} {i r : Expr} (wi : WF i) (di : DomS s ρ i)
    (hs : s = true → den ρ i ≠ 0) (h : absCtor C i = .ok r) : den ρ r = |den ρ i| ∧ DomS s ρ r := by
  unfold absCtor at h
  split at h <;> try (simp [DomS] at di; done)
  · simp only [Except.ok.injEq] at h; subst h
    exact ⟨by simp only [den]; rw [abs_of_pos (Real.exp_pos 1)], di⟩
  · simp only [Except.ok.injEq] at h; subst h
    exact ⟨by simp only [den]; rw [abs_of_pos Real.pi_pos], di⟩
  · simp only [Except.ok.injEq] at h; subst h; simp
  · split at h
    · split at h
      · simp at h
      · next ni hn =>
        obtain ⟨vn, dn⟩ := opNeg_V hC wi di hn
        split at h
        · simp at h
        · simp only [Except.ok.injEq] at h; subst h; exact ⟨by simp only [den], di, hs⟩
        · simp only [Except.ok.injEq] at h; subst h
          have := hC.abs ρ _ _ (opNeg_W hC wi hn) dn (by rw [vn]; exact fun h => neg_ne_zero.2 (hs h)) (by assumption)
          rwa [vn, abs_neg] at this
    · split at h
      · next hsp =>
        simp only [Except.ok.injEq] at h; subst h
        exact ⟨(abs_of_nonneg (strictlyPositive_nonneg di hsp)).symm, di⟩
      · simp only [Except.ok.injEq] at h; subst h; exact ⟨by simp only [den], di, hs⟩

/-! ## The whole stack -/

theorem step_sound {O : Oracle} (hO : O.Exact) {C : Ctors} (hC : Sound C) : Sound (step O C) where
  sumW := fun _ _ hW h => sumCtor_WF hW h
  sum := fun ρ _ _ hW hD h => sumCtor_val (denInterp ρ) hO.isPi hO.isE hW hD h
  prodW := fun _ _ hW h => prodCtor_W hC hW h
  prod := fun _ _ _ hW hD h => prodCtor_V hO hC hW hD h
  powW := fun _ _ _ wb wx h => powCtor_W hC wb wx h
  pow := fun _ _ _ _ wb wx hd h => powCtor_V hO hC wb wx hd h
  absW := fun _ _ w h => absCtor_W hC w h
  abs := fun _ _ _ w d hs h => absCtor_V hC w d hs h

/-- Every level of the constructor stack is sound. -/
theorem ctors_sound {O : Oracle} (hO : O.Exact) : ∀ n, Sound (ctors O n)
  | 0 => by constructor <;> intros <;> simp_all [ctors]
  | n + 1 => step_sound hO (ctors_sound hO n)

end Simpy
