import Verif.Spec.FactorOut
import Verif.Proofs.NFFactor
import Verif.Props.Ring

/-!
# C89: factoring polynomials in several symbols, and multiplying out again
-/

namespace Simpy
open Expr TakenOut

variable {O : Oracle} {ts us : List Expr}

namespace NF

theorem number_congr {cs cs' : List ℚ} {k : ℚ} (h : ∀ c, c ∈ cs ↔ c ∈ cs') (hn : Number cs k) : Number cs' k := by
  rcases hn with ⟨h1, ⟨c, hc, h2⟩, h3⟩ | ⟨h1, a, ha, b, hb, h2⟩
  · refine .inl ⟨fun c hc => h1 c ((h c).2 hc), ⟨c, (h c).1 hc, h2⟩, h3.trans ⟨fun k c hc => k c ((h c).2 hc), fun k c hc => k c ((h c).1 hc)⟩⟩
  · exact .inr ⟨h1, a, (h a).1 ha, b, (h b).1 hb, h2⟩

theorem mem_coeffs {p : MvPolynomial Str ℚ} {c : ℚ} : c ∈ coeffs p ↔ ∃ d ∈ p.support, p.coeff d = c := by
  unfold coeffs
  simp only [List.mem_map, Finset.mem_toList]

theorem support_scale {k : ℚ} {g d : Str →₀ ℕ} {s : MvPolynomial Str ℚ} (hk : k ≠ 0) :
    g + d ∈ (MvPolynomial.monomial g k * s).support ↔ d ∈ s.support := by
  rw [MvPolynomial.mem_support_iff, MvPolynomial.mem_support_iff, MvPolynomial.coeff_monomial_mul]
  simp [hk]

theorem support_scale' {k : ℚ} {g e : Str →₀ ℕ} {s : MvPolynomial Str ℚ} (hk : k ≠ 0) (h : e ∈ (MvPolynomial.monomial g k * s).support) :
    ∃ d ∈ s.support, e = g + d := by
  classical
  rw [MvPolynomial.mem_support_iff, MvPolynomial.coeff_monomial_mul'] at h
  split at h
  · rename_i hle
    refine ⟨e - g, ?_, (add_tsub_cancel_of_le hle).symm⟩
    rw [MvPolynomial.mem_support_iff]
    intro h0; rw [h0] at h; simp at h
  · exact absurd rfl h

end NF

/-- **C89** `Sum.factor` on a polynomial in any number of symbols that is multiplied out always returns (with a stack of at least 13
levels): the product of a single term `c` and of a polynomial `s` that is multiplied out and has as many terms. `c` is what the terms
have in common, the product of `c` and `s` is the polynomial, and multiplying the result out gives back literally what was
factored. -/
theorem factor_multiplied_out (hO : O.Exact) (h : OutPoly O (sum ts)) {n : Nat} (hn : 13 ≤ n) : ∃ c us r,
    factorSum (ctors O n) ts = .ok r ∧ opMul (ctors O n) c (sum us) = .ok r ∧ outOf O n r = .ok (sum ts) ∧
    PolyTerm c ∧ OutPoly O c ∧ OutPoly O (sum us) ∧ us.length = ts.length ∧
    (∀ ρ, den ρ r = den ρ (sum ts) ∧ den ρ c * den ρ (sum us) = den ρ (sum ts)) ∧
    ∃ k g, TakenTerm (toMv (sum ts)) k g ∧ toMv c = MvPolynomial.monomial g k := by
  classical
  obtain ⟨n, rfl⟩ : ∃ j, n = j + 8 := ⟨n - 8, by omega⟩
  have gp := NF.good_toMv h.poly
  obtain ⟨k, g, s, r, h1, h2, hk, gg, gs, h3, h4, h5, h6, ⟨cs, h7, h8⟩, h9⟩ := NF.factor_polyE hO n gp (NF.out_form hO h).symm
  have hc : NF.mono O k g = NF.polyE O (MvPolynomial.monomial g k) := (NF.polyE_mono k g).symm
  have len : ∀ {us : List Expr} {p : MvPolynomial Str ℚ}, NF.polyE O p = sum us → us.length = p.support.card ∧ 2 ≤ us.length := by
    intro us p e
    rcases NF.polyE_cases (O := O) p with ⟨c, d, rfl⟩ | ⟨e', hl⟩
    · rw [NF.polyE_mono] at e
      have := NF.sum_mono (O := O) c d
      rw [e] at this; cases this
    · rw [e'] at e
      have := congrArg List.length (Expr.sum.inj e)
      rw [List.length_reverse, (NF.sorted_perm _).length_eq] at this
      refine ⟨?_, by omega⟩
      rw [← this, NF.terms, List.length_map, Finset.length_toList]
  have cardeq : s.support.card = (toMv (sum ts)).support.card := by
    refine Finset.card_bij (fun d _ => g + d) (fun d hd => ?_) (fun a _ b _ e => add_left_cancel e) fun e he => ?_
    · rw [← h3]; exact (NF.support_scale hk).2 hd
    · rw [← h3] at he
      obtain ⟨d, hd, e⟩ := NF.support_scale' hk he
      exact ⟨d, hd, e.symm⟩
  obtain ⟨l1, l2⟩ := len (NF.out_form hO h).symm
  obtain ⟨us, hus⟩ : ∃ us, NF.polyE O s = sum us := by
    rcases NF.polyE_cases (O := O) s with ⟨c, d, rfl⟩ | ⟨e, _⟩
    · have := MvPolynomial.support_monomial_subset (s := d) (a := c)
      have := Finset.card_le_card this
      simp at this; omega
    · exact ⟨_, e⟩
  have os : OutPoly O (sum us) := hus ▸ NF.out_of hO gs
  rw [hus] at h2
  have ex := NF.expand_poly hO h4 (n := n + 8) (by omega)
  rw [h5, ← NF.out_form hO h] at ex
  refine ⟨NF.mono O k g, us, r, h1, h2, ex, NF.polyTerm_mono k g, by rw [hc]; exact NF.out_of hO (NF.good_mono gg), os, ?_, fun ρ => ⟨?_, ?_⟩,
    k, g, ⟨fun x => (h9 x).symm, ?_⟩, ?_⟩
  · rw [(len hus).1, cardeq, l1]
  · rw [NF.den_toMv ρ h4, h5, NF.den_toMv ρ h.poly]
  · rw [hc, ← hus, NF.ev_polyE, NF.ev_polyE, NF.den_toMv ρ h.poly, ← h3]
    simp [NF.ev, MvPolynomial.eval₂_mul]
  · exact NF.number_congr (fun c => (h7 c).trans NF.mem_coeffs.symm) h8
  · rw [hc, NF.toMv_polyE hO (NF.good_mono gg)]

/-- **C89** What is left has no symbol in all of its terms. -/
theorem factor_leaves_no_symbol (hO : O.Exact) (h : OutPoly O (sum ts)) {n : Nat} (hn : 13 ≤ n) : ∃ c us r,
    factorSum (ctors O n) ts = .ok r ∧ PolyTerm c ∧ opMul (ctors O n) c (sum us) = .ok r ∧ OutPoly O (sum us) ∧
    ∀ x : Str, ∃ u ∈ us, x ∉ syms u := by
  obtain ⟨c, us, r, h1, h2, -, h3, h4, h5, -, h6, k, g, h7, h8⟩ := factor_multiplied_out hO h hn
  refine ⟨c, us, r, h1, h3, h2, h5, fun x => ?_⟩
  have hp : toMv (sum ts) = MvPolynomial.monomial g k * toMv (sum us) := by
    refine NF.ev_inj fun ρ => ?_
    rw [← NF.den_toMv ρ h.poly, ← (h6 ρ).2, NF.den_toMv ρ h4.poly, NF.den_toMv ρ h5.poly, h8]
    simp [NF.ev, MvPolynomial.eval₂_mul]
  have form := NF.out_form hO h5
  have hk : k ≠ 0 := by
    rintro rfl
    have z : NF.polyE O (toMv (sum ts)) = rat 0 := by
      rw [hp, map_zero, zero_mul, ← NF.polyE_C 0, map_zero]
    rw [← NF.out_form hO h] at z; cases z
  rcases NF.polyE_cases (O := O) (toMv (sum us)) with ⟨c', d, e⟩ | ⟨e, _⟩
  · rw [e, NF.polyE_mono] at form
    have := NF.sum_mono (O := O) c' d
    rw [← form] at this; cases this
  rw [e] at form
  have form := Expr.sum.inj form
  have hmem : ∀ t, t ∈ us ↔ t ∈ NF.terms O (toMv (sum us)) := fun t => by
    conv_lhs => rw [form]
    rw [List.mem_reverse, (NF.sorted_perm _).mem_iff]
  by_contra hne
  push Not at hne
  have hle : g + Finsupp.single x 1 ≤ g := by
    rw [h7.powers]
    intro e' he'
    rw [hp] at he'
    obtain ⟨d, hd, rfl⟩ := NF.support_scale' hk he'
    have hm : NF.mono O ((toMv (sum us)).coeff d) d ∈ us := by
      rw [hmem]
      exact List.mem_map.2 ⟨d, by simpa using hd, rfl⟩
    have hs := hne _ hm
    have : d x ≠ 0 := by
      exact NF.syms_mono x hs
    intro s
    by_cases hx : s = x
    · subst hx; simp; omega
    · simp [Finsupp.single_eq_of_ne hx]
  have := hle x
  simp at this

/-- **C89** Different polynomials have different factored forms. -/
theorem factor_injective (hO : O.Exact) (h : OutPoly O (sum ts)) (h' : OutPoly O (sum us)) {n : Nat} (hn : 13 ≤ n)
    (e : factorSum (ctors O n) ts = factorSum (ctors O n) us) : ts = us := by
  obtain ⟨_, _, r, h1, -, h2, -⟩ := factor_multiplied_out hO h hn
  obtain ⟨_, _, r', h1', -, h2', -⟩ := factor_multiplied_out hO h' hn
  rw [h1, h1'] at e
  rw [Except.ok.inj e, h2'] at h2
  exact (Expr.sum.inj (Except.ok.inj h2)).symm

namespace NF

/-- `1 * s` for a sum. -/
theorem one_times (n : Nat) (us : List Expr) : opMul (ctors O (n + 1)) (rat 1) (sum us) = .ok (sum us) := by
  show prodCtor O (ctors O n) [rat 1, sum us] = _
  have r1 : beq O (sum us) (rat 1) = false := rfl
  have r2 : (sum us).isAcc = false := rfl
  have r3 : (rat 1).isAcc = true := rfl
  have r4 : deconPow (sum us) = (sum us, rat 1) := rfl
  have r5 : deconPow (rat 1) = (rat 1, rat 1) := rfl
  have hf : flatPL [rat 1, sum us] = [rat 1, sum us] := by simp [flatPL, flatP]
  have hc : combineProd O (ctors O n) (flatPL [rat 1, sum us]) = .ok [sum us] := by
    rw [hf]
    simp [combineProd, combineProdLoop, r1, r2, r3, r4, r5, bind, Except.bind, pure, Except.pure, accumulateProd, beq]
  unfold prodCtor
  rw [hc]; rfl

end NF

/-- **C89** If of any two coefficients one divides the other, then nothing more can be taken out of what is left: factoring it returns
it unchanged. -/
theorem factor_once (hO : O.Exact) (h : OutPoly O (sum ts)) {n : Nat} (hn : 13 ≤ n)
    (hd : ∀ a ∈ coeffs (toMv (sum ts)), ∀ b ∈ coeffs (toMv (sum ts)), Divides a b ∨ Divides b a) : ∃ c us r,
    factorSum (ctors O n) ts = .ok r ∧ PolyTerm c ∧ opMul (ctors O n) c (sum us) = .ok r ∧ factorSum (ctors O n) us = .ok (sum us) := by
  obtain ⟨c, us, r, h1, h2, -, h3, h4, h5, -, h6, k, g, h7, h8⟩ := factor_multiplied_out hO h hn
  obtain ⟨c', us', r', i1, i2, -, i3, i4, i5, -, i6, k', g', i7, i8⟩ := factor_multiplied_out hO h5 hn
  refine ⟨c, us, r, h1, h3, h2, ?_⟩
  have prods : ∀ {ts us : List Expr} {c : Expr} {k : ℚ} {g : Str →₀ ℕ}, OutPoly O (sum ts) → OutPoly O c → OutPoly O (sum us) →
      (∀ ρ, den ρ c * den ρ (sum us) = den ρ (sum ts)) → toMv c = MvPolynomial.monomial g k →
      toMv (sum ts) = MvPolynomial.monomial g k * toMv (sum us) ∧ k ≠ 0 := by
    intro ts us c k g o1 o2 o3 hv hm
    have hp : toMv (sum ts) = MvPolynomial.monomial g k * toMv (sum us) := by
      refine NF.ev_inj fun ρ => ?_
      rw [← NF.den_toMv ρ o1.poly, ← hv ρ, NF.den_toMv ρ o2.poly, NF.den_toMv ρ o3.poly, hm]
      simp [NF.ev, MvPolynomial.eval₂_mul]
    refine ⟨hp, ?_⟩
    rintro rfl
    have z : NF.polyE O (toMv (sum ts)) = rat 0 := by
      rw [hp, map_zero, zero_mul, ← NF.polyE_C 0, map_zero]
    rw [← NF.out_form hO o1] at z; cases z
  obtain ⟨hp, hk⟩ := prods h h4 h5 (fun ρ => (h6 ρ).2) h8
  obtain ⟨hp', hk'⟩ := prods h5 i4 i5 (fun ρ => (i6 ρ).2) i8
  have co : ∀ x, x ∈ coeffs (toMv (sum ts)) ↔ ∃ y ∈ coeffs (toMv (sum us)), x = k * y := by
    intro x
    rw [NF.mem_coeffs, hp]
    constructor
    · rintro ⟨e, he, rfl⟩
      obtain ⟨d, hd', rfl⟩ := NF.support_scale' hk he
      exact ⟨_, NF.mem_coeffs.2 ⟨d, hd', rfl⟩, by rw [MvPolynomial.coeff_monomial_mul]⟩
    · rintro ⟨y, hy, rfl⟩
      obtain ⟨d, hd', rfl⟩ := NF.mem_coeffs.1 hy
      exact ⟨g + d, (NF.support_scale hk).2 hd', by rw [MvPolynomial.coeff_monomial_mul]⟩
  have hg : g' = 0 := by
    have : g + g' ≤ g := by
      rw [h7.powers]
      intro e he
      rw [hp] at he
      obtain ⟨d, hd', rfl⟩ := NF.support_scale' hk he
      exact add_le_add_right ((i7.powers g').1 le_rfl d hd') g
    ext s
    have := this s
    simp at this; simpa using this
  have hn : CommonNumber (coeffs (toMv (sum ts))) k := by
    rcases h7.number with hn | ⟨-, a, ha, b, hb, n1, n2⟩
    · exact hn
    · rcases hd a ha b hb with h | h
      exacts [absurd h n1, absurd h n2]
  have one : k' = 1 := by
    rcases i7.number with ⟨m1, ⟨x, hx, m2⟩, m3⟩ | ⟨m, -⟩
    · obtain ⟨n1, ⟨y, hy, n2⟩, n3⟩ := hn
      obtain ⟨y', hy', rfl⟩ := (co y).1 hy
      -- `y'` is `1` or `-1`
      have hy1 : |y'| = 1 := by
        rw [abs_mul] at n2
        have := abs_pos.2 hk
        field_simp at n2
        linarith
      obtain ⟨z, hz⟩ := n1 (k * x) ((co _).2 ⟨x, hx, rfl⟩)
      have hxz : x = z := by
        rw [mul_comm] at hz; exact mul_right_cancel₀ hk hz
      obtain ⟨w, hw⟩ := m1 y' hy'
      have hle : |k'| = 1 := by
        rw [hxz] at m2
        rw [hw, abs_mul, m2] at hy1
        rw [m2]
        have e1 : |w| * |z| = 1 := by exact_mod_cast hy1
        have : |z| = 1 := by
          have h0 : 0 ≤ |z| := abs_nonneg z
          exact Int.eq_one_of_dvd_one h0 ⟨|w|, by rw [← e1]; ring⟩
        exact_mod_cast this
      rcases (abs_eq (by norm_num)).1 hle with h | h
      · exact h
      · exfalso
        have neg := m3.1 (by rw [h]; norm_num)
        rcases lt_or_gt_of_ne hk with hk0 | hk0
        · have := n3.1 hk0 _ hy
          have := neg _ hy'
          nlinarith
        · have : k < 0 := n3.2 fun c hc => by
            obtain ⟨y, hy, rfl⟩ := (co c).1 hc
            have := neg y hy
            nlinarith
          linarith
    · exact m
  rw [i1]
  have hc' : c' = rat 1 := by
    rw [NF.out_form hO i4, i8, hg, one, NF.polyE_mono, NF.mono_const]
  have hu : sum us' = sum us := by
    rw [NF.out_form hO i5, NF.out_form hO h5, hp', hg, one]
    congr 1
    rw [← MvPolynomial.C_apply]; simp
  obtain ⟨n, rfl⟩ : ∃ j, n = j + 1 := ⟨n - 1, by omega⟩
  rw [← i2, hc', hu, NF.one_times]

section examples
set_option maxRecDepth 10000
private abbrev x : Expr := sym ['x']
private abbrev y : Expr := sym ['y']

/-- `-4*y*x**2 - 8*x*y` -/
private abbrev p1 : List Expr := [prod [rat (-4), y, pow x (rat 2)], prod [rat (-8), x, y]]

private theorem px : PolyExpr exactOracle x := .sym _ (by decide)
private theorem py : PolyExpr exactOracle y := .sym _ (by decide)
private theorem sq : PolyExpr exactOracle (pow x (rat 2)) := by
  have : PolyExpr exactOracle (pow x (rat ((2 : ℕ) : ℚ))) := .pow 20 2 px le_rfl (by decide +kernel) (fun h => absurd h (by decide))
  simpa using this

/-- Non-vacuity: this is a polynomial that is multiplied out. -/
private theorem o1 : OutPoly exactOracle (sum p1) where
  poly := .sum 20 (by
    simp only [List.mem_cons, List.not_mem_nil, or_false, forall_eq_or_imp, forall_eq]
    exact ⟨.prod 20 (by simp [py, sq, PolyExpr.rat]) (by simp [isProd]) (by decide +kernel),
      .prod 20 (by simp [px, py, PolyExpr.rat]) (by simp [isProd]) (by decide +kernel)⟩) (by decide +kernel)
  out := .sum le_rfl (by
    simp only [List.mem_cons, List.not_mem_nil, or_false, forall_eq_or_imp, forall_eq]
    exact ⟨⟨.scaled (by norm_num) (by norm_num) (by simp)
        ⟨[['y'], ['x']], by decide, .cons (.one _) (.cons (by simpa using SymPower.power ['x'] 2 le_rfl) .nil)⟩, by simp⟩,
      .scaled (by norm_num) (by norm_num) (by simp) ⟨[['x'], ['y']], by decide, .cons (.one _) (.cons (.one _) .nil)⟩, by simp⟩)
    (by simp [Unlike, nonNumFactors, isAcc, beqL, beq]) (by decide)

/-- It is factored as `-4*x*y*(x + 2)`, and multiplied out again. -/
example : factorSum (ctors exactOracle 13) p1 = .ok (prod [rat (-4), x, y, sum [x, rat 2]]) ∧
    outOf exactOracle 13 (prod [rat (-4), x, y, sum [x, rat 2]]) = .ok (sum p1) := by
  have h : factorSum (ctors exactOracle 13) p1 = .ok (prod [rat (-4), x, y, sum [x, rat 2]]) := by decide +kernel
  obtain ⟨c, us, r, h1, -, h2, -⟩ := factor_multiplied_out exactOracle_exact o1 (n := 13) le_rfl
  rw [h] at h1
  exact ⟨h, by rw [Except.ok.inj h1]; exact h2⟩

/-- The condition of `factor_once`: `-4` divides `-8`. -/
example : ∀ a ∈ coeffs (toMv (sum p1)), ∀ b ∈ coeffs (toMv (sum p1)), Divides a b ∨ Divides b a := by
  have hc : ∀ a ∈ coeffs (toMv (sum p1)), a = -4 ∨ a = -8 := by
    intro a ha
    obtain ⟨d, hd, rfl⟩ := NF.mem_coeffs.1 ha
    rw [MvPolynomial.mem_support_iff] at hd
    have e : toMv (sum p1) = MvPolynomial.monomial (Finsupp.single ['y'] 1 + Finsupp.single ['x'] 2) (-4) +
        MvPolynomial.monomial (Finsupp.single ['x'] 1 + Finsupp.single ['y'] 1) (-8) := by
      have m2 : ∀ (s : Str) (k : ℕ), (MvPolynomial.X s : MvPolynomial Str ℚ) ^ k = MvPolynomial.monomial (Finsupp.single s k) 1 :=
        fun s k => MvPolynomial.X_pow_eq_monomial
      have m1 : ∀ s : Str, (MvPolynomial.X s : MvPolynomial Str ℚ) = MvPolynomial.monomial (Finsupp.single s 1) 1 := fun s => rfl
      have hq : ((2 : ℚ).num.toNat) = 2 := by rfl
      simp only [toMv, toMvS, toMvP, hq, mul_one, add_zero, m2]
      simp only [m1, MvPolynomial.C_apply, MvPolynomial.monomial_mul]
      simp [add_comm, add_left_comm]
    have hne : (Finsupp.single ['y'] 1 + Finsupp.single ['x'] 2 : Str →₀ ℕ) ≠ Finsupp.single ['x'] 1 + Finsupp.single ['y'] 1 := by
      intro h
      have := DFunLike.congr_fun h ['x']
      simp at this
    rw [e, MvPolynomial.coeff_add, MvPolynomial.coeff_monomial, MvPolynomial.coeff_monomial] at hd ⊢
    by_cases h1 : (Finsupp.single ['y'] 1 + Finsupp.single ['x'] 2 : Str →₀ ℕ) = d
    · rw [if_pos h1, if_neg (fun h2 => hne (h1.trans h2.symm))]; left; norm_num
    · rw [if_neg h1] at hd ⊢
      by_cases h2 : (Finsupp.single ['x'] 1 + Finsupp.single ['y'] 1 : Str →₀ ℕ) = d
      · rw [if_pos h2]; right; norm_num
      · rw [if_neg h2] at hd; simp at hd
  intro a ha b hb
  rcases hc a ha with rfl | rfl <;> rcases hc b hb with rfl | rfl
  · exact .inl ⟨1, by norm_num⟩
  · exact .inl ⟨2, by norm_num⟩
  · exact .inr ⟨2, by norm_num⟩
  · exact .inl ⟨1, by norm_num⟩

end examples

end Simpy
