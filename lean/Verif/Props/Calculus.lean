import Verif.Spec.Calculus
import Verif.Props.Ring
import Mathlib.MeasureTheory.Integral.Prod

/-!
# C87: the laws of the integral calculus hold literally for polynomials that are multiplied out
-/

namespace Simpy
open Expr

variable {O : Oracle} {v w : Str} {e a b c f g F G r s t : Expr}

namespace NF

theorem A_zero (ρ : Str → ℝ) (p : MvPolynomial Str ℚ) : ev (Function.update ρ v 0) (A v p) = 0 := by
  induction p using MvPolynomial.induction_on' with
  | monomial d c =>
    have : MvPolynomial.monomial d c = mon (c, d) := rfl
    rw [this, A_mon, I, mon, ev, MvPolynomial.eval₂_monomial, Finsupp.prod]
    refine mul_eq_zero_of_right _ ?_
    refine Finset.prod_eq_zero (i := v) ?_ ?_
    · simp
    · simp
  | add p q hp hq => rw [map_add, ev, MvPolynomial.eval₂_add]; simp only [ev] at hp hq; rw [hp, hq, add_zero]

theorem continuous_ev (p : MvPolynomial Str ℚ) : Continuous fun ρ : Str → ℝ => ev ρ p := by
  unfold ev
  induction p using MvPolynomial.induction_on with
  | C a => simpa using continuous_const
  | add p q hp hq => simpa [MvPolynomial.eval₂_add] using hp.fun_add hq
  | mul_X p s hp => simpa [MvPolynomial.eval₂_mul, MvPolynomial.eval₂_X] using hp.fun_mul (continuous_apply s)

end NF

theorem OutPoly.continuous (h : OutPoly O e) : Continuous fun ρ : Str → ℝ => den ρ e := by
  have : (fun ρ : Str → ℝ => den ρ e) = fun ρ => NF.ev ρ (toMv e) := by funext ρ; exact NF.den_toMv ρ h.poly
  rw [this]; exact NF.continuous_ev _

theorem OutPoly.continuous_fn (h : OutPoly O e) (ρ : Str → ℝ) : Continuous (fnOf ρ v e) :=
  h.continuous.comp (continuous_const.update v continuous_id)

theorem OutPoly.number (q : ℚ) : OutPoly O (rat q) := ⟨.rat q, .term (.num q)⟩

theorem Bound.out (h : Bound O a) : OutPoly O a := ⟨h.poly, .term h.term⟩

theorem Returns.unique {f : Nat → R Expr} (h : Returns f r) (h' : Returns f s) : r = s := by
  obtain ⟨N, h⟩ := h
  obtain ⟨M, h'⟩ := h'
  have := (h (max N M) (le_max_left _ _)).symm.trans (h' _ (le_max_right _ _))
  exact Except.ok.inj this

/-- **C87** `integrate(e, v)` has one answer, which is multiplied out and has the value of the integral from 0. -/
theorem antiderivative_out (hO : O.Exact) (hv : goodName v = true) (h : OutPoly O e) : ∃ F, Antiderivative O v e F ∧
    (∀ G, Antiderivative O v e G → G = F) ∧ OutPoly O F ∧ ∀ ρ : Str → ℝ, den ρ F = ∫ x in (0 : ℝ)..(ρ v), fnOf ρ v e x := by
  have hg := NF.good_toMv h.poly
  have h1 : Antiderivative O v e (NF.polyE O (NF.A v (toMv e))) := ⟨(syms e).length + 11, fun n hn ν bf k =>
    (congrArg _ (NF.out_form hO h)).trans (NF.integrate_polyE hO hv hg (NF.width_poly h.poly fun _ h => h) hn ν bf true k)⟩
  refine ⟨_, h1, fun G hG => ?_, NF.out_of hO (NF.good_A hv hg), fun ρ => ?_⟩
  · obtain ⟨N, h1⟩ := h1
    obtain ⟨M, hG⟩ := hG
    have := (h1 (max N M) (le_max_left _ _) (fun _ => []) true 0).symm.trans (hG _ (le_max_right _ _) _ true 0)
    exact (Option.some.inj (Except.ok.inj this)).symm
  · rw [intervalIntegral.integral_eq_sub_of_hasDerivAt (f := fnOf ρ v (NF.polyE O (NF.A v (toMv e)))) (fun t _ => ?_) ((h.continuous_fn ρ).intervalIntegrable _ _)]
    · simp only [fnOf, NF.ev_polyE, NF.A_zero, sub_zero, Function.update_eq_self]
    · have := NF.deriv_polyE (O := O) (v := v) (Function.update ρ v t) (toMv e)
      rw [← NF.out_form hO h] at this
      have e1 : fnOf (Function.update ρ v t) v (NF.polyE O (NF.A v (toMv e))) = fnOf ρ v (NF.polyE O (NF.A v (toMv e))) := by funext s; simp [fnOf]
      rw [e1] at this
      simpa [fnOf] using this

/-- **C87** `integrate(e, (v, a, b))` has one answer, which is multiplied out and has the value of the integral. -/
theorem definite_out (hO : O.Exact) (hv : goodName v = true) (h : OutPoly O e) (ha : Bound O a) (hb : Bound O b) : ∃ r, DefiniteIntegral O v a b e r ∧
    (∀ s, DefiniteIntegral O v a b e s → s = r) ∧ OutPoly O r ∧ ∀ ρ : Str → ℝ, den ρ r = ∫ x in (den ρ a)..(den ρ b), fnOf ρ v e x := by
  have key : ∀ n, (syms e).length + 11 ≤ n → ∀ (ν : Supply) (bf : Bool) (k : Nat), _ := fun n hn ν bf k =>
    expanded_polynomial_definite hO hv h.poly h.out ha.poly ha.term hb.poly hb.term hn ν bf k
  obtain ⟨r, h1, h2, h3, h4⟩ := key _ le_rfl (fun _ => []) true 0
  have hr : DefiniteIntegral O v a b e r := ⟨_, fun n hn ν bf k => by
    obtain ⟨r', h1', h2', h3', h4'⟩ := key n hn ν bf k
    rw [h1', out_unique hO ⟨h2', h3'⟩ ⟨h2, h3⟩ fun ρ => by rw [h4', h4]]⟩
  refine ⟨r, hr, fun s hs => ?_, ⟨h2, h3⟩, h4⟩
  obtain ⟨N, h1⟩ := hr
  obtain ⟨M, hs⟩ := hs
  have := (h1 (max N M) (le_max_left _ _) (fun _ => []) true 0).symm.trans (hs _ (le_max_right _ _) _ true 0)
  exact (Option.some.inj (Except.ok.inj this)).symm

theorem Antiderivative.out (hO : O.Exact) (hv : goodName v = true) (h : OutPoly O e) (hF : Antiderivative O v e F) : OutPoly O F ∧
    ∀ ρ : Str → ℝ, den ρ F = ∫ x in (0 : ℝ)..(ρ v), fnOf ρ v e x := by
  obtain ⟨G, -, h2, h3, h4⟩ := antiderivative_out hO hv h
  rw [h2 F hF]; exact ⟨h3, h4⟩

theorem DefiniteIntegral.out (hO : O.Exact) (hv : goodName v = true) (h : OutPoly O e) (ha : Bound O a) (hb : Bound O b) (hr : DefiniteIntegral O v a b e r) :
    OutPoly O r ∧ ∀ ρ : Str → ℝ, den ρ r = ∫ x in (den ρ a)..(den ρ b), fnOf ρ v e x := by
  obtain ⟨G, -, h2, h3, h4⟩ := definite_out hO hv h ha hb
  rw [h2 r hr]; exact ⟨h3, h4⟩

/-- **C87** the antiderivative is the integral from 0 to the variable, literally. -/
theorem antiderivative_iff (hO : O.Exact) (hv : goodName v = true) (h : OutPoly O e) : Antiderivative O v e F ↔ DefiniteIntegral O v (rat 0) (sym v) e F := by
  have b0 : Bound O (rat 0) := ⟨.rat 0, .num 0⟩
  have b1 : Bound O (sym v) := ⟨.sym v hv, .power (.one v)⟩
  obtain ⟨G, g1, g2, g3, g4⟩ := antiderivative_out hO hv h
  obtain ⟨r, r1, r2, r3, r4⟩ := definite_out hO hv h b0 b1
  have : G = r := out_unique hO g3 r3 fun ρ => by rw [g4, r4]; simp [den]
  subst this
  exact ⟨fun h => by rw [g2 F h]; exact r1, fun h => by rw [r2 F h]; exact g1⟩

/-- **C87** the fundamental theorem, first half: `diff` of what `integrate` returns is the integrand. -/
theorem diff_antiderivative (hO : O.Exact) (hv : goodName v = true) (h : OutPoly O e) (hF : Antiderivative O v e F) : Returns (fun n => diffE O n v F) e := by
  refine ⟨9, fun n hn => ?_⟩
  obtain ⟨N, hF⟩ := hF
  obtain ⟨G, h1, h2⟩ := diff_of_integral hO hv h (n := max N ((syms e).length + 11)) (le_max_right _ _) hn (fun _ => []) true true 0
  have h3 : Node.integrate O (max N ((syms e).length + 11)) (fun _ => []) true 0 true v e = _ := hF _ (le_max_left _ _) (fun _ => []) true 0
  rw [h1] at h3
  dsimp only; rw [← h2, Option.some.inj (Except.ok.inj h3)]

/-- **C87** second half: what is integrated after differentiating differs from what was there by the value at 0. -/
theorem antiderivative_diff (hO : O.Exact) (hv : goodName v = true) (h : OutPoly O e) (hd : Returns (fun n => diffE O n v e) f)
    (hF : Antiderivative O v f F) : ∃ r, Returns (fun n => opSub (ctors O n) e F) r ∧ Returns (fun n => subsE O n (single v (rat 0)) e) r := by
  obtain ⟨f', d1, d2, -, d3⟩ := diff_multiplied_out (v := v) hO h (n := 9) le_rfl
  have hf : f = f' := hd.unique ⟨9, fun n hn => by
    obtain ⟨g, g1, g2, -, g3⟩ := diff_multiplied_out (v := v) hO h hn
    dsimp only; rw [g1, out_unique hO g2 d2 fun ρ => (g3 ρ).unique (d3 ρ)]⟩
  subst hf
  obtain ⟨F1, F2⟩ := hF.out hO hv d2
  obtain ⟨r, r1, r2, -, r3⟩ := sub_multiplied_out hO h F1 (n := 9) (by omega)
  refine ⟨r, ⟨8, fun n hn => ?_⟩, ⟨8, fun n hn => ?_⟩⟩
  · obtain ⟨g, g1, g2, -, g3⟩ := sub_multiplied_out hO h F1 hn
    dsimp only; rw [g1, out_unique hO g2 r2 fun ρ => by rw [g3, r3]]
  · obtain ⟨g, g1, g2, g3⟩ := subs_multiplied_out (v := v) hO h (.rat 0) (.num 0) hn
    dsimp only; rw [g1, out_unique hO g2 r2 fun ρ => ?_]
    rw [g3, r3, F2, intervalIntegral.integral_eq_sub_of_hasDerivAt (f := fnOf ρ v e) (fun t _ => ?_) ((d2.continuous_fn ρ).intervalIntegrable _ _)]
    · simp [fnOf, den]
    · have := d3 (Function.update ρ v t)
      have e1 : fnOf (Function.update ρ v t) v e = fnOf ρ v e := by funext s; simp [fnOf]
      rw [e1] at this
      simpa [fnOf] using this

/-- **C87** the integral of a sum is the sum of the integrals. -/
theorem definite_add (hO : O.Exact) (hv : goodName v = true) (hf : OutPoly O f) (hg : OutPoly O g) (ha : Bound O a) (hb : Bound O b)
    (he : Returns (fun n => opAdd (ctors O n) f g) e) (h1 : DefiniteIntegral O v a b f r) (h2 : DefiniteIntegral O v a b g s)
    (h3 : DefiniteIntegral O v a b e t) : Returns (fun n => opAdd (ctors O n) r s) t := by
  obtain ⟨e', -, d2, -, d3⟩ := add_multiplied_out hO hf hg (n := 8) le_rfl
  have hf' : e = e' := he.unique ⟨8, fun n hn => by
    obtain ⟨g, g1, g2, -, g3⟩ := add_multiplied_out hO hf hg hn
    dsimp only; rw [g1, out_unique hO g2 d2 fun ρ => by rw [g3, d3]]⟩
  subst hf'
  obtain ⟨o1, v1⟩ := h1.out hO hv hf ha hb
  obtain ⟨o2, v2⟩ := h2.out hO hv hg ha hb
  obtain ⟨o3, v3⟩ := h3.out hO hv d2 ha hb
  refine ⟨8, fun n hn => ?_⟩
  obtain ⟨g, g1, g2, -, g3⟩ := add_multiplied_out hO o1 o2 hn
  dsimp only; rw [g1, out_unique hO g2 o3 fun ρ => ?_]
  rw [g3, v1, v2, v3, ← intervalIntegral.integral_add ((hf.continuous_fn ρ).intervalIntegrable _ _) ((hg.continuous_fn ρ).intervalIntegrable _ _)]
  simp only [fnOf, d3]

/-- **C87** a factor that does not contain the variable can be taken out of the integral. -/
theorem definite_factor (hO : O.Exact) (hv : goodName v = true) (hf : OutPoly O f) (hg : OutPoly O g) (hfree : v ∉ syms f) (ha : Bound O a) (hb : Bound O b)
    (he : Returns (fun n => mulOut O n f g) e) (h1 : DefiniteIntegral O v a b g r) (h2 : DefiniteIntegral O v a b e t) :
    Returns (fun n => mulOut O n f r) t := by
  obtain ⟨e', -, d2, -, d3⟩ := mul_multiplied_out hO hf hg (n := 13) le_rfl
  have hf' : e = e' := he.unique ⟨13, fun n hn => by
    obtain ⟨g, g1, g2, -, g3⟩ := mul_multiplied_out hO hf hg hn
    dsimp only; rw [g1, out_unique hO g2 d2 fun ρ => by rw [g3, d3]]⟩
  subst hf'
  obtain ⟨o1, v1⟩ := h1.out hO hv hg ha hb
  obtain ⟨o2, v2⟩ := h2.out hO hv d2 ha hb
  refine ⟨13, fun n hn => ?_⟩
  obtain ⟨g, g1, g2, -, g3⟩ := mul_multiplied_out hO hf o1 hn
  dsimp only; rw [g1, out_unique hO g2 o2 fun ρ => ?_]
  rw [g3, v1, v2, ← intervalIntegral.integral_const_mul]
  congr 1
  funext x
  simp only [fnOf, d3]
  congr 1
  exact den_congr f fun s hs => by rw [Function.update_of_ne (fun h => hfree (by rw [← h]; exact hs))]

/-- **C87** integrals over adjacent intervals add up. -/
theorem definite_adjacent (hO : O.Exact) (hv : goodName v = true) (he : OutPoly O e) (ha : Bound O a) (hb : Bound O b) (hc : Bound O c)
    (h1 : DefiniteIntegral O v a b e r) (h2 : DefiniteIntegral O v b c e s) (h3 : DefiniteIntegral O v a c e t) :
    Returns (fun n => opAdd (ctors O n) r s) t := by
  obtain ⟨o1, v1⟩ := h1.out hO hv he ha hb
  obtain ⟨o2, v2⟩ := h2.out hO hv he hb hc
  obtain ⟨o3, v3⟩ := h3.out hO hv he ha hc
  refine ⟨8, fun n hn => ?_⟩
  obtain ⟨g, g1, g2, -, g3⟩ := add_multiplied_out hO o1 o2 hn
  dsimp only; rw [g1, out_unique hO g2 o3 fun ρ => ?_]
  rw [g3, v1, v2, v3, intervalIntegral.integral_add_adjacent_intervals ((he.continuous_fn ρ).intervalIntegrable _ _) ((he.continuous_fn ρ).intervalIntegrable _ _)]

/-- **C87** an integral over nothing is 0, and exchanging the bounds changes the sign. -/
theorem definite_reverse (hO : O.Exact) (hv : goodName v = true) (he : OutPoly O e) (ha : Bound O a) (hb : Bound O b) :
    DefiniteIntegral O v a a e (rat 0) ∧
    (DefiniteIntegral O v a b e r → DefiniteIntegral O v b a e s → Returns (fun n => opNeg (ctors O n) r) s) := by
  refine ⟨?_, fun h1 h2 => ?_⟩
  · obtain ⟨r, h1, -, h3, h4⟩ := definite_out hO hv he ha ha
    have : r = rat 0 := out_unique hO h3 (.number 0) fun ρ => by rw [h4]; simp [den]
    rwa [this] at h1
  · obtain ⟨o1, v1⟩ := h1.out hO hv he ha hb
    obtain ⟨o2, v2⟩ := h2.out hO hv he hb ha
    refine ⟨8, fun n hn => ?_⟩
    obtain ⟨g, g1, g2, -, g3⟩ := neg_multiplied_out hO o1 hn
    dsimp only; rw [g1, out_unique hO g2 o2 fun ρ => ?_]
    rw [g3, v1, v2, intervalIntegral.integral_symm]
    simp

/-- **C87** the order of two integrations does not matter, if neither has bounds that contain the other's variable. -/
theorem definite_order (hO : O.Exact) (hv : goodName v = true) (hw : goodName w = true) (hvw : v ≠ w) (he : OutPoly O e)
    {a' b' : Expr} (ha : Bound O a) (hb : Bound O b) (ha' : Bound O a') (hb' : Bound O b')
    (hfa : w ∉ syms a) (hfb : w ∉ syms b) (hfa' : v ∉ syms a') (hfb' : v ∉ syms b')
    (h1 : DefiniteIntegral O v a b e f) (h2 : DefiniteIntegral O w a' b' f r)
    (h3 : DefiniteIntegral O w a' b' e g) (h4 : DefiniteIntegral O v a b g s) : r = s := by
  obtain ⟨o1, v1⟩ := h1.out hO hv he ha hb
  obtain ⟨o2, v2⟩ := h2.out hO hw o1 ha' hb'
  obtain ⟨o3, v3⟩ := h3.out hO hw he ha' hb'
  obtain ⟨o4, v4⟩ := h4.out hO hv o3 ha hb
  have free : ∀ {u : Str} {q : Expr} (ρ : Str → ℝ) (x : ℝ), u ∉ syms q → den (Function.update ρ u x) q = den ρ q := by
    intro u q ρ x hq
    exact den_congr q fun s hs => by rw [Function.update_of_ne (fun h => hq (by rw [← h]; exact hs))]
  refine out_unique hO o2 o4 fun ρ => ?_
  rw [v2, v4]
  simp only [fnOf, v1, v3, free _ _ hfa, free _ _ hfb, free _ _ hfa', free _ _ hfb']
  rw [MeasureTheory.intervalIntegral_intervalIntegral_swap]
  · simp only [Function.update_comm hvw]
  · refine MeasureTheory.IntegrableOn.mono_set (t := Set.uIcc (den ρ a') (den ρ b') ×ˢ Set.uIcc (den ρ a) (den ρ b)) ?_ (Set.prod_mono Set.uIoc_subset_uIcc Set.uIoc_subset_uIcc)
    refine ContinuousOn.integrableOn_compact (isCompact_uIcc.prod isCompact_uIcc) (Continuous.continuousOn ?_)
    have h1 : Continuous fun a : ℝ × ℝ => Function.update ρ w a.1 := continuous_const.update w continuous_fst
    have h2 : Continuous fun a : ℝ × ℝ => Function.update (Function.update ρ w a.1) v a.2 := h1.update v continuous_snd
    exact he.continuous.comp h2

/-- **C87** the same for antiderivatives. -/
theorem antiderivative_order (hO : O.Exact) (hv : goodName v = true) (hw : goodName w = true) (hvw : v ≠ w) (he : OutPoly O e)
    (h1 : Antiderivative O v e f) (h2 : Antiderivative O w f r) (h3 : Antiderivative O w e g) (h4 : Antiderivative O v g s) : r = s := by
  have o1 := (h1.out hO hv he).1
  have o2 := (h3.out hO hw he).1
  have b0 : Bound O (rat 0) := ⟨.rat 0, .num 0⟩
  have b1 : ∀ {v : Str}, goodName v = true → Bound O (sym v) := fun hv => ⟨.sym _ hv, .power (.one _)⟩
  exact definite_order hO hv hw hvw he b0 (b1 hv) b0 (b1 hw) (by simp [syms]) (by simp [syms, hvw.symm]) (by simp [syms]) (by simp [syms, hvw])
    ((antiderivative_iff hO hv he).1 h1) ((antiderivative_iff hO hw o1).1 h2) ((antiderivative_iff hO hw he).1 h3) ((antiderivative_iff hO hv o2).1 h4)

/-- **C87** integration by parts. -/
theorem definite_parts (hO : O.Exact) (hv : goodName v = true) (hf : OutPoly O f) (hg : OutPoly O g) (ha : Bound O a) (hb : Bound O b)
    {f' g' fg' f'g fg p q u w : Expr} (hf' : Returns (fun n => diffE O n v f) f') (hg' : Returns (fun n => diffE O n v g) g')
    (h1 : Returns (fun n => mulOut O n f g') fg') (h2 : Returns (fun n => mulOut O n f' g) f'g) (h3 : Returns (fun n => mulOut O n f g) fg)
    (h4 : DefiniteIntegral O v a b fg' p) (h5 : DefiniteIntegral O v a b f'g q)
    (h6 : Returns (fun n => subsE O n (single v b) fg) u) (h7 : Returns (fun n => subsE O n (single v a) fg) w) (h8 : Returns (fun n => opSub (ctors O n) u w) r) :
    Returns (fun n => opSub (ctors O n) r q) p := by
  have diffs : ∀ {e e' : Expr}, OutPoly O e → Returns (fun n => diffE O n v e) e' → OutPoly O e' ∧ ∀ ρ : Str → ℝ, HasDerivAt (fnOf ρ v e) (den ρ e') (ρ v) := by
    intro e e' he h
    obtain ⟨N, h⟩ := h
    obtain ⟨d, d1, d2, -, d3⟩ := diff_multiplied_out (v := v) hO he (n := max N 9) (le_max_right _ _)
    rw [Except.ok.inj ((h _ (le_max_left _ _)).symm.trans d1)]; exact ⟨d2, d3⟩
  have muls : ∀ {e e' d : Expr}, OutPoly O e → OutPoly O e' → Returns (fun n => mulOut O n e e') d → OutPoly O d ∧ ∀ ρ : Str → ℝ, den ρ d = den ρ e * den ρ e' := by
    intro e e' d he he' h
    obtain ⟨N, h⟩ := h
    obtain ⟨d, d1, d2, -, d3⟩ := mul_multiplied_out hO he he' (n := max N 13) (le_max_right _ _)
    rw [Except.ok.inj ((h _ (le_max_left _ _)).symm.trans d1)]; exact ⟨d2, d3⟩
  have puts : ∀ {e a d : Expr}, OutPoly O e → Bound O a → Returns (fun n => subsE O n (single v a) e) d → OutPoly O d ∧ ∀ ρ : Str → ℝ, den ρ d = den (Function.update ρ v (den ρ a)) e := by
    intro e a d he ha h
    obtain ⟨N, h⟩ := h
    obtain ⟨d, d1, d2, d3⟩ := subs_multiplied_out (v := v) hO he ha.poly ha.term (n := max N 8) (le_max_right _ _)
    rw [Except.ok.inj ((h _ (le_max_left _ _)).symm.trans d1)]; exact ⟨d2, d3⟩
  have subs : ∀ {e e' d : Expr}, OutPoly O e → OutPoly O e' → Returns (fun n => opSub (ctors O n) e e') d → OutPoly O d ∧ ∀ ρ : Str → ℝ, den ρ d = den ρ e - den ρ e' := by
    intro e e' d he he' h
    obtain ⟨N, h⟩ := h
    obtain ⟨d, d1, d2, -, d3⟩ := sub_multiplied_out hO he he' (n := max N 8) (le_max_right _ _)
    rw [Except.ok.inj ((h _ (le_max_left _ _)).symm.trans d1)]; exact ⟨d2, d3⟩
  obtain ⟨of', vf'⟩ := diffs hf hf'
  obtain ⟨og', vg'⟩ := diffs hg hg'
  obtain ⟨o1, v1⟩ := muls hf og' h1
  obtain ⟨o2, v2⟩ := muls of' hg h2
  obtain ⟨o3, v3⟩ := muls hf hg h3
  obtain ⟨o4, v4⟩ := h4.out hO hv o1 ha hb
  obtain ⟨o5, v5⟩ := h5.out hO hv o2 ha hb
  obtain ⟨o6, v6⟩ := puts o3 hb h6
  obtain ⟨o7, v7⟩ := puts o3 ha h7
  obtain ⟨o8, v8⟩ := subs o6 o7 h8
  refine ⟨8, fun n hn => ?_⟩
  obtain ⟨g0, g1, g2, -, g3⟩ := sub_multiplied_out hO o8 o5 hn
  dsimp only; rw [g1, out_unique hO g2 o4 fun ρ => ?_]
  have der : ∀ {e e' : Expr}, (∀ ρ : Str → ℝ, HasDerivAt (fnOf ρ v e) (den ρ e') (ρ v)) → ∀ x, HasDerivAt (fnOf ρ v e) (fnOf ρ v e' x) x := by
    intro e e' h x
    have := h (Function.update ρ v x)
    have e1 : fnOf (Function.update ρ v x) v e = fnOf ρ v e := by funext s; simp [fnOf]
    rw [e1] at this
    simpa [fnOf] using this
  have key := intervalIntegral.integral_mul_deriv_eq_deriv_mul (a := den ρ a) (b := den ρ b) (fun x _ => der vf' x) (fun x _ => der vg' x)
    ((of'.continuous_fn ρ).intervalIntegrable _ _) ((og'.continuous_fn ρ).intervalIntegrable _ _)
  rw [g3, v8, v6, v7, v5, v4]
  simp only [fnOf] at key ⊢
  simp only [v1, v2, v3]
  rw [key]

/-- **C87** the derivative of an integral by its upper bound is the integrand there. -/
theorem diff_upper_bound (hO : O.Exact) (hv : goodName v = true) (hw : goodName w = true) (he : OutPoly O e) (hew : w ∉ syms e) (ha : Bound O a) (haw : w ∉ syms a)
    (hr : DefiniteIntegral O v a (sym w) e r) : ∃ d, Returns (fun n => diffE O n w r) d ∧ Returns (fun n => subsE O n (single v (sym w)) e) d := by
  have hb : Bound O (sym w) := ⟨.sym w hw, .power (.one w)⟩
  obtain ⟨o1, v1⟩ := hr.out hO hv he ha hb
  obtain ⟨d, d1, d2, -, d3⟩ := diff_multiplied_out (v := w) hO o1 (n := 9) le_rfl
  refine ⟨d, ⟨9, fun n hn => ?_⟩, ⟨8, fun n hn => ?_⟩⟩
  · obtain ⟨g, g1, g2, -, g3⟩ := diff_multiplied_out (v := w) hO o1 hn
    dsimp only; rw [g1, out_unique hO g2 d2 fun ρ => (g3 ρ).unique (d3 ρ)]
  · obtain ⟨g, g1, g2, g3⟩ := subs_multiplied_out (v := v) hO he hb.poly hb.term hn
    dsimp only; rw [g1, out_unique hO g2 d2 fun ρ => ?_]
    refine HasDerivAt.unique ?_ (d3 ρ)
    have free : ∀ {q : Expr} (ρ : Str → ℝ) (x : ℝ), w ∉ syms q → den (Function.update ρ w x) q = den ρ q := by
      intro q ρ x hq
      exact den_congr q fun s hs => by rw [Function.update_of_ne (fun h => hq (by rw [← h]; exact hs))]
    have h1 : fnOf ρ w r = fun x => ∫ t in (den ρ a)..x, fnOf ρ v e t := by
      funext x
      simp only [fnOf, v1, free _ _ haw]
      have : den (Function.update ρ w x) (sym w) = x := by simp [den]
      rw [this]
      refine intervalIntegral.integral_congr fun t _ => ?_
      refine den_congr e fun s hs => ?_
      have : s ≠ w := fun h => hew (by rw [← h]; exact hs)
      by_cases h' : s = v
      · rw [h']; simp
      · rw [Function.update_of_ne h', Function.update_of_ne this, Function.update_of_ne h']
    rw [h1, g3]
    have hc := he.continuous_fn (v := v) ρ
    have := intervalIntegral.integral_hasDerivAt_right (hc.intervalIntegrable (den ρ a) (ρ w)) (hc.stronglyMeasurableAtFilter _ _) hc.continuousAt
    simpa [fnOf, den] using this

/-- **C87** with numbers as bounds and no other symbol the answer is the number. -/
theorem definite_number (hO : O.Exact) (hv : goodName v = true) (he : OutPoly O e) (hs : ∀ s ∈ syms e, s = v) (x y : ℚ) :
    ∃ q : ℚ, DefiniteIntegral O v (rat x) (rat y) e (rat q) ∧ ∀ ρ : Str → ℝ, (q : ℝ) = ∫ t in (x : ℝ)..y, fnOf ρ v e t := by
  obtain ⟨r, h1, -, h3, h4⟩ := definite_out hO hv he ⟨.rat x, .num x⟩ ⟨.rat y, .num y⟩
  have same : ∀ ρ : Str → ℝ, den ρ r = ((MvPolynomial.constantCoeff (toMv r) : ℚ) : ℝ) := by
    intro ρ
    have : den ρ r = den (fun _ => 0) r := by
      rw [h4, h4]
      simp only [den]
      refine intervalIntegral.integral_congr fun t _ => den_congr e fun s h' => ?_
      rw [hs s h']; simp
    rw [this, NF.den_toMv _ h3.poly, NF.ev]
    have := MvPolynomial.eval₂_zero_apply (σ := Str) (algebraMap ℚ ℝ) (toMv r)
    exact this
  have hr : r = rat (MvPolynomial.constantCoeff (toMv r)) := out_unique hO h3 (.number _) fun ρ => by rw [same]; simp [den]
  refine ⟨_, by rw [← hr]; exact h1, fun ρ => ?_⟩
  rw [← same ρ, h4]
  simp [den]

/-! ## Cases -/

section
set_option maxRecDepth 10000
private abbrev x : Expr := sym ['x']
private abbrev y : Expr := sym ['y']

/-- `y*x**2 + 5` is covered, with bounds such as `2`, `x` and `3*y`. -/
private abbrev p1 : Expr := sum [prod [y, pow x (rat 2)], rat 5]

private theorem px : PolyExpr exactOracle x := .sym _ (by decide)
private theorem py : PolyExpr exactOracle y := .sym _ (by decide)
private theorem sq : PolyExpr exactOracle (pow x (rat 2)) := by
  have : PolyExpr exactOracle (pow x (rat ((2 : ℕ) : ℚ))) := .pow 20 2 px le_rfl (by decide +kernel) (fun h => absurd h (by decide))
  simpa using this
private theorem pp : PowerProduct [y, pow x (rat 2)] :=
  ⟨[['y'], ['x']], by decide, .cons (.one _) (.cons (by simpa using SymPower.power ['x'] 2 le_rfl) .nil)⟩

private theorem o1 : OutPoly exactOracle p1 where
  poly := .sum 20 (by
    simp only [List.mem_cons, List.not_mem_nil, or_false, forall_eq_or_imp, forall_eq]
    exact ⟨.prod 20 (by simp [py, sq]) (by simp [isProd]) (by decide +kernel), .rat 5⟩) (by decide +kernel)
  out := .sum le_rfl (by simp [PolyTerm.prod le_rfl pp, PolyTerm.num]) (by simp [Unlike, nonNumFactors, isAcc, beqL, beq]) (by decide)

private theorem b2 : Bound exactOracle (rat 2) := ⟨.rat 2, .num 2⟩
private theorem b3 : Bound exactOracle (prod [rat 3, y]) :=
  ⟨.prod 20 (by simp [py, PolyExpr.rat]) (by simp [isProd]) (by decide +kernel), .scaled (by norm_num) (by norm_num) (by simp) ⟨[['y']], by decide, .cons (.one _) .nil⟩⟩
private theorem hx : goodName ['x'] = true := by decide
private theorem hy : goodName ['y'] = true := by decide

example : ∃ F, Antiderivative exactOracle ['x'] p1 F ∧ Returns (fun n => diffE exactOracle n ['x'] F) p1 := by
  obtain ⟨F, h, -⟩ := antiderivative_out exactOracle_exact hx o1
  exact ⟨F, h, diff_antiderivative exactOracle_exact hx o1 h⟩

example : ∃ r, DefiniteIntegral exactOracle ['x'] (rat 2) (prod [rat 3, y]) p1 r := by
  obtain ⟨r, h, -⟩ := definite_out exactOracle_exact hx o1 b2 b3
  exact ⟨r, h⟩

/-- The two orders of integration of `y*x**2 + 5` give the same. -/
example : ∃ f g r, Antiderivative exactOracle ['x'] p1 f ∧ Antiderivative exactOracle ['y'] f r ∧ Antiderivative exactOracle ['y'] p1 g ∧
    Antiderivative exactOracle ['x'] g r := by
  obtain ⟨f, f1, -, f3, -⟩ := antiderivative_out exactOracle_exact hx o1
  obtain ⟨g, g1, -, g3, -⟩ := antiderivative_out exactOracle_exact hy o1
  obtain ⟨r, r1, -⟩ := antiderivative_out exactOracle_exact hy f3
  obtain ⟨s, s1, -⟩ := antiderivative_out exactOracle_exact hx g3
  have := antiderivative_order exactOracle_exact hx hy (by decide) o1 f1 r1 g1 s1
  exact ⟨f, g, r, f1, r1, g1, this ▸ s1⟩

/-- The integral of `x**2` from 0 to 3 is 9. -/
example : integrateTop exactOracle 16 (fun _ => []) true 0 (pow x (rat 2)) (.full ['x'] (rat 0) (rat 3)) = .ok (some (rat 9)) := by decide +kernel

example : ∃ q : ℚ, DefiniteIntegral exactOracle ['x'] (rat 0) (rat 3) (pow x (rat 2)) (rat q) := by
  obtain ⟨q, h, -⟩ := definite_number (e := pow x (rat 2)) exactOracle_exact hx ⟨sq, .term (.power (by simpa using SymPower.power ['x'] 2 le_rfl))⟩ (by simp [syms]) 0 3
  exact ⟨q, h⟩

end

end Simpy
