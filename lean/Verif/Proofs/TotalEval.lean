import Verif.Proofs.TotalTree
import Verif.Model.Poly

/-! # Lemmas: evaluating and writing polynomials -/

namespace Simpy
open Expr

variable {O : Oracle} {v : Str} {u t e : Expr}

/-- Substituting a number gives the value, as a number. -/
theorem subs_unit (h : VarPower v u) (n : Nat) (a : ℚ) : ∃ q : ℚ, subsE O (n + 3) (single v (rat a)) u = .ok (rat q) ∧
    ∀ ρ : Str → ℝ, fnOf ρ v u a = q := by
  cases h with
  | var => exact ⟨a, by simp [subsE, single], fun ρ => by rw [fnOf_sym]⟩
  | power k hk =>
    refine ⟨a ^ k, ?_, fun ρ => by rw [fnOf_pow]; push_cast; rfl⟩
    have := rational_power_exact O (n + 1) a k (.inr (by positivity))
    have hp : (ctors O (n + 2)).pow (rat a) (rat (k : ℚ)) = .ok (rat (a ^ k)) := by simpa using this
    have h1 : subsE O (n + 2) (single v (rat a)) (sym v) = .ok (rat a) := by simp [subsE, single]
    have h2 : subsE O (n + 2) (single v (rat a)) (rat (k : ℚ)) = .ok (rat k) := rfl
    rw [subsE]
    simp only [h1, h2, bind, Except.bind, hp]

theorem subs_mono (h : Monomial v t) (n : Nat) (a : ℚ) : ∃ q : ℚ, subsE O (n + 4) (single v (rat a)) t = .ok (rat q) ∧
    ∀ ρ : Str → ℝ, fnOf ρ v t a = q := by
  cases h with
  | const c => exact ⟨c, rfl, fun ρ => by simp [fnOf, den]⟩
  | unit h => exact subs_unit h (n + 1) a
  | @scaled c u h =>
    obtain ⟨q, h1, h2⟩ := subs_unit (O := O) h n a
    have h0 : subsE O (n + 3) (single v (rat a)) (rat c) = .ok (rat c) := rfl
    have hp := rational_prod_exact O (n + 1) [c, q]
    refine ⟨c * q, ?_, fun ρ => ?_⟩
    · rw [subsE]
      simp only [mapR, h0, h1, bind, Except.bind, pure, Except.pure]
      simpa using hp
    · have := h2 ρ
      simp only [fnOf] at this ⊢
      simp [den, denP, this]

theorem subs_poly (h : IsPolynomial v e) (n : Nat) (a : ℚ) : ∃ q : ℚ, subsE O (n + 5) (single v (rat a)) e = .ok (rat q) ∧
    ∀ ρ : Str → ℝ, fnOf ρ v e a = q := by
  rcases h with h | ⟨ts, rfl, _, h⟩
  · exact subs_mono h (n + 1) a
  · have hl : ∀ ts : List Expr, (∀ t ∈ ts, Monomial v t) → ∃ qs : List ℚ,
        mapR (subsE O (n + 4) (single v (rat a))) ts = .ok (qs.map rat) ∧ ∀ ρ : Str → ℝ, (ts.map fun t => fnOf ρ v t a).sum = (qs.sum : ℚ) := by
      intro ts
      induction ts with
      | nil => intro _; exact ⟨[], rfl, by simp⟩
      | cons t r ih =>
        intro h
        obtain ⟨q, h1, h2⟩ := subs_mono (O := O) (h t (by simp)) n a
        obtain ⟨qs, h3, h4⟩ := ih fun x hx => h x (by simp [hx])
        refine ⟨q :: qs, by simp only [mapR, h1, h3, bind, Except.bind, pure, Except.pure, List.map_cons], fun ρ => ?_⟩
        simp [h2, h4]
    obtain ⟨qs, h1, h2⟩ := hl ts h
    refine ⟨qs.sum, ?_, fun ρ => ?_⟩
    · rw [subsE]
      simp only [h1, bind, Except.bind]
      exact rational_sum_exact O (n + 3) qs
    · rw [← h2 ρ]
      simp only [fnOf, den, denS_eq]

/-! ## Symbols -/

theorem syms_unit (h : VarPower v u) : syms u = [v] := by cases h <;> simp [syms]

theorem syms_mono (h : Monomial v t) : ∀ s ∈ syms t, s = v := by
  cases h with
  | const c => simp [syms]
  | unit h => simp [syms_unit h]
  | scaled c h => simp [syms, symsL, syms_unit h]

theorem syms_poly (h : IsPolynomial v e) : ∀ s ∈ syms e, s = v := by
  rcases h with h | ⟨ts, rfl, _, h⟩
  · exact syms_mono h
  · have : ∀ ts : List Expr, (∀ t ∈ ts, Monomial v t) → ∀ s ∈ symsL ts, s = v := by
      intro ts
      induction ts with
      | nil => intro _ s hs; simp [symsL] at hs
      | cons t r ih =>
        intro h s hs
        simp only [symsL, List.mem_append] at hs
        rcases hs with hs | hs
        · exact syms_mono (h t (by simp)) s hs
        · exact ih (fun x hx => h x (by simp [hx])) s hs
    exact this ts h

theorem defaultVar_poly (h : IsPolynomial v e) (hv : v ∈ syms e) : defaultVar e = .ok v := by
  have h1 : (syms e).dedup = [v] := by
    have hall := syms_poly h
    have hr : syms e = List.replicate (syms e).length v := List.eq_replicate_iff.2 ⟨rfl, hall⟩
    have hne : (syms e).length ≠ 0 := by intro h0; rw [List.length_eq_zero_iff] at h0; rw [h0] at hv; simp at hv
    rw [hr, List.replicate_dedup hne]
  simp only [defaultVar, h1]

/-! ## Continuity -/

theorem continuous_mono (h : Monomial v t) (ρ : Str → ℝ) : Continuous (fnOf ρ v t) := by
  have hu : ∀ {u}, VarPower v u → Continuous (fnOf ρ v u) := by
    intro u h
    cases h with
    | var => rw [fnOf_sym]; exact continuous_id
    | power k hk => rw [fnOf_pow]; exact continuous_pow k
  cases h with
  | const c => exact continuous_const
  | unit h => exact hu h
  | @scaled c u h =>
    have : fnOf ρ v (prod [rat c, u]) = fun t => (c : ℝ) * fnOf ρ v u t := by funext t; simp [fnOf, den, denP]
    rw [this]
    exact continuous_const.mul (hu h)

theorem continuous_poly (h : IsPolynomial v e) (ρ : Str → ℝ) : Continuous (fnOf ρ v e) := by
  rcases h with h | ⟨ts, rfl, _, h⟩
  · exact continuous_mono h ρ
  · have hf : fnOf ρ v (sum ts) = fun x => (ts.map fun t => fnOf ρ v t x).sum := by
      funext x; simp only [fnOf, den, denS_eq]
    rw [hf]
    clear hf
    have : ∀ ts : List Expr, (∀ t ∈ ts, Monomial v t) → Continuous fun x => (ts.map fun t => fnOf ρ v t x).sum := by
      intro ts
      induction ts with
      | nil => intro _; simpa using continuous_const
      | cons t r ih =>
        intro h
        simp only [List.map_cons, List.sum_cons]
        exact (continuous_mono (h t (by simp)) ρ).add (ih fun x hx => h x (by simp [hx]))
    exact this ts h

/-! ## From coefficients -/

theorem coef_term (n : Nat) (c : ℚ) (i : Nat) : ∃ m, (do
      let p ← opPow O (ctors O (n + 2)) (sym v) (rat i)
      opMul (ctors O (n + 2)) (rat c) p) = .ok m ∧ Monomial v m ∧ ∀ ρ : Str → ℝ, den ρ m = c * ρ v ^ i := by
  match i with
  | 0 =>
    have : opPow O (ctors O (n + 2)) (sym v) (rat ((0 : ℕ) : ℚ)) = .ok (rat 1) := by
      simp [opPow, ctors, step, powCtor, beq]
    exact ⟨rat (c * 1), by simp only [this, bind, Except.bind, opMul], .const _, fun ρ => by simp [den]⟩
  | 1 =>
    have : opPow O (ctors O (n + 2)) (sym v) (rat ((1 : ℕ) : ℚ)) = .ok (sym v) := by
      simp [opPow, ctors, step, powCtor, beq]
    have hm : opMul (ctors O (n + 2)) (rat c) (sym v) = .ok (scale c (sym v)) := prod_rat_unit .var c
    exact ⟨_, by simp only [this, bind, Except.bind]; exact hm, scale_mono .var c, fun ρ => by simp [den_scale, den]⟩
  | i + 2 =>
    have : opPow O (ctors O (n + 2)) (sym v) (rat ((i + 2 : ℕ) : ℚ)) = .ok (pow (sym v) (rat ((i + 2 : ℕ) : ℚ))) :=
      pow_var (n + 1) (by omega)
    have hw : VarPower v (pow (sym v) (rat ((i + 2 : ℕ) : ℚ))) := .power (i + 2) (by omega)
    have hm : opMul (ctors O (n + 2)) (rat c) (pow (sym v) (rat ((i + 2 : ℕ) : ℚ))) = .ok (scale c _) := prod_rat_unit hw c
    refine ⟨_, by simp only [this, bind, Except.bind]; exact hm, scale_mono hw c, fun ρ => ?_⟩
    have := pw_natPow (ρ v) (i + 2)
    rw [den_scale]
    simp only [den, Rat.cast_natCast, this]

theorem add_poly (hO : O.Exact) {a b : Expr} (ha : IsPolynomial v a) (hb : IsPolynomial v b) (n : Nat) :
    ∃ S, opAdd (ctors O (n + 6)) a b = .ok S ∧ IsPolynomial v S ∧ ∀ ρ : Str → ℝ, den ρ S = den ρ a + den ρ b := by
  have wf : ∀ {e}, IsPolynomial v e → WF e := by
    rintro e (h | ⟨ts, rfl, _, h⟩)
    · exact Node.mono_wf h
    · simp only [WF]
      exact (WFL_iff _).2 fun t ht => Node.mono_wf (h t ht)
  have dom : ∀ {e} (ρ : Str → ℝ), IsPolynomial v e → Dom ρ e := by
    rintro e ρ (h | ⟨ts, rfl, _, h⟩)
    · exact Node.mono_dom h ρ
    · simp only [Dom, DomS]
      exact (DomSL_iff _ _).2 fun t ht => Node.mono_dom (h t ht) ρ
  have hs : ∃ S, (ctors O (n + 6)).sum [a, b] = .ok S ∧ IsPolynomial v S ∧ ∀ ρ : Str → ℝ, den ρ S = den ρ a + den ρ b := by
    obtain ⟨S, h1, h2⟩ := sum_poly (O := O) (v := v) (ts := [a, b]) (by rintro t ht; simp at ht; rcases ht with rfl | rfl <;> assumption) n
    refine ⟨S, h1, h2, fun ρ => ?_⟩
    have := ((ctors_sound hO (n + 6)).sum (s := false) ρ [a, b] S (by rintro t ht; simp at ht; rcases ht with rfl | rfl <;> exact wf ‹_›)
      (by rintro t ht; simp at ht; rcases ht with rfl | rfl <;> exact dom ρ ‹_›) h1).1
    simpa using this
  unfold opAdd
  split
  · exact ⟨_, rfl, .inl (.const _), fun ρ => by simp [den]⟩
  · exact hs

theorem coef_loop (hO : O.Exact) (n : Nat) : ∀ (cs : List ℚ) (i : Nat) (acc : Expr), IsPolynomial v acc →
    ∃ e, polyToExprFrom O (ctors O (n + 6)) v i acc (cs.map rat) = .ok e ∧ IsPolynomial v e ∧
      ∀ ρ : Str → ℝ, den ρ e = den ρ acc + ((cs.zipIdx i).map fun p => (p.1 : ℝ) * ρ v ^ p.2).sum
  | [], i, acc, h => ⟨acc, rfl, h, fun ρ => by simp⟩
  | c :: r, i, acc, h => by
    obtain ⟨m, h1, h2, h3⟩ := coef_term (O := O) (v := v) (n + 4) c i
    obtain ⟨p, hp, hm⟩ := bind_ok.1 h1
    obtain ⟨acc', h4, h5, h6⟩ := add_poly hO h (.inl h2) n
    obtain ⟨e, h7, h8, h9⟩ := coef_loop hO n r (i + 1) acc' h5
    refine ⟨e, ?_, h8, fun ρ => ?_⟩
    · simp only [List.map_cons, polyToExprFrom, hp, hm, h4, bind, Except.bind]
      exact h7
    · rw [h9, h6, h3]
      simp [List.zipIdx_cons]
      ring

end Simpy
