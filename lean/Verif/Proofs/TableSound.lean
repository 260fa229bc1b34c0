import Verif.Model.Table
import Verif.Spec.Integral
import Verif.Proofs.DiffSound
import Verif.Proofs.Built

/-! The integral table. -/

namespace Simpy
open Expr Filter Topology

variable {O : Oracle}

/-- Near `ρ` along `v` the answer has the values of `g`, whose derivative is the value of the integrand. -/
theorem anti_of_value {ρ : Str → ℝ} {v : Str} {F f : Expr} {g : ℝ → ℝ}
    (h : Near ρ v (fun σ => den σ F = g (σ v))) (hg : HasDerivAt g (den ρ f) (ρ v)) : AntiAt ρ v F f := by
  refine HasDerivAt.congr_of_eventuallyEq hg ?_
  have h' : ∀ᶠ t in 𝓝 (ρ v), den (upd ρ v t) F = g t := by
    have := h
    unfold Near at this
    simpa [upd] using this
  exact h'

theorem trigCtor_sym {n : Nat} {v : Str} {f : TrigFn} {r : Expr} (hf : f.isInverse = false)
    (h : trigCtor O n f (sym v) = .ok r) : r = trig f (sym v) := by
  cases n with
  | zero => simp [trigCtor] at h
  | succ n => cases f <;> simp [TrigFn.isInverse] at hf <;>
      exact (Except.ok.inj h).symm

theorem opAdd_tan_sec {n : Nat} {v : Str} {r : Expr}
    (h : opAdd (ctors O n) (trig .tan (sym v)) (trig .sec (sym v)) = .ok r) : ∃ ts, r = sum ts := by
  cases n with
  | zero => simp [opAdd, ctors] at h
  | succ n =>
    simp only [opAdd] at h
    change sumCtor O (ctors O n) _ = _ at h
    unfold sumCtor at h
    obtain ⟨fs, h1, h⟩ := bind_ok.1 h
    have : fs = [trig .tan (sym v), trig .sec (sym v)] := (Except.ok.inj h1).symm
    subst this
    simp only at h
    obtain ⟨s, -, h⟩ := bind_ok.1 h
    exact ⟨_, (pure_ok.1 h).symm⟩

theorem log_euler (x : ℝ) : x / Real.log (Real.exp 1) = x := by simp

theorem table_sound (hO : O.Exact) {n : Nat} {ρ : Str → ℝ} {v : Str} {e F : Expr} (w : WF e) (hr : DomS true ρ e)
    (hs : TableOk ρ v e) (h : checkTable O n v e = .ok (some F)) : AntiAt ρ v F e ∧ DomS true ρ F ∧ WF F := by
  have hC := ctors_sound hO n
  have free : ∀ {x : Expr} {σ : Str → ℝ}, x.contains v = false → (∃ t, σ = upd ρ v t) → den σ x = den ρ x := by
    rintro x σ hx ⟨t, rfl⟩
    exact den_upd_free (by rw [← contains_iff, hx]; simp) t
  have hne : Real.exp 1 ≠ 1 := by simp
  have wv : WF (sym v) := by simp [WF]
  have we : WF euler := by simp [WF]
  unfold checkTable at h
  split at h
  · next hc =>
    have hc : e.contains v = false := by simpa using hc
    obtain ⟨r, h1, h⟩ := bind_ok.1 h
    have := pure_ok.1 h
    simp only [Option.some.injEq] at this; subst this
    have key : ∀ σ, DomS true σ e → den σ r = den σ e * σ v ∧ DomS true σ r := fun σ dσ => by
      have := opMul_V hC (s := true) (ρ := σ) w wv dσ (by simp [DomS]) h1
      simpa [den] using this
    refine ⟨anti_of_value (g := fun t => den ρ e * t) ?_ ?_, (key ρ hr).2, opMul_W hC w wv h1⟩
    · refine (openAt (v := v) e hr).2.1.mp (Filter.Eventually.of_forall fun t dt => ?_)
      have := (key _ dt).1
      rw [free hc ⟨t, rfl⟩] at this
      exact this
    · simpa using (hasDerivAt_id (ρ v)).const_mul (den ρ e)
  · next hc =>
    have hc : e.contains v = true := by simpa using hc
    obtain ⟨o, h1, h⟩ := bind_ok.1 h
    cases o with
    | some r =>
      have := pure_ok.1 h
      simp only [Option.some.injEq] at this; subst this
      clear h
      unfold tablePower at h1
      cases e with
      | pow b x =>
        simp only at h1
        obtain ⟨wb, wx⟩ : WF b ∧ WF x := ⟨w.1, w.2.1⟩
        obtain ⟨db, dx, -, hhn, hreg⟩ := hr
        have hreg := hreg rfl
        split at h1
        · next hcond =>
          simp only [Bool.and_eq_true, Bool.not_eq_true'] at hcond
          obtain ⟨hb, hx⟩ := hcond
          have : b = sym v := Exact.beq_eq hO db (by simp [DomS]) hb
          subst this
          simp only [den] at hreg
          split at h1
          · next hx1 =>
            have : x = rat (-1) := Exact.beq_eq hO dx (by simp [DomS]) hx1
            subst this
            obtain ⟨a, h2, h1⟩ := bind_ok.1 h1
            obtain ⟨l, h3, h1⟩ := bind_ok.1 h1
            have := pure_ok.1 h1
            simp only [Option.some.injEq] at this; subst this
            have hv0 : ρ v ≠ 0 := by
              rcases hreg with h | h
              · exact h
              · norm_num at h
            have ha : a = absv (sym v) := by
              cases n with
              | zero => simp [ctors] at h2
              | succ n => exact (Except.ok.inj h2).symm
            subst ha
            have wa : WF (absv (sym v)) := by simp [WF]
            have key : ∀ σ : Str → ℝ, σ v ≠ 0 → den σ l = Real.log |σ v| ∧ DomS true σ l := fun σ hσ => by
              have dom : DomS true σ (absv (sym v)) := by simp [DomS, den, hσ]
              have := logCtor_V hO.isPi hO.isE (st := true) (ρ := σ) (i := absv (sym v)) (b := euler)
                ⟨dom.domF, by simp [DomF], by simpa [den] using hσ, by simp [den, Real.exp_pos], by simp [den]⟩ h3
              refine ⟨by rw [this.1]; simp [den], this.2.2 dom (by simp [DomS]) (by simp [HN, den])⟩
            refine ⟨anti_of_value (g := fun t => Real.log |t|) ?_ ?_, (key ρ hv0).2, logCtor_W wa we h3⟩
            · have : ∀ᶠ t in 𝓝 (ρ v), t ≠ 0 := isOpen_ne.mem_nhds hv0
              refine this.mono fun t ht => ?_
              have := (key (upd ρ v t) (by simpa [upd] using ht)).1
              exact this
            · have := Real.hasDerivAt_log hv0
              simp only [Real.log_abs]
              simpa [den] using this
          · next hx1 =>
            have hxn : x ≠ rat (-1) := by rintro rfl; exact hx1 (beq_refl _ (by simp [NoFlt]))
            have hside := hs.1 x rfl hxn
            obtain ⟨x1, h2, h1⟩ := bind_ok.1 h1
            obtain ⟨i, h3, h1⟩ := bind_ok.1 h1
            obtain ⟨p, h4, h1⟩ := bind_ok.1 h1
            obtain ⟨r', h5, h1⟩ := bind_ok.1 h1
            have := pure_ok.1 h1
            simp only [Option.some.injEq] at this; subst this
            have w1 := opAdd_W hC wx (by simp) h2
            have wi := opDiv_W hC (by simp) w1 h3
            have wp := hC.powW _ _ _ wv w1 h4
            have key : ∀ σ : Str → ℝ, DomS true σ (pow (sym v) x) → den σ x ≠ -1 →
                den σ r' = 1 / (den σ x + 1) * pw (σ v) (den σ x + 1) ∧ DomS true σ r' := by
              rintro σ ⟨-, dσ, -, hn, hst⟩ hσ
              have hst := hst rfl
              obtain ⟨v2, d2⟩ := opAdd_V hC (s := true) wx (by simp) dσ (by simp) h2
              have v2' : den σ x1 = den σ x + 1 := by simpa using v2
              have hz : den σ x1 ≠ 0 := by rw [v2']; intro hz; exact hσ (by linarith)
              obtain ⟨v3, d3⟩ := opDiv_V hC (s := true) (by simp) w1 (by simp) d2 hz h3
              have hpd : PowDomS true σ (sym v) x1 := by
                simp only [den] at hst
                rcases hst with h0 | ⟨hi, h6⟩
                · refine ⟨by simp [DomS], d2, .inl (by simpa [den] using h0), fun hx1i => ?_, fun _ => .inl (by simpa [den] using h0)⟩
                  refine HN.radOk ?_
                  have : intExp x = false := by
                    cases hxi : intExp x with
                    | false => rfl
                    | true =>
                      obtain ⟨k, rfl⟩ := intExp_iff.1 hxi
                      simp only [opAdd, Except.ok.injEq] at h2
                      subst h2
                      have : (rat ((k : ℚ) + 1)) = rat ((k + 1 : ℤ) : ℚ) := by push_cast; rfl
                      rw [this] at hx1i
                      simp [intExp] at hx1i
                  exact hn this
                · obtain ⟨k, rfl⟩ := intExp_iff.1 hi
                  simp only [opAdd, Except.ok.injEq] at h2
                  have : x1 = rat ((k + 1 : ℤ) : ℚ) := by rw [← h2]; push_cast; rfl
                  subst this
                  have hk : (1 : ℝ) ≤ k := by simpa using h6
                  refine ⟨by simp [DomS], by simp, .inr ?_, fun hx => by simp [intExp] at hx, fun _ => .inr ⟨by simp [intExp], ?_⟩⟩
                  · rw [v2']; linarith
                  · rw [v2']; linarith
              obtain ⟨v4, d4⟩ := hC.pow (s := true) σ _ _ _ wv w1 hpd h4
              obtain ⟨v5, d5⟩ := opMul_V hC (s := true) wi wp d3 d4 h5
              refine ⟨?_, d5⟩
              rw [v5, v3, v4, v2']; simp [den]
            have hr' : DomS true ρ (pow (sym v) x) := ⟨db, dx, by
              rcases hreg with h | h
              · exact .inl (by simpa [den] using h)
              · exact .inr (by linarith [h.2]), hhn, fun _ => by simpa [den] using hreg⟩
            refine ⟨anti_of_value (g := fun t => 1 / (den ρ x + 1) * pw t (den ρ x + 1)) ?_ ?_, (key ρ hr' hside).2,
              opMul_W hC wi wp h5⟩
            · refine (openAt (v := v) _ hr').2.1.mp (Filter.Eventually.of_forall fun t dt => ?_)
              have := (key _ dt (by rw [free hx ⟨t, rfl⟩]; exact hside)).1
              rw [free hx ⟨t, rfl⟩] at this
              exact this
            · have hz : den ρ x + 1 ≠ 0 := fun hz => hside (by linarith)
              have hc : 0 < id (ρ v) ∨ ∃ n : ℤ, den ρ x + 1 = n ∧ (id (ρ v) ≠ 0 ∨ 1 ≤ n) := by
                cases hi : intExp x with
                | false =>
                  left
                  have := hhn hi
                  simp only [HN, den] at this
                  rcases hreg with h | h
                  · exact lt_of_le_of_ne this (Ne.symm h)
                  · rw [hi] at h; simp at h
                | true =>
                  right
                  obtain ⟨k, rfl⟩ := intExp_iff.1 hi
                  refine ⟨k + 1, by simp, ?_⟩
                  rcases hreg with h | h
                  · exact .inl h
                  · right
                    have : (1 : ℝ) ≤ k := by simpa using h.2
                    have : (1 : ℤ) ≤ k := by exact_mod_cast this
                    omega
              have := (HasDerivAt.pw_const (hasDerivAt_id (ρ v)) hc).const_mul (1 / (den ρ x + 1))
              refine this.congr_deriv ?_
              simp only [den, id, add_sub_cancel_right, mul_one]
              field_simp
        · split at h1
          · next hcond =>
            simp only [Bool.and_eq_true, Bool.not_eq_true'] at hcond
            obtain ⟨hx, hb⟩ := hcond
            have : x = sym v := Exact.beq_eq hO dx (by simp [DomS]) hx
            subst this
            obtain ⟨l, h2, h1⟩ := bind_ok.1 h1
            obtain ⟨i, h3, h1⟩ := bind_ok.1 h1
            obtain ⟨r', h4, h1⟩ := bind_ok.1 h1
            have := pure_ok.1 h1
            simp only [Option.some.injEq] at this; subst this
            have hhn := hhn (by simp [intExp])
            have hb0 : den ρ b ≠ 0 := by
              rcases hreg with h | h
              · exact h
              · simp [intExp] at h
            have hbp : 0 < den ρ b := lt_of_le_of_ne hhn.nonneg (Ne.symm hb0)
            have hb1 := hs.2.1 b rfl
            have wl := logCtor_W wb we h2
            have wi := opDiv_W hC (by simp) wl h3
            have key : ∀ σ : Str → ℝ, DomS true σ (pow b (sym v)) → den σ b ≠ 1 →
                den σ r' = 1 / Real.log (den σ b) * pw (den σ b) (σ v) ∧ DomS true σ r' := by
              intro σ dp hσ
              obtain ⟨dσ, -, -, hn, hst⟩ := id dp
              have hn := hn (by simp [intExp])
              have h0 : den σ b ≠ 0 := by
                rcases hst rfl with h | h
                · exact h
                · simp [intExp] at h
              have hp : 0 < den σ b := lt_of_le_of_ne hn.nonneg (Ne.symm h0)
              have hl := logCtor_V hO.isPi hO.isE (st := true) (ρ := σ) (i := b) (b := euler)
                ⟨dσ.domF, by simp [DomF], hp, by simp [den, Real.exp_pos], by simp [den]⟩ h2
              have hlv : den σ l = Real.log (den σ b) := by rw [hl.1]; simp [den]
              obtain ⟨v3, d3⟩ := opDiv_V hC (s := true) (by simp) wl (by simp) (hl.2.2 dσ (by simp [DomS]) hn)
                (by rw [hlv]; exact Real.log_ne_zero_of_pos_of_ne_one hp hσ) h3
              obtain ⟨v4, d4⟩ := opMul_V hC (s := true) wi w d3 dp h4
              refine ⟨?_, d4⟩
              rw [v4, v3, hlv]; simp [den]
            have hr' : DomS true ρ (pow b (sym v)) := ⟨db, dx, .inl hb0, fun _ => hhn, fun _ => .inl hb0⟩
            refine ⟨anti_of_value (g := fun t => 1 / Real.log (den ρ b) * (den ρ b) ^ t) ?_ ?_, (key ρ hr' hb1).2,
              opMul_W hC wi w h4⟩
            · refine (openAt (v := v) _ hr').2.1.mp (Filter.Eventually.of_forall fun t dt => ?_)
              have := (key _ dt (by rw [free hb ⟨t, rfl⟩]; exact hb1)).1
              rw [free hb ⟨t, rfl⟩, pw_of_nonneg hbp.le] at this
              exact this
            · have hl0 := Real.log_ne_zero_of_pos_of_ne_one hbp hb1
              have := (Real.hasStrictDerivAt_const_rpow hbp (ρ v)).hasDerivAt.const_mul (1 / Real.log (den ρ b))
              refine this.congr_deriv ?_
              simp only [den]
              rw [pw_of_nonneg hbp.le]
              field_simp
          · simp at h1
      | sym s =>
        simp only at h1
        split at h1
        · next hsv =>
          subst hsv
          obtain ⟨p, h2, h1⟩ := bind_ok.1 h1
          obtain ⟨r', h3, h1⟩ := bind_ok.1 h1
          have := pure_ok.1 h1
          simp only [Option.some.injEq] at this; subst this
          have wp := hC.powW _ _ _ wv (by simp) h2
          have key : ∀ σ : Str → ℝ, den σ r' = 1 / 2 * σ s ^ 2 ∧ DomS true σ r' := by
            intro σ
            obtain ⟨v2, d2⟩ := hC.pow (s := true) σ _ _ _ wv (by simp) ⟨by simp [DomS], by simp, .inr (by simp),
              fun hx => by simp [intExp] at hx, fun _ => .inr ⟨by simp [intExp], by norm_num⟩⟩ h2
            obtain ⟨v3, d3⟩ := opMul_V hC (s := true) (by simp) wp (by simp) d2 h3
            refine ⟨?_, d3⟩
            rw [v3, v2]
            have := pw_int (σ s) 2
            simp only [Int.cast_ofNat] at this
            simp [den, this]
          refine ⟨anti_of_value (g := fun t => 1 / 2 * t ^ 2) (Near.of fun σ => (key σ).1) ?_, (key ρ).2,
            opMul_W hC (by simp) wp h3⟩
          have := (hasDerivAt_pow 2 (ρ s)).const_mul (1 / 2 : ℝ)
          refine this.congr_deriv ?_
          simp [den]
        · simp at h1
      | _ => simp at h1
    | none =>
      simp only at h
      clear h1
      have side : ∀ σ, TrigSide O σ n (sym v) := fun σ => trigSide_of_noInv O σ n (by simp [containsCls, isInvTrig])
      have ncot : ∀ {f : TrigFn} {σ : Str → ℝ}, f = .cot → (∃ g w, sym v = trig g w ∧ g.isInverse = true) →
          Real.cos (den σ (sym v)) ≠ 0 := by rintro f σ - ⟨g, w, h, -⟩; cases h
      have shape : ∀ {f : TrigFn} {i : Expr}, e = trig f i → eqWithVar O v ['x'] i tableX = true → i = sym v := by
        intro f i he hi
        subst he
        cases i with
        | sym s =>
          have hcc : s = v := by simpa [Expr.contains] using hc
          rw [hcc]
        | _ => simp [tableX, eqWithVar, sameClass] at hi
      simp only [standardTrig, tableLoop] at h
      by_cases q1 : eqWithVar O v ['x'] e (trig .sin tableX) = true
      · rw [if_pos q1] at h
        obtain ⟨F', h1, h⟩ := bind_ok.1 h
        have := pure_ok.1 h
        simp only [Option.some.injEq] at this; subst this
        obtain ⟨c, h2, h1⟩ := bind_ok.1 h1
        cases e with
        | trig f i =>
          simp only [eqWithVar, Bool.and_eq_true, beq_iff_eq] at q1
          obtain ⟨rfl, hi⟩ := q1
          have := shape rfl hi
          subst this
          have hcc := trigCtor_sym rfl h2
          subst hcc
          have wt : WF (trig .cos (sym v)) := by simp [WF]
          have key : ∀ σ : Str → ℝ, den σ F' = -Real.cos (σ v) ∧ DomS true σ F' := fun σ => by
            have := opNeg_V hC (s := true) (ρ := σ) wt (by simp [DomS, TrigFn.ok, TrigFn.inner]) h1
            simpa [den, TrigFn.real] using this
          refine ⟨anti_of_value (g := fun t => -Real.cos t) (Near.of fun σ => (key σ).1) ?_, (key ρ).2, opNeg_W hC wt h1⟩
          have := (Real.hasDerivAt_cos (ρ v)).fun_neg
          simpa [den, TrigFn.real] using this
        | _ => simp [eqWithVar, sameClass] at q1
      rw [if_neg q1] at h
      by_cases q2 : eqWithVar O v ['x'] e (trig .cos tableX) = true
      · rw [if_pos q2] at h
        obtain ⟨F', h1, h⟩ := bind_ok.1 h
        have := pure_ok.1 h
        simp only [Option.some.injEq] at this; subst this
        cases e with
        | trig f i =>
          simp only [eqWithVar, Bool.and_eq_true, beq_iff_eq] at q2
          obtain ⟨rfl, hi⟩ := q2
          have := shape rfl hi
          subst this
          have hcc := trigCtor_sym rfl h1
          subst hcc
          refine ⟨anti_of_value (g := fun t => Real.sin t) (Near.of fun σ => by simp [den, TrigFn.real]) ?_,
            by simp [DomS, TrigFn.ok, TrigFn.inner], by simp [WF]⟩
          have := Real.hasDerivAt_sin (ρ v)
          simpa [den, TrigFn.real] using this
        | _ => simp [eqWithVar, sameClass] at q2
      rw [if_neg q2] at h
      by_cases q3 : eqWithVar O v ['x'] e (pow (trig .sec tableX) (rat 2)) = true
      · rw [if_pos q3] at h
        obtain ⟨F', h1, h⟩ := bind_ok.1 h
        have := pure_ok.1 h
        simp only [Option.some.injEq] at this; subst this
        cases e with
        | pow b x =>
          simp only [eqWithVar, Bool.and_eq_true] at q3
          obtain ⟨q3, q4⟩ := q3
          obtain ⟨db, dx, -, -, -⟩ := hr
          have hx : x = rat 2 := by
            cases x with
            | rat q =>
              have : beq O (rat q) (rat 2) = true := by
                exact q4.2
              exact Exact.beq_eq hO dx (by simp [DomS]) this
            | _ => simp [eqWithVar, sameClass] at q4
          subst hx
          cases b with
          | trig f i =>
            simp only [eqWithVar, Bool.and_eq_true, beq_iff_eq] at q3
            obtain ⟨rfl, hi⟩ := q3
            have : i = sym v := by
              cases i with
              | sym s =>
                have hcc : s = v := by simpa [Expr.contains] using hc
                rw [hcc]
              | _ => simp [tableX, eqWithVar, sameClass] at hi
            subst this
            have hcc := trigCtor_sym rfl h1
            subst hcc
            have hcos : Real.cos (ρ v) ≠ 0 := by simpa [DomS, TrigFn.ok, den] using db.2.1
            refine ⟨anti_of_value (g := fun t => Real.tan t) (Near.of fun σ => by simp [den, TrigFn.real, Real.tan_eq_sin_div_cos]) ?_,
              by simpa [DomS, TrigFn.ok, TrigFn.inner, den] using hcos, by simp [WF]⟩
            have := Real.hasDerivAt_tan hcos
            refine this.congr_deriv ?_
            have h2 := pw_int (1 / Real.cos (ρ v)) 2
            simp only [Int.cast_ofNat] at h2
            simp only [den, TrigFn.real, Rat.cast_ofNat, h2]
            norm_cast
            rw [div_pow, one_pow]
          | _ => simp [eqWithVar, sameClass] at q3
        | _ => simp [eqWithVar, sameClass] at q3
      rw [if_neg q3] at h
      by_cases q4 : eqWithVar O v ['x'] e (trig .sec tableX) = true
      · rw [if_pos q4] at h
        obtain ⟨F', h1, h⟩ := bind_ok.1 h
        have := pure_ok.1 h
        simp only [Option.some.injEq] at this; subst this
        obtain ⟨t1, h2, h1⟩ := bind_ok.1 h1
        obtain ⟨s1, h3, h1⟩ := bind_ok.1 h1
        obtain ⟨r1, h4, h1⟩ := bind_ok.1 h1
        cases e with
        | trig f i =>
          simp only [eqWithVar, Bool.and_eq_true, beq_iff_eq] at q4
          obtain ⟨rfl, hi⟩ := q4
          have := shape rfl hi
          subst this
          have hcc := trigCtor_sym rfl h2
          subst hcc
          have hcc := trigCtor_sym rfl h3
          subst hcc
          have hpos := hs.2.2 rfl
          have hcos : Real.cos (ρ v) ≠ 0 := by simpa [DomS, TrigFn.ok, den] using hr.2.1
          have wt : WF (trig .tan (sym v)) := by simp [WF]
          have ws : WF (trig .sec (sym v)) := by simp [WF]
          obtain ⟨us, rfl⟩ := opAdd_tan_sec h4
          have wr := opAdd_W hC wt ws h4
          have key : ∀ σ : Str → ℝ, Real.cos (σ v) ≠ 0 → 0 < Real.sin (σ v) / Real.cos (σ v) + 1 / Real.cos (σ v) →
              den σ F' = Real.log (Real.sin (σ v) / Real.cos (σ v) + 1 / Real.cos (σ v)) ∧ DomS true σ F' := fun σ c1 c2 => by
            obtain ⟨v4, d4⟩ := opAdd_V hC (s := true) (ρ := σ) wt ws (by simpa [DomS, TrigFn.ok, TrigFn.inner, den] using c1)
              (by simpa [DomS, TrigFn.ok, TrigFn.inner, den] using c1) h4
            have v4' : den σ (sum us) = Real.sin (σ v) / Real.cos (σ v) + 1 / Real.cos (σ v) := by
              simpa [den, TrigFn.real] using v4
            have hp : 0 < den σ (sum us) := by rw [v4']; exact c2
            have hl := logCtor_V hO.isPi hO.isE (st := true) (ρ := σ) (i := sum us) (b := euler)
              ⟨d4.domF, by simp [DomF], hp, by simp [den, Real.exp_pos], by simp [den]⟩ h1
            refine ⟨?_, hl.2.2 d4 (by simp [DomS]) ((HN_of_baseOk (by rfl)).2 hp.le)⟩
            rw [hl.1, v4']; simp [den]
          have hd : HasDerivAt (fun t => Real.sin t / Real.cos t + 1 / Real.cos t)
              (1 / Real.cos (ρ v) * (Real.sin (ρ v) / Real.cos (ρ v) + 1 / Real.cos (ρ v))) (ρ v) := by
            have h1 := (Real.hasDerivAt_sin (ρ v)).fun_div (Real.hasDerivAt_cos (ρ v)) hcos
            have h2 := (hasDerivAt_const (ρ v) (1 : ℝ)).fun_div (Real.hasDerivAt_cos (ρ v)) hcos
            refine (h1.fun_add h2).congr_deriv ?_
            have := Real.sin_sq_add_cos_sq (ρ v)
            field_simp
            linarith
          refine ⟨anti_of_value (g := fun t => Real.log (Real.sin t / Real.cos t + 1 / Real.cos t)) ?_ ?_,
            (key ρ hcos hpos).2, logCtor_W wr we h1⟩
          · have n1 : ∀ᶠ t in 𝓝 (ρ v), Real.cos t ≠ 0 := Real.continuous_cos.continuousAt.eventually_ne hcos
            have n2 : ∀ᶠ t in 𝓝 (ρ v), 0 < Real.sin t / Real.cos t + 1 / Real.cos t :=
              hd.continuousAt.eventually (lt_mem_nhds hpos)
            refine (n1.and n2).mono fun t ht => ?_
            have := (key (upd ρ v t) (by simpa [upd] using ht.1) (by simpa [upd] using ht.2)).1
            exact this
          · refine (hd.log hpos.ne').congr_deriv ?_
            simp only [den, TrigFn.real]
            rw [mul_div_assoc, div_self hpos.ne', mul_one]
        | _ => simp [eqWithVar, sameClass] at q4
      rw [if_neg q4] at h
      simp at h

end Simpy
