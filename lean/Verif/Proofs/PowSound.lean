import Verif.Proofs.ProdSound

/-! Soundness of `Power(b, x)` and `Abs(i)`, given soundness one stack level down. -/

namespace Simpy
open Expr

/-! ## Real-number facts -/

theorem pw_inv {b : ℝ} {x : ℚ} (h : x.den = 1 ∨ 0 ≤ b) : pw b (-x : ℝ) = (pw b x)⁻¹ := by
  rcases h with h | h
  · have hx : (x : ℝ) = (x.num : ℝ) := by
      have : x = (x.num : ℚ) := ((Rat.den_eq_one_iff x).1 h).symm
      conv_lhs => rw [this]
      simp
    have h2 : (-(x.num : ℝ)) = ((-x.num : ℤ) : ℝ) := by push_cast; rfl
    rw [hx, h2, pw_int, pw_int, zpow_neg]
  · rw [pw_of_nonneg h, pw_of_nonneg h, Real.rpow_neg h]

theorem pw_div {a b : ℝ} {x : ℚ} (h : x.den = 1 ∨ (0 ≤ a ∧ 0 ≤ b)) :
    pw (a / b) x = pw a x / pw b x := by
  rcases h with h | h
  · have hx : (x : ℝ) = (x.num : ℝ) := by
      have : x = (x.num : ℚ) := ((Rat.den_eq_one_iff x).1 h).symm
      conv_lhs => rw [this]
      simp
    rw [hx, pw_int, pw_int, pw_int, div_zpow]
  · rw [pw_of_nonneg h.1, pw_of_nonneg h.2, pw_of_nonneg (div_nonneg h.1 h.2), Real.div_rpow h.1 h.2]

theorem intPowTest_spec {O : Oracle} (hO : O.Exact) {n : ℤ} {x : ℚ} {k : ℤ} (hx : 0 < x)
    (h : intPowTest O n x = .ok (some k)) : (k : ℝ) = pw n x ∧ (x.den = 1 ∨ 0 ≤ n) := by
  unfold intPowTest at h
  split at h
  · next hd =>
    simp only [Except.ok.injEq, Option.some.injEq] at h
    refine ⟨?_, .inl hd⟩
    have hxn : x = (x.num : ℚ) := ((Rat.den_eq_one_iff x).1 hd).symm
    have hx' : (x : ℝ) = (x.num : ℝ) := by conv_lhs => rw [hxn]; simp
    have h0 : 0 ≤ x.num := Rat.num_nonneg.2 hx.le
    have : x.num = (x.num.toNat : ℤ) := (Int.toNat_of_nonneg h0).symm
    rw [hx', pw_int, ← h]
    conv_rhs => rw [this]
    rw [zpow_natCast]; push_cast; rfl
  · next hd =>
    obtain ⟨h1, h2⟩ := hO.intPow n x k hd hx h
    refine ⟨?_, .inr h1⟩
    rw [h2, pw_of_nonneg (by exact_mod_cast h1)]

theorem intPowTest_none {O : Oracle} {n : ℤ} {x : ℚ} (h : intPowTest O n x = .ok none) : x.den ≠ 1 := by
  unfold intPowTest at h
  split at h
  · simp at h
  · assumption

theorem intPowTest_some_of_int {O : Oracle} {n : ℤ} {x : ℚ} (hd : x.den = 1) :
    ∃ k, intPowTest O n x = .ok (some k) := by
  unfold intPowTest; simp [hd]

theorem abs_den (x : ℚ) : |x|.den = x.den := by
  rcases le_total 0 x with h | h
  · rw [abs_of_nonneg h]
  · rw [abs_of_nonpos h, Rat.neg_den]

theorem mkRat2_ok {a b : ℤ} {r : Expr} (h : mkRat2 a b = .ok r) : b ≠ 0 ∧ r = rat (a / b) := by
  unfold mkRat2 at h
  split at h
  · simp at h
  · next hb => simp only [Except.ok.injEq] at h; exact ⟨hb, h.symm⟩

theorem rat_pos_parts {b : ℚ} (hb : 0 ≤ b) : (0:ℝ) ≤ (b.num : ℝ) ∧ (0:ℝ) ≤ (b.den : ℝ) ∧
    (b : ℝ) = (b.num : ℝ) / (b.den : ℝ) := by
  refine ⟨by exact_mod_cast Rat.num_nonneg.2 hb, by positivity, ?_⟩
  exact Rat.cast_def b

/-! ## `_accumulate_power` -/

theorem accumulatePowerRat_W {O : Oracle} {C : Ctors} (hC : Sound C) {b x : ℚ} {r : Expr}
    (h : accumulatePowerRat O C b x = .ok (some r)) : WF r := by
  unfold accumulatePowerRat at h
  split at h
  · split at h <;> (simp only [Except.ok.injEq, Option.some.injEq] at h; subst h; simp [WF])
  · obtain ⟨num, hnum, h⟩ := bind_ok.1 h
    obtain ⟨dn, hden, h⟩ := bind_ok.1 h
    have key : ∀ (ans : Option Expr), (∀ a, ans = some a → WF a) →
        (match ans with
        | none => (return none : R (Option Expr))
        | some a =>
          if x > 0 then return some a
          else do
            let r ← opDiv C (rat 1) a
            return some r) = .ok (some r) → WF r := by
      intro ans ha h
      cases ans with
      | none => simp [pure, Except.pure] at h
      | some a =>
        simp only at h
        split at h
        · simp only [pure_ok, Option.some.injEq] at h; subst h; exact ha _ rfl
        · obtain ⟨r', hr, h⟩ := bind_ok.1 h
          simp only [pure_ok, Option.some.injEq] at h; subst h
          exact opDiv_W hC (by simp) (ha _ rfl) hr
    have mid : ∀ (ans : Option Expr), (∀ a, ans = some a → WF a) →
        (if b.num = 1 ∨ (b.den ≠ 1 ∧ x < 0) then do
        let r ← C.pow (rat (1 / b)) (rat (-x))
        return some r
      else if x.den % 2 = 0 ∧ b < 0 then (return none : R (Option Expr))
      else if b < 0 then do
        let p ← C.pow (rat (-b)) (rat x)
        let r ← opMul C (rat (-1)) p
        return some r
      else match ans with
        | none => (return none : R (Option Expr))
        | some a =>
          if x > 0 then return some a
          else do
            let r ← opDiv C (rat 1) a
            return some r) = .ok (some r) → WF r := by
      intro ans ha h
      split at h
      · obtain ⟨r', hr, h⟩ := bind_ok.1 h
        simp only [pure_ok, Option.some.injEq] at h; subst h
        exact hC.powW _ _ _ (by simp) (by simp) hr
      · split at h
        · simp [pure, Except.pure] at h
        · split at h
          · obtain ⟨p, hp, h⟩ := bind_ok.1 h
            obtain ⟨r', hr, h⟩ := bind_ok.1 h
            simp only [pure_ok, Option.some.injEq] at h; subst h
            exact opMul_W hC (by simp) (hC.powW _ _ _ (by simp) (by simp) hp) hr
          · exact key ans ha h
    cases num with
    | some n =>
      cases dn with
      | some d =>
        simp only at h
        split at h
        all_goals
          obtain ⟨r', hr, h⟩ := bind_ok.1 h
          simp only [pure_ok, Option.some.injEq] at h; subst h
          rw [(mkRat2_ok hr).2]; simp
      | none =>
        refine mid (if n ≠ 1 then some (prod [rat n, pow (rat b.den) (rat (-x))]) else none) ?_ h
        intro a ha
        split at ha
        · simp only [Option.some.injEq] at ha; subst ha; simp [WF, WFL, List.filter, isAcc, isNum, baseOk]
        · simp at ha
    | none =>
      cases dn with
      | some d =>
        refine mid (if d ≠ 1 then some (prod [rat (1 / d), pow (rat b.num) (rat x)]) else none) ?_ h
        intro a ha
        split at ha
        · simp only [Option.some.injEq] at ha; subst ha; simp [WF, WFL, List.filter, isAcc, isNum, baseOk]
        · simp at ha
      | none =>
        exact mid none (by simp) h

theorem accumulatePowerRat_V {O : Oracle} (hO : O.Exact) {C : Ctors} (hC : Sound C) {s : Bool} {ρ : Str → ℝ} {b x : ℚ}
    {r : Expr} (hx0 : x ≠ 0) (hd : b ≠ 0 ∨ 0 ≤ x) (hrad : x.den ≠ 1 → 0 ≤ b)
    (h : accumulatePowerRat O C b x = .ok (some r)) : den ρ r = pw b x ∧ DomS s ρ r := by
  unfold accumulatePowerRat at h
  split at h
  · next hb =>
    subst hb
    have hx : 0 < x := lt_of_le_of_ne (hd.resolve_left (by simp)) (Ne.symm hx0)
    simp only [gt_iff_lt, hx, if_true, Except.ok.injEq, Option.some.injEq] at h
    subst h
    refine ⟨?_, by simp⟩
    simp only [den_rat, Rat.cast_zero]
    rw [pw_of_nonneg le_rfl, Real.zero_rpow (by exact_mod_cast hx0)]
  · next hb =>
    obtain ⟨num, hnum, h⟩ := bind_ok.1 h
    obtain ⟨dn, hden, h⟩ := bind_ok.1 h
    have hax : 0 < |x| := abs_pos.2 hx0
    have hbd : (b : ℝ) = (b.num : ℝ) / (b.den : ℝ) := Rat.cast_def b
    have hcond : |x|.den = 1 ∨ ((0:ℝ) ≤ (b.num : ℝ) ∧ (0:ℝ) ≤ (b.den : ℝ)) := by
      by_cases hxd : x.den = 1
      · left; rw [abs_den]; exact hxd
      · right; exact ⟨(rat_pos_parts (hrad hxd)).1, (rat_pos_parts (hrad hxd)).2.1⟩
    -- not both succeed: the exponent is not an integer
    have mid : ∀ (ans : Option Expr), x.den ≠ 1 →
        (∀ a, b.num ≠ 1 → ¬ (b.den ≠ 1 ∧ x < 0) → ans = some a →
          WF a ∧ DomS s ρ a ∧ den ρ a = pw b ((|x| : ℚ) : ℝ)) →
        (if b.num = 1 ∨ (b.den ≠ 1 ∧ x < 0) then do
        let r ← C.pow (rat (1 / b)) (rat (-x))
        return some r
      else if x.den % 2 = 0 ∧ b < 0 then (return none : R (Option Expr))
      else if b < 0 then do
        let p ← C.pow (rat (-b)) (rat x)
        let r ← opMul C (rat (-1)) p
        return some r
      else match ans with
        | none => (return none : R (Option Expr))
        | some a =>
          if x > 0 then return some a
          else do
            let r ← opDiv C (rat 1) a
            return some r) = .ok (some r) → den ρ r = pw b x ∧ DomS s ρ r := by
      intro ans hxd ha h
      have hb0 := hrad hxd
      have hb' : (0:ℝ) ≤ (b:ℝ) := by exact_mod_cast hb0
      have hbne : (b : ℝ) ≠ 0 := by exact_mod_cast hb
      split at h
      · obtain ⟨r', hr, h⟩ := bind_ok.1 h
        simp only [pure_ok, Option.some.injEq] at h; subst h
        have hb1 : den ρ (rat (1 / b)) ≠ 0 := by simp only [den_rat]; push_cast; simpa using hbne
        have := hC.pow (s := s) ρ _ _ _ (by simp) (by simp) ⟨by simp, by simp, .inl hb1, ?_, fun _ => .inl hb1⟩ hr
        · refine ⟨?_, this.2⟩
          rw [this.1]; simp only [den_rat]
          push_cast
          rw [pw_of_nonneg (by positivity), pw_of_nonneg hb', one_div, Real.rpow_neg (by positivity),
            Real.inv_rpow hb', inv_inv]
        · intro _; simp only [RadOk, den_rat]; push_cast; positivity
      · next hno =>
        split at h
        · simp [pure, Except.pure] at h
        · split at h
          · next hneg => exact absurd hneg (not_lt.2 hb0)
          · cases ans with
            | none => simp [pure, Except.pure] at h
            | some a =>
              push Not at hno
              obtain ⟨wa, da, va⟩ := ha a hno.1 (by rintro ⟨h1, h2⟩; exact absurd h2 (not_lt.2 (hno.2 h1))) rfl
              simp only at h
              split at h
              · next hx =>
                simp only [pure_ok, Option.some.injEq] at h; subst h
                exact ⟨by rw [va, abs_of_pos hx], da⟩
              · next hx =>
                obtain ⟨r', hr, h⟩ := bind_ok.1 h
                simp only [pure_ok, Option.some.injEq] at h; subst h
                have hx' : x < 0 := lt_of_le_of_ne (not_lt.1 hx) hx0
                have hane : den ρ a ≠ 0 := by
                  rw [va, pw_of_nonneg hb']
                  exact (Real.rpow_pos_of_pos (lt_of_le_of_ne hb' (Ne.symm hbne)) _).ne'
                obtain ⟨v, d⟩ := opDiv_V hC (by simp) wa (by simp) da hane hr
                refine ⟨?_, d⟩
                rw [v, va, abs_of_neg hx', Rat.cast_neg]
                rw [pw_inv (.inr hb')]
                simp
    have hposnum : x.den ≠ 1 → (0:ℝ) < b.num ∧ (0:ℝ) < b.den := by
      intro hxd
      have hb0 : 0 < b := lt_of_le_of_ne (hrad hxd) (Ne.symm hb)
      exact ⟨by exact_mod_cast Rat.num_pos.2 hb0, by exact_mod_cast b.den_pos⟩
    have hdd : ∀ a : ℚ, pw ((a.den : ℤ) : ℝ) (|x| : ℚ) = pw (a.den : ℝ) (|x| : ℚ) := by
      intro a; push_cast; rfl
    cases num with
    | some n =>
      obtain ⟨vn, _⟩ := intPowTest_spec hO hax hnum
      cases dn with
      | some d =>
        obtain ⟨vd, _⟩ := intPowTest_spec hO hax hden
        rw [hdd] at vd
        simp only at h
        split at h
        · next hx =>
          obtain ⟨r', hr, h⟩ := bind_ok.1 h
          simp only [pure_ok, Option.some.injEq] at h; subst h
          rw [(mkRat2_ok hr).2]
          refine ⟨?_, by simp⟩
          rw [abs_of_pos hx] at vn vd
          simp only [den_rat]; push_cast
          rw [vn, vd, hbd, pw_div (by rwa [abs_of_pos hx] at hcond)]
        · next hx =>
          obtain ⟨r', hr, h⟩ := bind_ok.1 h
          simp only [pure_ok, Option.some.injEq] at h; subst h
          rw [(mkRat2_ok hr).2]
          refine ⟨?_, by simp⟩
          have hx' : x < 0 := lt_of_le_of_ne (not_lt.1 hx) hx0
          simp only [den_rat]; push_cast
          have e : (x : ℝ) = -((|x| : ℚ) : ℝ) := by rw [abs_of_neg hx']; push_cast; ring
          rw [e, vn, vd, hbd, pw_inv, pw_div hcond, inv_div]
          rcases hcond with hc | hc
          · exact .inl hc
          · exact .inr (div_nonneg hc.1 hc.2)
      | none =>
        have hxd : x.den ≠ 1 := by rw [← abs_den]; exact intPowTest_none hden
        obtain ⟨pn, pd⟩ := hposnum hxd
        refine mid (if n ≠ 1 then some (prod [rat n, pow (rat b.den) (rat (-x))]) else none) hxd ?_ h
        intro a h1 h2 ha
        split at ha
        · simp only [Option.some.injEq] at ha; subst ha
          refine ⟨by simp [WF, WFL, List.filter, isAcc, isNum, baseOk], ?_, ?_⟩
          · simp only [DomS, DomSL, den_rat, true_and, and_true]
            refine ⟨.inl ?_, ?_, fun _ => .inl ?_⟩
            · push_cast; exact pd.ne'
            · intro _; simp only [HN, den_rat]; push_cast; exact pd.le
            · push_cast; exact pd.ne'
          · simp only [den, denP, mul_one, Rat.cast_intCast, Rat.cast_natCast, Rat.cast_neg, Rat.cast_div,
              Rat.cast_one]
            rw [vn, hbd, pw_div hcond, div_eq_mul_inv]
            congr 1
            by_cases hx : 0 < x
            · rw [abs_of_pos hx, pw_inv (.inr pd.le)]
            · have hx' : x < 0 := lt_of_le_of_ne (not_lt.1 hx) hx0
              have : b.den = 1 := by by_contra hne; exact h2 ⟨hne, hx'⟩
              rw [this]; simp
        · simp at ha
    | none =>
      have hxd : x.den ≠ 1 := by rw [← abs_den]; exact intPowTest_none hnum
      obtain ⟨pn, pd⟩ := hposnum hxd
      cases dn with
      | some d =>
        obtain ⟨vd, _⟩ := intPowTest_spec hO hax hden
        rw [hdd] at vd
        refine mid (if d ≠ 1 then some (prod [rat (1 / d), pow (rat b.num) (rat x)]) else none) hxd ?_ h
        intro a h1 h2 ha
        split at ha
        · next hd1 =>
          simp only [Option.some.injEq] at ha; subst ha
          have hx : 0 < x := by
            by_contra hx
            have hx' : x < 0 := lt_of_le_of_ne (not_lt.1 hx) hx0
            have : b.den = 1 := by by_contra hne; exact h2 ⟨hne, hx'⟩
            rw [this] at vd
            simp at vd
            exact hd1 vd
          refine ⟨by simp [WF, WFL, List.filter, isAcc, isNum, baseOk], ?_, ?_⟩
          · simp only [DomS, DomSL, den_rat, true_and, and_true]
            refine ⟨.inl ?_, ?_, fun _ => .inl ?_⟩
            · push_cast; exact pn.ne'
            · intro _; simp only [HN, den_rat]; push_cast; exact pn.le
            · push_cast; exact pn.ne'
          · simp only [den, denP, mul_one, Rat.cast_intCast, Rat.cast_natCast, Rat.cast_neg, Rat.cast_div,
              Rat.cast_one]
            rw [vd, hbd, pw_div hcond, div_eq_mul_inv, abs_of_pos hx]
            ring
        · simp at ha
      | none => exact mid none hxd (by simp) h

end Simpy
