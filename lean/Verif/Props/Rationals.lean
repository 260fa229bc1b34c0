import Verif.Proofs.ExactOracle
import Verif.Proofs.Built
import Verif.Proofs.Check

/-!
# C05, C06: rational arithmetic is exact
-/

namespace Simpy
open Expr

/-- **C05** the operators on two rationals return exactly the rational result. -/
theorem rational_operators_exact (O : Oracle) (C : Ctors) (p q : ℚ) :
    opAdd C (rat p) (rat q) = .ok (rat (p + q)) ∧ opSub C (rat p) (rat q) = .ok (rat (p - q)) ∧
    opMul C (rat p) (rat q) = .ok (rat (p * q)) ∧ (q ≠ 0 → opDiv C (rat p) (rat q) = .ok (rat (p / q))) ∧
    opNeg C (rat p) = .ok (rat (-p)) ∧
    (∀ k : ℤ, p ≠ 0 ∨ 0 ≤ k → opPow O C (rat p) (rat k) = .ok (rat (p ^ k))) := by
  refine ⟨rfl, rfl, rfl, fun h => by simp [opDiv, h], by simp [opNeg], fun k hk => ?_⟩
  have : ¬ (p = 0 ∧ k < 0) := by
    rintro ⟨h1, h2⟩; rcases hk with h | h
    · exact h h1
    · omega
  simp [opPow, fracPowInt, this, Bind.bind, Except.bind, Pure.pure, Except.pure]

theorem combineSumLoop_rat {O : Oracle} : ∀ (n : Nat) (qs : List ℚ), qs.length ≤ n →
    combineSumLoop O n (qs.map rat) = .ok ([], qs.map rat)
  | 0, [], _ => by simp [combineSumLoop]
  | 0, _ :: _, h => by simp at h
  | _ + 1, [], _ => by simp [combineSumLoop]
  | n + 1, q :: r, h => by
    simp only [List.map_cons, combineSumLoop, isAcc, if_true]
    rw [combineSumLoop_rat n r (by simpa using h)]
    rfl

theorem flatSL_rat : ∀ qs : List ℚ, flatSL (qs.map rat) = qs.map rat
  | [] => by simp [flatSL]
  | q :: r => by simp [flatSL, flatS, flatSL_rat r]

theorem flatPL_rat : ∀ qs : List ℚ, flatPL (qs.map rat) = qs.map rat
  | [] => by simp [flatPL]
  | q :: r => by simp [flatPL, flatP, flatPL_rat r]

/-- **C05** `Sum` of any number of rationals returns exactly their sum. -/
theorem rational_sum_exact (O : Oracle) (n : Nat) (qs : List ℚ) :
    (ctors O (n + 1)).sum (qs.map rat) = .ok (rat qs.sum) := by
  simp only [ctors, step, sumCtor, flatSL_rat, combineSum, List.length_map,
    combineSumLoop_rat _ qs le_rfl, Bind.bind, Except.bind, Pure.pure, Except.pure]
  cases qs with
  | nil => simp
  | cons q r =>
    simp only [List.map_cons, List.isEmpty_cons, Bool.false_eq_true, if_false]
    rw [← List.map_cons, accumulateSum_rat]
    by_cases h : (q :: r).sum = 0
    · simp [beq, h]
    · simp only [beq, beq_iff_eq, h, if_false]; rfl

/-- **C05** `Power` of a rational and an integer returns exactly the rational power. -/
theorem rational_power_exact (O : Oracle) (n : Nat) (q : ℚ) (k : ℤ) (h : q ≠ 0 ∨ 0 ≤ k) :
    (ctors O (n + 1)).pow (rat q) (rat k) = .ok (rat (q ^ k)) := by
  simp only [ctors, step, powCtor, beq, beq_iff_eq]
  by_cases k0 : k = 0
  · simp [k0]
  by_cases k1 : k = 1
  · simp [k1]
  by_cases q1 : q = 1
  · simp [q1]
  have k0' : ¬ (k : ℚ) = 0 := by exact_mod_cast k0
  have k1' : ¬ (k : ℚ) = 1 := by exact_mod_cast k1
  simp only [k0', k1', q1, if_false, isAcc, Bool.and_self, if_true, accumulatePower, accumulatePowerRat]
  by_cases q0 : q = 0
  · have : 0 < k := by
      rcases h with h | h
      · exact absurd q0 h
      · omega
    have h2 : (0 : ℚ) < k := by exact_mod_cast this
    simp [q0, h2, zero_zpow k k0]
  · have habs : |(k : ℚ)| = ((|k| : ℤ) : ℚ) := by push_cast; rfl
    have hden : |(k : ℚ)|.den = 1 := by rw [abs_den]; simp
    have hnum : |(k : ℚ)|.num.toNat = k.natAbs := by
      rw [habs, Rat.num_intCast, Int.abs_eq_natAbs, Int.toNat_natCast]
    simp only [q0, if_false, intPowTest, hden, if_true, hnum, Bind.bind, Except.bind, Pure.pure, Except.pure]
    have hn : (q.num : ℤ) ≠ 0 := Rat.num_ne_zero.2 q0
    have hd : (q.den : ℤ) ≠ 0 := by exact_mod_cast q.den_nz
    have e : q = (q.num : ℚ) / (q.den : ℚ) := (Rat.num_div_den q).symm
    rcases lt_or_gt_of_ne k0 with hk | hk
    · have : ¬ ((k : ℚ) > 0) := by push Not; exact_mod_cast hk.le
      simp only [this, if_false, mkRat2, pow_eq_zero_iff', hn, false_and]
      congr 3
      have : k = -(k.natAbs : ℤ) := by omega
      rw [this, zpow_neg, zpow_natCast]
      push_cast
      conv_rhs => rw [e]
      rw [div_pow, inv_div, Int.natAbs_neg, Int.natAbs_abs]
    · have : (k : ℚ) > 0 := by exact_mod_cast hk
      simp only [this, if_true, mkRat2, pow_eq_zero_iff', hd, false_and, if_false]
      congr 3
      have : k = (k.natAbs : ℤ) := by omega
      rw [this, zpow_natCast]
      push_cast
      conv_rhs => rw [e]
      rw [div_pow, Int.natAbs_abs]

theorem foldAdd_ones (C : Ctors) : ∀ (m : Nat) (a : ℚ),
    foldAdd C (rat a) (List.replicate m (rat 1)) = .ok (rat (a + m))
  | 0, a => by simp [foldAdd]
  | m + 1, a => by
    simp only [List.replicate_succ, foldAdd, opAdd]
    rw [foldAdd_ones C m]; push_cast; ring_nf

theorem combineProdLoop_rat {O : Oracle} {C : Ctors}
    (hC : ∀ (q : ℚ) (k : ℕ), C.pow (rat q) (rat k) = .ok (rat (q ^ k))) :
    ∀ (n : Nat) (qs : List ℚ), qs.length ≤ n →
    ∃ ps : List ℚ, combineProdLoop O C n (qs.map rat) = .ok ([], ps.map rat) ∧ ps.prod = qs.prod ∧
      (ps = [] → qs = [])
  | 0, [], _ => ⟨[], by simp [combineProdLoop]⟩
  | 0, _ :: _, h => by simp at h
  | _ + 1, [], _ => ⟨[], by simp [combineProdLoop]⟩
  | n + 1, q :: r, h => by
    have hbase : ∀ u : ℚ, deconPow (rat u) = (rat u, rat 1) := fun u => rfl
    have hhits : (r.map rat).filter (fun u => beq O (deconPow u).1 (rat q)) = (r.filter (· == q)).map rat := by
      rw [List.filter_map]; rfl
    have hrest : (r.map rat).filter (fun u => !beq O (deconPow u).1 (rat q)) = (r.filter (fun u => !(u == q))).map rat := by
      rw [List.filter_map]; rfl
    have hlen : (r.filter (fun u => !(u == q))).length ≤ n :=
      le_trans (List.length_filter_le _ _) (by simpa using h)
    obtain ⟨ps, hps, hprod, -⟩ := combineProdLoop_rat (O := O) hC n _ hlen
    have hrep : r.filter (· == q) = List.replicate (r.filter (· == q)).length q :=
      List.eq_replicate_length.2 (fun b hb => by simpa using (List.mem_filter.1 hb).2)
    have hsplit : r.prod = q ^ (r.filter (· == q)).length * (r.filter (fun u => !(u == q))).prod := by
      have := prod_map_split (fun u : ℚ => u) (· == q) r
      simp only [List.map_id'] at this
      rw [this]; congr 1
      conv_lhs => rw [hrep]
      simp
    simp only [List.map_cons, combineProdLoop, hbase, hhits, hrest]
    by_cases he : r.filter (· == q) = []
    · refine ⟨q :: ps, ?_, ?_, by simp⟩
      · simp [he, hps, Bind.bind, Except.bind, Pure.pure, Except.pure, isAcc]
      · rw [List.prod_cons, hprod, List.prod_cons, hsplit, he]; simp
    · set m := (r.filter (· == q)).length with hm
      have hm0 : m ≠ 0 := by simpa [hm] using he
      have hmap : ((r.filter (· == q)).map rat).map (fun u => (deconPow u).2) = List.replicate m (rat 1) := by
        rw [hrep, List.map_replicate, List.map_replicate]; rfl
      refine ⟨q ^ (1 + m) :: ps, ?_, ?_, by simp⟩
      · have h1 : ¬ ((1 : ℚ) + m = 0) := by positivity
        have h2 : ¬ ((1 : ℚ) + m = 1) := by simpa using hm0
        have hp := hC q (1 + m)
        push_cast at hp
        simp only [List.isEmpty_map, List.isEmpty_iff, he, if_false, hmap, foldAdd_ones, likeFactor, beq,
          beq_iff_eq, h1, h2, hp, hps, Bind.bind, Except.bind, Pure.pure, Except.pure, isAcc, if_true,
          List.map_cons, Bool.false_eq_true]
      · rw [List.prod_cons, hprod, List.prod_cons, hsplit, pow_add, pow_one]; ring

/-- **C05** `Prod` of any number of rationals returns exactly their product. -/
theorem rational_prod_exact (O : Oracle) (n : Nat) (qs : List ℚ) :
    (ctors O (n + 2)).prod (qs.map rat) = .ok (rat qs.prod) := by
  obtain ⟨ps, h, hp, hn⟩ := combineProdLoop_rat (O := O) (C := ctors O (n + 1))
    (fun q k => by simpa using rational_power_exact O n q k (.inr (by positivity))) (qs.map rat).length qs (by simp)
  have e : (ctors O (n + 2)).prod (qs.map rat) = prodCtor O (ctors O (n + 1)) (qs.map rat) := rfl
  rw [e]
  simp only [prodCtor, flatPL_rat, combineProd, h, Bind.bind, Except.bind, Pure.pure, Except.pure, accumulateProd_rat]
  cases ps with
  | nil => simp [hn rfl]
  | cons q r =>
    simp only [List.map_cons, List.isEmpty_cons, Bool.false_eq_true, if_false, hp, beq, beq_iff_eq]
    by_cases h0 : qs.prod = 0
    · simp [h0]
    · by_cases h1 : qs.prod = 1
      · simp [h1]
      · simp [h0, h1]

/-- **C06** if `Power(q, r)` of two rationals is a rational, it is exactly `q ** r`: for `q ≥ 0`, for an integer
`r`, and for a negative `q` unless `r` has an even numerator and an odd denominator (where the code is wrong,
`rational_root_even_fails`). -/
theorem rational_root_exact_partial {O : Oracle} (hO : O.Exact) : ∀ (n : Nat) (q r s : ℚ),
    (0 ≤ q ∨ r.den = 1 ∨ Odd r.num) → (ctors O n).pow (rat q) (rat r) = .ok (rat s) → (s : ℝ) = pw q r := by
  intro n q r s hq h
  have main : q ≠ 0 ∨ 0 ≤ r → (r.den = 1 ∨ 0 ≤ q) → (s : ℝ) = pw q r := by
    intro h0 h1
    have := ((ctors_sound hO n).pow (s := false) (fun _ => 0) (rat q) (rat r) (rat s) (by simp [WF]) (by simp [WF])
      ⟨by simp [Dom, DomS], by simp [Dom, DomS], by simpa [den] using h0, (fun hx => by
        have : ¬ r.den = 1 := by simpa [intExp] using hx
        have := h1.resolve_left this
        simpa [RadOk, den] using this), by simp⟩ h).1
    simpa [den] using this
  by_cases hz : q = 0 ∧ r < 0
  · obtain ⟨rfl, hr⟩ := hz
    cases n with
    | zero => simp [ctors] at h
    | succ n =>
      have h1 : ¬ r = 0 := hr.ne
      have h2 : ¬ r = 1 := by intro h; rw [h] at hr; norm_num at hr
      have h3 : ¬ (0 < r) := by linarith
      simp [ctors, step, powCtor, beq, h1, h2, isAcc, accumulatePower, accumulatePowerRat, h3] at h
  have hz' : q ≠ 0 ∨ 0 ≤ r := by
    by_contra hc; push Not at hc; exact hz hc
  by_cases hd : r.den = 1
  · exact main hz' (.inl hd)
  rcases le_or_gt 0 q with hq0 | hqn
  · exact main hz' (.inr hq0)
  have hodd : Odd r.num := by
    rcases hq with h | h | h
    · exact absurd h (not_le.2 hqn)
    · exact absurd h hd
    · exact h
  clear hq main hz hz'
  -- negative base, non-integral exponent with odd numerator
  induction n generalizing q r s with
  | zero => simp [ctors] at h
  | succ n ih =>
    have h0 : ¬ r = 0 := by rintro rfl; simp at hd
    have h1 : ¬ r = 1 := by rintro rfl; simp at hd
    have hq1 : ¬ q = 1 := by rintro rfl; norm_num at hqn
    have hq0 : ¬ q = 0 := hqn.ne
    simp only [ctors, step, powCtor, beq, beq_iff_eq, h0, h1, hq1, if_false, isAcc, Bool.and_self, if_true,
      accumulatePower, accumulatePowerRat, hq0] at h
    have hnum : q.num < 0 := Rat.num_neg.2 hqn
    have hx : (0 : ℚ) < |r| := abs_pos.2 h0
    have hdr : ¬ |r|.den = 1 := by rw [abs_den]; exact hd
    cases hn : intPowTest O q.num |r| with
    | error e => rw [hn] at h; simp [Bind.bind, Except.bind] at h
    | ok num =>
      have hnone : num = none := by
        cases num with
        | none => rfl
        | some k =>
          simp only [intPowTest, hdr, if_false] at hn
          have := (hO.intPow _ _ _ hdr hx hn).1
          omega
      subst hnone
      rw [hn] at h
      cases hde : intPowTest O q.den |r| with
      | error e => rw [hde] at h; simp [Bind.bind, Except.bind] at h
      | ok den' =>
        rw [hde] at h
        simp only [Bind.bind, Except.bind, Pure.pure, Except.pure] at h
        have hn1 : ¬ q.num = 1 := by omega
        simp only [hn1, false_or] at h
        by_cases hb : q.den ≠ 1 ∧ r < 0
        · simp only [hb, ne_eq, not_false_eq_true, and_self, if_true] at h
          cases hp : (ctors O n).pow (rat (1 / q)) (rat (-r)) with
          | error e => rw [hp] at h; simp at h
          | ok t =>
            rw [hp] at h
            simp only [Except.ok.injEq] at h
            subst h
            have := ih (1 / q) (-r) s hp (by simpa using hd) (by simpa using hqn) (by simpa using hodd)
            rw [this]
            by_cases hod : Odd r.den
            · have hqr : (q : ℝ) < 0 := by exact_mod_cast hqn
              have e1 := pw_odd hqr (q := r) hod
              have e2 := pw_odd (b := ((1 / q : ℚ) : ℝ)) (by push_cast; simpa using hqr) (q := -r) (by simpa using hod)
              rw [e1, e2]
              have hne : ¬ Even r.num := Int.not_even_iff_odd.2 hodd
              have hne' : ¬ Even (-r).num := by simpa using hne
              rw [if_neg hne, if_neg hne']
              push_cast
              rw [one_div, abs_inv, Real.inv_rpow (abs_nonneg _), Real.rpow_neg (abs_nonneg _), inv_inv]
            · -- even denominator: the call cannot have returned a rational
              exfalso
              have hev : (-r).den % 2 = 0 := by
                have : (-r).den = r.den := by simp
                rw [this]; exact Nat.even_iff.1 (Nat.not_odd_iff_even.1 hod)
              cases n with
              | zero => simp [ctors] at hp
              | succ n =>
                have hq' : (1 / q : ℚ) < 0 := by simpa using hqn
                have g0 : ¬ (-r) = 0 := by simpa using h0
                have g1 : ¬ (-r) = 1 := by
                  intro h; apply hd; have : r = -1 := by linarith
                  rw [this]; rfl
                have g2 : ¬ (1 / q) = 1 := by intro h; rw [h] at hq'; norm_num at hq'
                have g3 : ¬ (1 / q) = 0 := hq'.ne
                have g4 : ¬ (1/q).num = 1 := by have := Rat.num_neg.2 hq'; omega
                have g5 : ¬ (-r < 0) := by linarith [hb.2]
                simp only [ctors, step, powCtor, beq, beq_iff_eq, g0, g1, g2, if_false, isAcc, Bool.and_self,
                  if_true, accumulatePower, accumulatePowerRat, g3] at hp
                cases hn2 : intPowTest O (1 / q).num |-r| with
                | error e => rw [hn2] at hp; simp [Bind.bind, Except.bind] at hp
                | ok num =>
                  have hnone : num = none := by
                    cases num with
                    | none => rfl
                    | some k =>
                      have hdr' : ¬ |-r|.den = 1 := by rw [abs_neg]; exact hdr
                      simp only [intPowTest, hdr', if_false] at hn2
                      have := (hO.intPow _ _ _ hdr' (by rw [abs_neg]; exact hx) hn2).1
                      have := Rat.num_neg.2 hq'
                      omega
                  subst hnone
                  rw [hn2] at hp
                  cases hd2 : intPowTest O (1 / q).den |-r| with
                  | error e => rw [hd2] at hp; simp [Bind.bind, Except.bind] at hp
                  | ok dd =>
                    rw [hd2] at hp
                    simp only [Bind.bind, Except.bind, Pure.pure, Except.pure, g4, g5, hev, hq', and_false,
                      or_false, if_false, and_self, if_true, Except.ok.injEq, reduceCtorEq] at hp
        · simp only [hb, if_false] at h
          by_cases hev : r.den % 2 = 0
          · simp [hev, hqn] at h
          · have hod : Odd r.den := Nat.odd_iff.2 (by omega)
            simp only [hev, false_and, if_false, hqn, if_true] at h
            cases hp : (ctors O n).pow (rat (-q)) (rat r) with
            | error e => rw [hp] at h; simp at h
            | ok t =>
              rw [hp] at h
              simp only at h
              cases hm : opMul (ctors O n) (rat (-1)) t with
              | error e => rw [hm] at h; simp at h
              | ok u =>
                rw [hm] at h
                simp only [Except.ok.injEq] at h
                subst h
                have hC := ctors_sound hO n
                have wt := hC.powW _ _ _ (by simp [WF]) (by simp [WF]) hp
                have vt := hC.pow (s := false) (fun _ => 0) (rat (-q)) (rat r) t (by simp [WF]) (by simp [WF])
                  ⟨by simp [Dom, DomS], by simp [Dom, DomS], .inl (by simpa [den] using hq0), (fun _ => by
                    simpa [RadOk, den] using hqn.le), by simp⟩ hp
                have := (opMul_V hC (by simp [WF]) wt (by simp [Dom, DomS]) vt.2 hm).1
                rw [vt.1] at this
                simp only [den] at this
                rw [this]
                have hqr : (q : ℝ) < 0 := by exact_mod_cast hqn
                rw [pw_odd hqr hod, if_neg (Int.not_even_iff_odd.2 hodd),
                  pw_of_nonneg (by push_cast; linarith), abs_of_neg hqr]
                push_cast; ring

section examples
set_option maxRecDepth 10000

/-- `Power(27/8, -2/3)` is the rational `4/9` in the model. -/
example : (ctors exactOracle 30).pow (rat (27 / 8)) (rat (-2 / 3)) = .ok (rat (4 / 9)) := by decide +kernel
/-- `Power(-8, 1/3)` is `-2`, and `rational_root_exact_partial` applies. -/
example : (ctors exactOracle 30).pow (rat (-8)) (rat (1 / 3)) = .ok (rat (-2)) := by decide +kernel
example : ((-2 : ℚ) : ℝ) = pw ((-8 : ℚ) : ℝ) ((1 / 3 : ℚ) : ℝ) :=
  rational_root_exact_partial exactOracle_exact 30 (-8) (1 / 3) (-2) (.inr (.inr (by decide +kernel))) (by decide +kernel)

/-- `Prod([1/2, -3, 1/2, 4])` -/
example : (ctors exactOracle 3).prod ([1 / 2, -3, 1 / 2, 4].map rat) = .ok (rat (-3)) := by
  rw [rational_prod_exact]; norm_num

/-- `Power(-8, 2/3)` returns `-4`, but `(-8)**(2/3)` is `4`. -/
theorem rational_root_even_fails : ∃ (q r s : ℚ), (ctors exactOracle 30).pow (rat q) (rat r) = .ok (rat s) ∧
    Odd r.den ∧ (s : ℝ) ≠ pw q r := by
  refine ⟨-8, 2 / 3, -4, by decide +kernel, by decide +kernel, ?_⟩
  rw [pw_odd (by norm_num) (by decide +kernel), if_pos (by decide +kernel)]
  have : (0 : ℝ) < |((-8 : ℚ) : ℝ)| ^ (((2 / 3 : ℚ)) : ℝ) := by positivity
  intro h
  rw [← h] at this
  norm_num at this

end examples
end Simpy
