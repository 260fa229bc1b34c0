import Verif.Proofs.Algebraic
import Verif.Proofs.TableSound
import Verif.Spec.Definite
import Verif.Proofs.ExactOracle
import Verif.Proofs.Check
import Mathlib.MeasureTheory.Integral.IntervalIntegral.FundThmCalculus

/-!
# C37: definite integrals

`boundsValue O n v a b F` is the last line of `integrate_bounds(expr, (v, a, b))`, `F` being the antiderivative found
(`Model/Definite.lean`).
-/

namespace Simpy
open Expr

variable {O : Oracle}

theorem subsEnv_single (ρ : Str → ℝ) (v : Str) (a : Expr) : subsEnv (single v a) ρ = Function.update ρ v (den ρ a) := by
  funext s
  unfold subsEnv single
  by_cases h : s = v
  · subst h; simp
  · simp [h, den, Function.update_of_ne h]

theorem boundsValue_V (hO : O.Exact) {n : Nat} {ρ : Str → ℝ} {v : Str} {a b F r : Expr} (wF : WF F) (wa : WF a) (wb : WF b)
    (da : Dom ρ a) (db : Dom ρ b) (dFa : Dom (Function.update ρ v (den ρ a)) F) (dFb : Dom (Function.update ρ v (den ρ b)) F)
    (ha : SubsOk O ρ (single v a) n F) (hb : SubsOk O ρ (single v b) n F)
    (hs : ∀ fb fa d, subsE O n (single v b) F = .ok fb → subsE O n (single v a) F = .ok fa → opSub (ctors O n) fb fa = .ok d →
      SimplifyOk O false ρ n d)
    (h : boundsValue O n v a b F = .ok r) : den ρ r = fnOf ρ v F (den ρ b) - fnOf ρ v F (den ρ a) ∧ Dom ρ r := by
  unfold boundsValue at h
  obtain ⟨fb, h1, h⟩ := bind_ok.1 h
  obtain ⟨fa, h2, h⟩ := bind_ok.1 h
  obtain ⟨d, h3, h⟩ := bind_ok.1 h
  have one : ∀ {c f : Expr}, WF c → Dom ρ c → Dom (Function.update ρ v (den ρ c)) F → SubsOk O ρ (single v c) n F →
      subsE O n (single v c) F = .ok f → Val false ρ f (fnOf ρ v F (den ρ c)) := by
    intro c f wc dc dF hok hf
    have := subs_sound (st := false) hO (σ := single v c) (ρ := ρ) (fun s u hu => ?_) n wF (fun s _ u hu => ?_) (by rw [subsEnv_single]; exact dF) hok hf
    · rw [subsEnv_single] at this; exact this
    · unfold single at hu; split at hu <;> simp at hu; subst hu; exact wc
    · unfold single at hu; split at hu <;> simp at hu; subst hu; exact dc
  have vb := one wb db dFb hb h1
  have va := one wa da dFa ha h2
  have vd := Val.sub (ctors_sound hO n) vb va h3
  have vr := simplify_V hO vd.1 vd.2.1 (hs fb fa d h1 h2 h3) h
  exact ⟨by rw [vr.2.2, vd.2.2], vr.2.1⟩

/-- **C37** for antiderivatives and bounds built from numbers, symbols, `+`, `*`, integer powers and `|·|`: the result of
`integrate_bounds` is the value of the antiderivative at the upper bound minus its value at the lower bound, whenever both are
defined. The bounds may contain symbols, even the variable itself. -/
theorem definite_value (hO : O.Exact) (n : Nat) {ρ : Str → ℝ} {v : Str} {a b F r : Expr} (hF : Built O F) (ha : Built O a)
    (hb : Built O b) (pF : Alg F) (pa : Alg a) (pb : Alg b) (da : DomR ρ a) (db : DomR ρ b)
    (dFa : DomR (Function.update ρ v (den ρ a)) F) (dFb : DomR (Function.update ρ v (den ρ b)) F)
    (h : boundsValue O n v a b F = .ok r) : den ρ r = fnOf ρ v F (den ρ b) - fnOf ρ v F (den ρ a) ∧ Dom ρ r := by
  have one : ∀ {c : Expr}, Alg c → ∀ s u, single v c s = some u → Alg u := by
    intro c hc s u hu
    unfold single at hu; split at hu <;> simp at hu; subst hu; exact hc
  have dom : ∀ {σ : Str → ℝ} {e : Expr}, Built O e → Alg e → DomR σ e → Dom σ e := fun he hp hd =>
    (Dom_iff_DomR (he.wf hO) hp.2.1).2 hd
  refine boundsValue_V hO (hF.wf hO) (ha.wf hO) (hb.wf hO) (dom ha pa da) (dom hb pb db) (dom hF pF dFa) (dom hF pF dFb)
    (pF.subsOk n) (pF.subsOk n) (fun fb fa d h1 h2 h3 => ?_) h
  exact (opSub_alg (subs_alg (one pb) n pF h1) (subs_alg (one pa) n pF h2) h3).simplifyOk n

/-- **C37** for all antiderivatives and bounds, under the conditions of `subs` and `simplify` on the run. Missing: the runs on which
those are wrong. -/
theorem definite_value_partial (hO : O.Exact) (n : Nat) {ρ : Str → ℝ} {v : Str} {a b F r : Expr} (hF : Built O F)
    (ha : Built O a) (hb : Built O b) (da : Dom ρ a) (db : Dom ρ b) (dFa : Dom (Function.update ρ v (den ρ a)) F)
    (dFb : Dom (Function.update ρ v (den ρ b)) F) (sa : SubsOk O ρ (single v a) n F) (sb : SubsOk O ρ (single v b) n F)
    (hs : ∀ fb fa d, subsE O n (single v b) F = .ok fb → subsE O n (single v a) F = .ok fa → opSub (ctors O n) fb fa = .ok d →
      SimplifyOk O false ρ n d)
    (h : boundsValue O n v a b F = .ok r) : den ρ r = fnOf ρ v F (den ρ b) - fnOf ρ v F (den ρ a) ∧ Dom ρ r :=
  boundsValue_V hO (hF.wf hO) (ha.wf hO) (hb.wf hO) da db dFa dFb sa sb hs h

/-- The fundamental theorem of calculus for expressions. -/
theorem antiOn_integral {ρ : Str → ℝ} {v : Str} {a b : ℝ} {F f : Expr} (h : AntiOn ρ v a b F f) :
    ∫ t in a..b, fnOf ρ v f t = fnOf ρ v F b - fnOf ρ v F a := by
  refine intervalIntegral.integral_eq_sub_of_hasDerivAt (fun t ht => ?_) (ContinuousOn.intervalIntegrable fun t ht => ?_)
  · have := (h t ht).1
    unfold AntiAt at this
    have e : fnOf (Function.update ρ v t) v F = fnOf ρ v F := by
      funext s; simp [fnOf]
    rw [e, Function.update_self] at this
    exact this
  · have := (openAt (v := v) f (h t ht).2).1
    unfold ContAt at this
    rw [Function.update_self] at this
    refine ContinuousAt.continuousWithinAt ?_
    have e : (fun s => den (upd (Function.update ρ v t) v s) f) = fnOf ρ v f := by
      funext s; simp [fnOf, upd]
    rw [e] at this
    exact this

/-- **C37** If the antiderivative found is one on the whole interval, and is built from numbers, symbols, `+`, `*`, integer
powers and `|·|`, then `integrate_bounds` returns the definite (Lebesgue, hence Riemann) integral. -/
theorem definite_integral (hO : O.Exact) (n : Nat) {ρ : Str → ℝ} {v : Str} {a b f F r : Expr} (hF : Built O F) (ha : Built O a)
    (hb : Built O b) (pF : Alg F) (pa : Alg a) (pb : Alg b) (da : DomR ρ a) (db : DomR ρ b)
    (dFa : DomR (Function.update ρ v (den ρ a)) F) (dFb : DomR (Function.update ρ v (den ρ b)) F)
    (hA : AntiOn ρ v (den ρ a) (den ρ b) F f) (h : boundsValue O n v a b F = .ok r) :
    den ρ r = ∫ t in (den ρ a)..(den ρ b), fnOf ρ v f t := by
  rw [antiOn_integral hA]
  exact (definite_value hO n hF ha hb pF pa pb da db dFa dFb h).1

/-- **C37** in general, under the conditions of `definite_value_partial`. -/
theorem definite_integral_partial (hO : O.Exact) (n : Nat) {ρ : Str → ℝ} {v : Str} {a b f F r : Expr} (hF : Built O F)
    (ha : Built O a) (hb : Built O b) (da : Dom ρ a) (db : Dom ρ b) (dFa : Dom (Function.update ρ v (den ρ a)) F)
    (dFb : Dom (Function.update ρ v (den ρ b)) F) (sa : SubsOk O ρ (single v a) n F) (sb : SubsOk O ρ (single v b) n F)
    (hs : ∀ fb fa d, subsE O n (single v b) F = .ok fb → subsE O n (single v a) F = .ok fa → opSub (ctors O n) fb fa = .ok d →
      SimplifyOk O false ρ n d)
    (hA : AntiOn ρ v (den ρ a) (den ρ b) F f) (h : boundsValue O n v a b F = .ok r) :
    den ρ r = ∫ t in (den ρ a)..(den ρ b), fnOf ρ v f t := by
  rw [antiOn_integral hA]
  exact (definite_value_partial hO n hF ha hb da db dFa dFb sa sb hs h).1

/-- **C37** an integrand that the table answers, e.g. a power of the variable: no antiderivative is assumed, only that the integrand
is regular on the interval. -/
theorem definite_table (hO : O.Exact) (n m : Nat) {ρ : Str → ℝ} {v : Str} {a b f F r : Expr} (hf : Built O f) (hF : Built O F)
    (ha : Built O a) (hb : Built O b) (pF : Alg F) (pa : Alg a) (pb : Alg b) (da : DomR ρ a) (db : DomR ρ b)
    (hr : ∀ t ∈ Set.uIcc (den ρ a) (den ρ b), Regular (Function.update ρ v t) f ∧ TableOk (Function.update ρ v t) v f)
    (hT : checkTable O m v f = .ok (some F)) (h : integrateBounds O n v a b (.ok (some F)) = .ok (some r)) :
    den ρ r = ∫ t in (den ρ a)..(den ρ b), fnOf ρ v f t := by
  have hT' := fun t ht => table_sound (n := m) hO (hf.wf hO) (hr t ht).1 (hr t ht).2 hT
  have hd : ∀ t ∈ Set.uIcc (den ρ a) (den ρ b), DomR (Function.update ρ v t) F := fun t ht =>
    (Dom_iff_DomR (hF.wf hO) pF.2.1).1 (hT' t ht).2.1.dom
  have h' : boundsValue O n v a b F = .ok r := by
    unfold integrateBounds at h
    obtain ⟨o, h0, h⟩ := bind_ok.1 h
    cases h0
    obtain ⟨u, hu, h⟩ := bind_ok.1 h
    cases pure_ok.1 h
    exact hu
  exact definite_integral hO n hF ha hb pF pa pb da db (hd _ Set.left_mem_uIcc) (hd _ Set.right_mem_uIcc)
    (fun t ht => ⟨(hT' t ht).1, (hr t ht).1⟩) h'

/-- No antiderivative, no definite integral. -/
theorem definite_none (n : Nat) (v : Str) (a b : Expr) : integrateBounds O n v a b (.ok none) = .ok none := rfl

section
set_option maxRecDepth 10000
private abbrev x : Expr := sym ['x']
private abbrev y : Expr := sym ['y']
private abbrev z : Expr := sym ['z']
private abbrev cube : Expr := prod [rat (1 / 3), pow x (rat 3)]

/-- `definite_table` applies to the integral of `x^2` from `1` to `y + 1`. -/
example (ρ : Str → ℝ) : Built exactOracle (pow x (rat 2)) ∧ checkTable exactOracle 30 ['x'] (pow x (rat 2)) = .ok (some cube) ∧
    Built exactOracle cube ∧ Built exactOracle (sum [y, rat 1]) ∧
    (∀ t, Regular (Function.update ρ ['x'] t) (pow x (rat 2)) ∧ TableOk (Function.update ρ ['x'] t) ['x'] (pow x (rat 2))) ∧
    integrateBounds exactOracle 30 ['x'] (rat 1) (sum [y, rat 1]) (.ok (some cube)) = .ok (some
      (sum [prod [rat (1/3), pow (sum [y, rat 1]) (rat 3)], rat (-1/3)])) := by
  refine ⟨built_of_self (by decide +kernel), by decide +kernel, built_of_self (by decide +kernel), built_of_self (by decide +kernel),
    fun t => ⟨?_, ?_⟩, by decide +kernel⟩
  · simp [x, Regular, DomS, den, intExp]
  · refine ⟨fun q hq _ => ?_, fun b hb => ?_, fun hs => ?_⟩
    · cases hq; simp [den]; norm_num
    · cases hb
    · cases hs

private abbrev pole : Expr := prod [rat (-1), pow x (rat (-1))]

/-- Without the assumption on the interval, the result is not the integral: for `x^-2` from `-1` to `1` the table's antiderivative is
`-1/x`, and `integrate_bounds` returns `-2`, although the integrand is positive. -/
theorem definite_ignores_poles : ∃ f F r, checkTable exactOracle 30 ['x'] f = .ok (some F) ∧
    integrateBounds exactOracle 30 ['x'] (rat (-1)) (rat 1) (.ok (some F)) = .ok (some r) ∧ (∀ ρ, den ρ r = -2) ∧
    (∀ ρ t, 0 ≤ fnOf ρ ['x'] f t) := by
  refine ⟨pow x (rat (-2)), pole, rat (-2), by decide +kernel, by decide +kernel, fun ρ => by simp [den], fun ρ t => ?_⟩
  have e : fnOf ρ ['x'] (pow x (rat (-2))) t = t ^ (-2 : ℤ) := by
    simp only [fnOf, den, Function.update_self]
    rw [← pw_int]
    norm_num
  rw [e]
  exact (even_two.neg).zpow_nonneg t

private abbrev negCos : Expr := prod [rat (-1), trig .cos x]

private theorem subsOk_cos {c : Expr} {ρ : Str → ℝ} (hc : c = rat 0 ∨ c = pi) : SubsOk exactOracle ρ (single ['x'] c) 30 negCos := by
  have one : ∀ {s : Str} {v : Expr}, single ['x'] c s = some v → v = c := by
    intro s v hv
    unfold single at hv
    split at hv <;> simp at hv
    exact hv.symm
  refine subsOk_of_tame exactOracle_exact (fun s v hv => ?_) (fun s v hv => ?_) 30
    (Built.wf exactOracle_exact (built_of_self (by decide +kernel))) (fun s _ v hv => ?_) ?_ ?_ (by decide +kernel)
  · rw [one hv]; rcases hc with rfl | rfl <;> simp [WF]
  · rw [one hv]; rcases hc with rfl | rfl <;> decide +kernel
  · rw [one hv]; rcases hc with rfl | rfl <;> simp [Dom, DomS]
  · simp [negCos, Dom, DomS, DomSL, TrigFn.ok]
  · rcases hc with rfl | rfl <;> decide +kernel

/-- `definite_integral_partial` applies to the integral of `sin(x)` from `0` to `π`, which is `2`. -/
example (ρ : Str → ℝ) : (2 : ℝ) = ∫ t in (0 : ℝ)..Real.pi, Real.sin t := by
  have hb : Built exactOracle negCos := built_of_self (by decide +kernel)
  have hf : checkTable exactOracle 30 ['x'] (trig .sin x) = .ok (some negCos) := by decide +kernel
  have key := definite_integral_partial exactOracle_exact 30 (ρ := ρ) (v := ['x']) (a := rat 0) (b := pi) (f := trig .sin x)
    (F := negCos) (r := rat 2) hb (built_of_self (by decide +kernel)) (built_of_self (by decide +kernel)) (by simp) (by simp [Dom, DomS])
    (by simp [negCos, Dom, DomS, DomSL, TrigFn.ok]) (by simp [negCos, Dom, DomS, DomSL, TrigFn.ok])
    (subsOk_cos (.inl rfl)) (subsOk_cos (.inr rfl)) ?_ ?_ (by decide +kernel)
  · simpa [fnOf, den, TrigFn.real] using key
  · intro fb fa d h1 h2 h3
    have e1 : subsE exactOracle 30 (single ['x'] pi) negCos = .ok (rat 1) := by decide +kernel
    have e2 : subsE exactOracle 30 (single ['x'] (rat 0)) negCos = .ok (rat (-1)) := by decide +kernel
    rw [e1] at h1; rw [e2] at h2
    cases h1; cases h2
    have e3 : opSub (ctors exactOracle 30) (rat 1) (rat (-1)) = .ok (rat 2) := by decide +kernel
    rw [e3] at h3; cases h3
    exact (Alg.rat 2).simplifyOk 30
  · intro t _
    have hr : Regular (Function.update ρ ['x'] t) (trig .sin x) := by simp [Regular, DomS, TrigFn.ok, TrigFn.inner]
    refine ⟨(table_sound (n := 30) exactOracle_exact (Built.wf exactOracle_exact (built_of_self (by decide +kernel))) hr
      ⟨fun q hq => ?_, fun b hb => ?_, fun hs => ?_⟩ hf).1, hr⟩ <;> simp_all
/-- The property fails for `sqrt(x)` from `0` to `y*z` at `y = z = -1`: the antiderivative `2/3 x^(3/2)` is defined at both bounds, but what is
returned is `2/3 y^(3/2) z^(3/2)`, which is not. -/
theorem definite_value_fails : ∃ (F a b r : Expr) (ρ : Str → ℝ), Built exactOracle F ∧ Built exactOracle b ∧
    checkTable exactOracle 30 ['x'] (pow x (rat (1 / 2))) = .ok (some F) ∧ Dom ρ a ∧ Dom ρ b ∧
    Dom (Function.update ρ ['x'] (den ρ a)) F ∧ Dom (Function.update ρ ['x'] (den ρ b)) F ∧
    boundsValue exactOracle 30 ['x'] a b F = .ok r ∧ ¬ DomF ρ r := by
  refine ⟨prod [rat (2 / 3), pow x (rat (3 / 2))], rat 0, prod [y, z],
    prod [rat (2 / 3), pow y (rat (3 / 2)), pow z (rat (3 / 2))], fun _ => -1, built_of_self (by decide +kernel),
    built_of_self (by decide +kernel), by decide +kernel, ?_, ?_, ?_, ?_, by decide +kernel, ?_⟩
  · simp
  · simp [Dom, DomS, DomSL]
  · simp [x, Dom, DomS, DomSL, den, HN, intExp]
    norm_num
  · simp [x, y, z, Dom, DomS, DomSL, den, denP, HN, intExp]
  · simp only [DomF, DomFL, den, not_and, and_true]
    intro _ h
    rcases h.2.2.2 with h | ⟨q, hq, ho⟩
    · norm_num at h
    · have : q = 3 / 2 := by exact_mod_cast hq
      subst this
      exact absurd ho (by decide +kernel)

end

end Simpy
