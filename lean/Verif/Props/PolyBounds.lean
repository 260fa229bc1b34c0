import Verif.Props.AddUp
import Verif.Props.Polynomial
import Verif.Proofs.ClearPoly

/-!
# C100: polynomials between arbitrary bounds

The bounds may be any expressions built from numbers, symbols, `+`, `*`, integer powers and `|·|`, also with symbols in them.
-/

namespace Simpy
open Expr

variable {O : Oracle} {n k : Nat} {ν : Supply} {bf : Bool} {v t : Str} {e F a b r : Expr} {ρ : Str → ℝ}

theorem wf_alg_poly (h : IsPolynomial v e) : WF e ∧ Alg e := by
  have unit : ∀ {u}, VarPower v u → WF u ∧ Alg u := by
    intro u h
    cases h <;> simp [WF, Alg, baseOk, intPows, intExp, containsCls, isLog, isInvTrig, isFwdTrig]
  have mono : ∀ {t}, Monomial v t → WF t ∧ Alg t := by
    intro t h
    cases h with
    | const c => simp [WF, Alg, intPows, containsCls, isLog, isInvTrig, isFwdTrig]
    | unit h => exact unit h
    | scaled c h =>
      have := unit h
      cases h <;> simp_all [List.filter, WF, WFL, Alg, isAcc, intPows, intPowsL, containsCls, containsClsL, isLog, isInvTrig, isFwdTrig]
  rcases h with h | ⟨ts, rfl, hne, h⟩
  · exact mono h
  · have key : ∀ ts : List Expr, (∀ t ∈ ts, WF t ∧ Alg t) → WFL ts ∧ intPowsL ts = true ∧ containsClsL isLog ts = false ∧
        containsClsL isInvTrig ts = false ∧ containsClsL isFwdTrig ts = false := by
      intro ts
      induction ts with
      | nil => intro _; simp [WFL, intPowsL, containsClsL]
      | cons t r ih =>
        intro h
        obtain ⟨h1, h2, h3, h4, h5⟩ := ih fun x hx => h x (by simp [hx])
        obtain ⟨w, p1, p2, p3, p4⟩ := h t (by simp)
        exact ⟨⟨w, h1⟩, by simp [intPowsL, p1, h2], by simp [containsClsL, p2, h3], by simp [containsClsL, p3, h4], by simp [containsClsL, p4, h5]⟩
    obtain ⟨h1, h2, h3, h4, h5⟩ := key ts fun t ht => mono (h t ht)
    exact ⟨h1, by simp [Alg, intPows, containsCls, isLog, isInvTrig, isFwdTrig, h2, h3, h4, h5]⟩

/-- **C100** The integral of a polynomial between two expressions: the answer has the value of the integral. -/
theorem polynomial_between (hO : O.Exact) (h : IsPolynomial v e) (ha : Built O a) (hb : Built O b) (pa : Alg a) (pb : Alg b)
    (da : DomR ρ a) (db : DomR ρ b) (hr : integrateTop O (n + 8) ν bf k e (.full v a b) = .ok (some r)) :
    den ρ r = ∫ x in (den ρ a)..(den ρ b), fnOf ρ v e x := by
  obtain ⟨F, hF, hp, hd⟩ := polynomials_are_integrated hO n k ν bf false h
  obtain ⟨wF, pF⟩ := wf_alg_poly hp
  simp only [integrateTop, integrateBounds, hF] at hr
  obtain ⟨u, hu, hr⟩ := bind_ok.1 hr
  cases hu
  obtain ⟨u, hu, hr⟩ := bind_ok.1 hr
  cases pure_ok.1 hr
  have one : ∀ {c : Expr}, Alg c → ∀ s u, single v c s = some u → Alg u := by
    intro c hc s u hu
    unfold single at hu; split at hu <;> simp at hu; subst hu; exact hc
  have dom : ∀ {e : Expr}, Built O e → Alg e → DomR ρ e → Dom ρ e := fun he hp hd => (Dom_iff_DomR (he.wf hO) hp.2.1).2 hd
  have := (boundsValue_V hO wF (ha.wf hO) (hb.wf hO) (dom ha pa da) (dom hb pb db) (dom_poly hp) (dom_poly hp) (pF.subsOk _) (pF.subsOk _)
    (fun fb fa d h1 h2 h3 => (opSub_alg (subs_alg (one pb) _ pF h1) (subs_alg (one pa) _ pF h2) h3).simplifyOk _) hu).1
  rw [this, intervalIntegral.integral_eq_sub_of_hasDerivAt (f := fnOf ρ v F) (fun x _ => ?_) ((continuous_poly h ρ).intervalIntegrable _ _)]
  have := hd (Function.update ρ v x)
  have e1 : fnOf (Function.update ρ v x) v F = fnOf ρ v F := by funext s; simp [fnOf]
  rw [e1] at this
  simpa [fnOf] using this

theorem fn_poly_update (h : IsPolynomial v e) (hv : t ≠ v) (s : ℝ) : fnOf (Function.update ρ t s) v e = fnOf ρ v e := by
  funext x
  refine den_congr e fun y hy => ?_
  rw [syms_of_poly h y hy]
  simp

/-- **C100** The derivative of the integral of a polynomial by its upper bound is the polynomial, at every point. -/
theorem polynomial_bound_moved (hO : O.Exact) (h : IsPolynomial v e) (ha : Built O a) (pa : Alg a) (da : DomR ρ a) (hv : t ≠ v) (hta : t ∉ syms a)
    (hr : integrateTop O (n + 8) ν bf k e (.full v a (sym t)) = .ok (some r)) (z : ℝ) : HasDerivAt (fnOf ρ t r) (fnOf ρ v e z) z := by
  have hval : fnOf ρ t r = fun s => ∫ x in (den ρ a)..s, fnOf ρ v e x := by
    funext s
    have hne : ∀ x ∈ syms a, ρ x = Function.update ρ t s x := fun x hx => by
      rw [Function.update_of_ne]; rintro rfl; exact hta hx
    have := polynomial_between (ρ := Function.update ρ t s) hO h ha (Built.sym t) pa ⟨rfl, rfl, rfl, rfl⟩ (DomR_congr a hne da) (by simp [DomR]) hr
    rw [fn_poly_update h hv, ← den_congr a hne] at this
    simpa [fnOf, den] using this
  rw [hval]
  have hc := continuous_poly h ρ
  exact intervalIntegral.integral_hasDerivAt_right (hc.intervalIntegrable _ _) hc.aestronglyMeasurable.stronglyMeasurableAtFilter hc.continuousAt

/-- **C100** The integral of a sum of polynomials is the sum of the integrals, whatever form the constructor gives the sum. -/
theorem polynomial_between_add (hO : O.Exact) {f g S p q : Expr} {m : Nat} (hf : IsPolynomial v f) (hg : IsPolynomial v g)
    (hS : opAdd (ctors O (m + 6)) f g = .ok S) (ha : Built O a) (hb : Built O b) (pa : Alg a) (pb : Alg b) (da : DomR ρ a) (db : DomR ρ b)
    (h1 : integrateTop O (n + 8) ν bf k f (.full v a b) = .ok (some p)) (h2 : integrateTop O (n + 8) ν bf k g (.full v a b) = .ok (some q))
    (h3 : integrateTop O (n + 8) ν bf k S (.full v a b) = .ok (some r)) : den ρ r = den ρ p + den ρ q := by
  obtain ⟨S', e1, hp, hv⟩ := polynomials_are_added hO m hf hg
  rw [hS] at e1
  cases e1
  rw [polynomial_between hO hp ha hb pa pb da db h3, polynomial_between hO hf ha hb pa pb da db h1, polynomial_between hO hg ha hb pa pb da db h2,
    ← intervalIntegral.integral_add ((continuous_poly hf ρ).intervalIntegrable _ _) ((continuous_poly hg ρ).intervalIntegrable _ _)]
  congr 1
  funext t
  exact hv _

/-- **C100** A polynomial that is nowhere greater on the interval has no greater integral. -/
theorem polynomial_between_mono (hO : O.Exact) {f g p q : Expr} (hf : IsPolynomial v f) (hg : IsPolynomial v g)
    (ha : Built O a) (hb : Built O b) (pa : Alg a) (pb : Alg b) (da : DomR ρ a) (db : DomR ρ b) (hab : den ρ a ≤ den ρ b)
    (hle : ∀ x ∈ Set.Icc (den ρ a) (den ρ b), fnOf ρ v f x ≤ fnOf ρ v g x)
    (h1 : integrateTop O (n + 8) ν bf k f (.full v a b) = .ok (some p)) (h2 : integrateTop O (n + 8) ν bf k g (.full v a b) = .ok (some q)) :
    den ρ p ≤ den ρ q := by
  rw [polynomial_between hO hf ha hb pa pb da db h1, polynomial_between hO hg ha hb pa pb da db h2]
  exact intervalIntegral.integral_mono_on hab ((continuous_poly hf ρ).intervalIntegrable _ _) ((continuous_poly hg ρ).intervalIntegrable _ _) hle

section
set_option maxRecDepth 10000
private abbrev x : Expr := sym ['x']
private abbrev y : Expr := sym ['y']
private abbrev quad : Expr := sum [rat 2, pow x (rat 2)]

/-- The integral of `x**2 + 2` from `1/y` to `y`. -/
example (ρ : Str → ℝ) (hy : ρ ['y'] ≠ 0) : ∃ r, integrateTop exactOracle 25 (fun _ => ['u']) false 3 quad (.full ['x'] (pow y (rat (-1))) y) = .ok (some r) ∧
    den ρ r = ∫ t in (ρ ['y'])⁻¹..(ρ ['y']), fnOf ρ ['x'] quad t := by
  obtain ⟨r, hr⟩ : ∃ r, integrateTop exactOracle 25 (fun _ => ['u']) false 3 quad (.full ['x'] (pow y (rat (-1))) y) = .ok (some r) :=
    ⟨sum [prod [rat (1 / 3), pow y (rat 3)], prod [rat (-2), pow y (rat (-1))], prod [rat (-1 / 3), pow y (rat (-3))], prod [rat 2, y]], by decide +kernel⟩
  refine ⟨r, hr, ?_⟩
  have hp : IsPolynomial ['x'] quad := .inr ⟨_, rfl, by simp, by
    intro t ht
    rcases List.mem_cons.1 ht with rfl | ht
    · exact .const 2
    · rw [List.mem_singleton.1 ht]; exact .unit (.power 2 (by norm_num))⟩
  have := polynomial_between (n := 17) (ρ := ρ) exactOracle_exact hp (built_of_self (by decide +kernel)) (built_of_self (by decide +kernel))
    ⟨by decide +kernel, by decide +kernel, by decide +kernel, by decide +kernel⟩ ⟨by decide +kernel, by decide +kernel, by decide +kernel, by decide +kernel⟩
    (by simp [DomR, den, intExp, hy]) (by simp [DomR]) hr
  rw [this]
  congr 1
  have := pw_int (ρ ['y']) (-1)
  simp only [den]
  rw [zpow_neg_one] at this
  exact_mod_cast this

/-- `x + x**2` from 0 to `y`, and `x**2 <= x` from 0 to 1: the hypotheses of the last two theorems hold. -/
example (ρ : Str → ℝ) : ∃ S p q r p' q', opAdd (ctors exactOracle 25) x (pow x (rat 2)) = .ok S ∧
    integrateTop exactOracle 25 (fun _ => ['u']) false 3 x (.full ['x'] (rat 0) y) = .ok (some p) ∧
    integrateTop exactOracle 25 (fun _ => ['u']) false 3 (pow x (rat 2)) (.full ['x'] (rat 0) y) = .ok (some q) ∧
    integrateTop exactOracle 25 (fun _ => ['u']) false 3 S (.full ['x'] (rat 0) y) = .ok (some r) ∧ den ρ r = den ρ p + den ρ q ∧
    integrateTop exactOracle 25 (fun _ => ['u']) false 3 (pow x (rat 2)) (.full ['x'] (rat 0) (rat 1)) = .ok (some p') ∧
    integrateTop exactOracle 25 (fun _ => ['u']) false 3 x (.full ['x'] (rat 0) (rat 1)) = .ok (some q') ∧ den ρ p' ≤ den ρ q' := by
  have hx : IsPolynomial ['x'] x := .inl (.unit .var)
  have h2 : IsPolynomial ['x'] (pow x (rat 2)) := .inl (.unit (.power 2 (by norm_num)))
  have e1 : opAdd (ctors exactOracle 25) x (pow x (rat 2)) = .ok (sum [pow x (rat 2), x]) := by decide +kernel
  have r1 : integrateTop exactOracle 25 (fun _ => ['u']) false 3 x (.full ['x'] (rat 0) y) = .ok (some (prod [rat (1 / 2), pow y (rat 2)])) := by
    decide +kernel
  have r2 : integrateTop exactOracle 25 (fun _ => ['u']) false 3 (pow x (rat 2)) (.full ['x'] (rat 0) y) =
      .ok (some (prod [rat (1 / 3), pow y (rat 3)])) := by decide +kernel
  have r3 : integrateTop exactOracle 25 (fun _ => ['u']) false 3 (sum [pow x (rat 2), x]) (.full ['x'] (rat 0) y) =
      .ok (some (sum [prod [rat (1 / 3), pow y (rat 3)], prod [rat (1 / 2), pow y (rat 2)]])) := by decide +kernel
  have r4 : integrateTop exactOracle 25 (fun _ => ['u']) false 3 (pow x (rat 2)) (.full ['x'] (rat 0) (rat 1)) = .ok (some (rat (1 / 3))) := by
    decide +kernel
  have r5 : integrateTop exactOracle 25 (fun _ => ['u']) false 3 x (.full ['x'] (rat 0) (rat 1)) = .ok (some (rat (1 / 2))) := by decide +kernel
  refine ⟨_, _, _, _, _, _, e1, r1, r2, r3, ?_, r4, r5, ?_⟩
  · exact polynomial_between_add (n := 17) (m := 19) exactOracle_exact hx h2 e1 (Built.rat 0) (Built.sym _) ⟨rfl, rfl, rfl, rfl⟩ ⟨rfl, rfl, rfl, rfl⟩
      (by simp [DomR]) (by simp [DomR]) r1 r2 r3
  · refine polynomial_between_mono (n := 17) exactOracle_exact h2 hx (Built.rat 0) (Built.rat 1) ⟨rfl, rfl, rfl, rfl⟩ ⟨rfl, rfl, rfl, rfl⟩
      (by simp [DomR]) (by simp [DomR]) (by simp [den]) (fun t ht => ?_) r4 r5
    simp only [den, Rat.cast_zero, Rat.cast_one] at ht
    have hp := pw_int t 2
    simp only [fnOf, den, Function.update_self]
    have : pw t ((2 : ℚ) : ℚ) = t ^ 2 := by exact_mod_cast hp
    push_cast at this ⊢
    rw [this]
    nlinarith [ht.1, ht.2]
end

end Simpy
