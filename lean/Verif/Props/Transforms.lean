import Verif.Proofs.PartsSound
import Verif.Proofs.BackCheck
import Verif.Proofs.ExactOracle
import Verif.Proofs.Check
import Verif.Props.Expand
import Verif.Props.Integral

/-!
# C36: each integration transform is right

For each transform: if `forward` makes the child integrand `g` out of the integrand `e` and `S` is an antiderivative of `g`
(`Solves`: with the right derivative at the point considered, in terms of the symbols in scope), then the solution `r` that
`backward` computes from `S` is an antiderivative of `e` at the point. For a u-substitution `u = q` at the point `ρ`, the child's
problem is posed at the point where `u` has the value of `q` (`posedAfter`). The statements hold for every point `ρ` at which the
integrand is regular, every integrand in the symbols `A` and every fuel.
-/

namespace Simpy
open Expr Node

variable {O : Oracle} {n m : Nat} {ρ : Str → ℝ} {v u : Str} {A : Str → Prop} {e g q S r : Expr}

/-- **C36** PullConstant. -/
theorem pull_constant_sound (hO : O.Exact) {c : Expr} (he : Integrand ρ A e) (h : pullConstant O n v e = .ok (some (c, g)))
    (hS : (posed ρ v A g).Solves S) (hb : backStep O m (.pullConstant c) v S = .ok r) : (posed ρ v A e).Solves r :=
  reduces_back hO m (i := 0) (k := 1) (pullConstant_ok hO he h 0 1).1 (by simp) hS (by simp [usubOf]) hb

/-- **C36** Additivity: the children's integrands are the terms `ts`, their solutions are `Ss`, and the solution is `Sum(Ss)`. -/
theorem additivity_sound (hO : O.Exact) {ts Ss : List Expr} (he : Integrand ρ A (sum ts))
    (hS : List.Forall₂ (fun t S => (posed ρ v A t).Solves S) ts Ss) (hb : (ctors O m).sum Ss = .ok r) :
    (posed ρ v A (sum ts)).Solves r := by
  refine reduces_back_add hO m (additivity_ok he 0).1 hS.length_eq.symm (fun j S hj => ?_) hb
  obtain ⟨hl, hj⟩ := List.getElem?_eq_some_iff.1 hj
  have h2 : j < ts.length := by rw [hS.length_eq]; exact hl
  have := hS.get h2 hl
  simp only [List.get_eq_getElem] at this
  rw [hj] at this
  simpa [List.getD_eq_getElem?_getD, h2] using this

/-- **C36** Expand, where expanding keeps to principal branches (`ExpandOk`, of which `Easy` expressions are free). -/
theorem expand_transform_sound_partial (hO : O.Exact) (he : Integrand ρ A e) (ok : ExpandOk O ρ n e)
    (h : expandT O n e = .ok (some g)) (hS : (posed ρ v A g).Solves S) (hb : backStep O m .expand v S = .ok r) :
    (posed ρ v A e).Solves r :=
  reduces_back hO m (i := 0) (k := 1) (expandT_ok hO he ok h 0 1).1 (by simp) hS (by simp [usubOf]) hb

/-- **C36** PolynomialUSub, where `u = q` has a nonzero derivative. Two things are asked of the run: the old variable is gone
from the new integrand, and the two `replace` calls keep to principal branches (`RunTame`). -/
theorem polynomial_usub_sound_partial (hO : O.Exact) (he : Integrand ρ A e) (hv : A v) (hu : ¬A u)
    (h : polynomialUSub O n v u e = .ok (some (q, g)))
    (hok : DiffOk O ρ v n q) (hq0 : deriv (fnOf ρ v q) (ρ v) ≠ 0) (hg : v ∉ syms g)
    (ht : RunTame O (replacePerf O q (sym u)) n e = true) (hS : (posedAfter ρ v u A q g).Solves S)
    (ht' : RunTame O (replacePerf O (sym u) q) m S = true) (hb : backStep O m (.polynomialUSub q) u S = .ok r) :
    (posed ρ v A e).Solves r := by
  have key := (polynomialUSub_ok hO he hv hu h hok hq0 hg ht 0 1).1
  exact reduces_back hO m (i := 0) (k := 1) key (by simp) hS
    (fun q' hq' => by cases hq'; exact substOk_of_run hO hS.1.wf key.1 ht') hb

/-- **C36** GenericUSub, under the same conditions. -/
theorem generic_usub_sound_partial (hO : O.Exact) (he : Integrand ρ A e) (hv : A v) (hu : ¬A u)
    (h : genericUSub O n v u e = .ok (some (q, g))) (hqr : Regular ρ q)
    (hok : DiffOk O ρ v n q) (hq0 : deriv (fnOf ρ v q) (ρ v) ≠ 0) (hg : v ∉ syms g)
    (ht : ∀ d f, diffE O n v q = .ok d → opDiv (ctors O n) e d = .ok f → RunTame O (replacePerf O q (sym u)) n f = true)
    (hS : (posedAfter ρ v u A q g).Solves S)
    (ht' : RunTame O (replacePerf O (sym u) q) m S = true) (hb : backStep O m (.genericUSub q) u S = .ok r) :
    (posed ρ v A e).Solves r := by
  have key := (genericUSub_ok hO he hv hu h hqr hok hq0 hg ht 0 1).1
  exact reduces_back hO m (i := 0) (k := 1) key (by simp) hS
    (fun q' hq' => by cases hq'; exact substOk_of_run hO hS.1.wf key.1 ht') hb

/-- **C36** TrigUSub2: `u = tan(v)` anywhere, `u = sin(v)` where `cos(v) > 0` and `u = cos(v)` where `sin(v) > 0`. That the old
variable is gone is part of the conclusion of `trigUSub2_ok`. -/
theorem trig_usub2_sound_partial (hO : O.Exact) (he : Integrand ρ A e) (hv : A v) (hu : ¬A u)
    (h : trigUSub2 O n v u e = .ok (some (q, g)))
    (hs : q = trig .sin (sym v) → 0 < Real.cos (ρ v)) (hc : q = trig .cos (sym v) → 0 < Real.sin (ρ v))
    (ht : RunTame O (replacePerf O q (sym u)) n e = true) (hS : (posedAfter ρ v u A q g).Solves S)
    (ht' : RunTame O (replacePerf O (sym u) q) m S = true) (hb : backStep O m (.trigUSub2 q) u S = .ok r) :
    (posed ρ v A e).Solves r := by
  have key := (trigUSub2_ok hO he hv hu h hs hc ht 0 1).1
  exact reduces_back hO m (i := 0) (k := 1) key (by simp) hS
    (fun q' hq' => by cases hq'; exact substOk_of_run hO hS.1.wf key.1 ht') hb

/-- **C36** InverseTrigUSub: `u = asin(v)` or `u = atan(v)`. -/
theorem inverse_trig_usub_sound_partial (hO : O.Exact) (he : Integrand ρ A e) (hv : A v) (hu : ¬A u)
    (h : inverseTrigUSub O n v u e = .ok (some (q, g))) (hq : Regular ρ q)
    (ht : ∀ f, f = .sin ∧ q = trig .asin (sym v) ∨ f = .tan ∧ q = trig .atan (sym v) →
      RunTame O (replacePerf O (sym v) (trig f (sym u))) n e = true) (hS : (posedAfter ρ v u A q g).Solves S)
    (ht' : RunTame O (replacePerf O (sym u) q) m S = true) (hb : backStep O m (.inverseTrigUSub q) u S = .ok r) :
    (posed ρ v A e).Solves r := by
  have key := (inverseTrigUSub_ok hO he hv hu h hq ht 0 1).1
  exact reduces_back hO m (i := 0) (k := 1) key (by simp) hS
    (fun q' hq' => by cases hq'; exact substOk_of_run hO hS.1.wf key.1 ht') hb

/-- **C36** LinearUSub, provided that the old variable is gone from the new integrand: it need not be, see
`linear_usub_fails`. -/
theorem linear_usub_sound_partial (hO : O.Exact) (he : Integrand ρ A e) (hv : A v) (hu : ¬A u)
    (h : linearUSub O n v u e = .ok (some (q, g)))
    (hok : DiffOk O ρ v n q) (hq0 : deriv (fnOf ρ v q) (ρ v) ≠ 0) (hg : v ∉ syms g)
    (ht1 : linCheck O n v e (none, none) = .ok (true, some q, none) → RunTame O (replacePerf O q (sym u)) n e = true)
    (ht2 : ∀ ic w, linCheck O n v e (none, none) = .ok (true, some q, some ic) → opDiv (ctors O n) (sym u) ic = .ok w →
      RunTame O (replacePerf O (sym v) w) n e = true ∧ Regular ρ ic ∧ den ρ ic ≠ 0)
    (hS : (posedAfter ρ v u A q g).Solves S)
    (ht' : RunTame O (replacePerf O (sym u) q) m S = true) (hb : backStep O m (.linearUSub q) u S = .ok r) :
    (posed ρ v A e).Solves r := by
  have key := (linearUSub_ok hO he hv hu h hok hq0 hg ht1 ht2 0 1).1
  exact reduces_back hO m (i := 0) (k := 1) key (by simp) hS
    (fun q' hq' => by cases hq'; exact substOk_of_run hO hS.1.wf key.1 ht') hb

/-- **C36** RewriteTrig, for each of the up to three new integrands, where no sine or cosine of an argument vanishes. -/
theorem rewrite_trig_sound_partial (hO : O.Exact) {gs : List Expr} (he : Integrand ρ A e)
    (ha : ∀ f i, Sub (trig f i) e → f.isInverse = false → Real.sin (den ρ i) ≠ 0 ∧ Real.cos (den ρ i) ≠ 0)
    (ht1 : RunTameC O (toSinCos O) n e = true) (ht2 : RunTameC O (toTanCsc O) n e = true)
    (ht3 : RunTameC O (toCotSec O) n e = true) (h : rewriteTrig O n e = .ok gs) (hg : g ∈ gs)
    (hS : (posed ρ v A g).Solves S) (hb : backStep O m .rewriteTrig v S = .ok r) : (posed ρ v A e).Solves r :=
  reduces_back hO m (i := 0) (k := 1) ((rewriteTrig_ok hO he ha ht1 ht2 ht3 h g hg).1 0 1) (by simp) hS (by simp [usubOf]) hb

/-- **C36** RewritePythagorean, on integrands without inverse trig functions. -/
theorem rewrite_pythagorean_sound_partial (hO : O.Exact) (he : Integrand ρ A e) (hn : containsCls isInvTrig e = false)
    (h : rewritePythagorean O n e = .ok (some g)) (hS : (posed ρ v A g).Solves S)
    (hb : backStep O m .rewritePythagorean v S = .ok r) : (posed ρ v A e).Solves r :=
  reduces_back hO m (i := 0) (k := 1) (rewritePythagorean_ok hO he hn h 0 1).1 (by simp) hS (by simp [usubOf]) hb

/-! ### ByParts

`integ` is the integrator called for `dv`; it is assumed to be right on the factors of the integrand. -/

/-- **C36** ByParts: with `c = u * v` and the new integrand `g = -du * v`, if `S` is an antiderivative of `g` then `c + S`, the
sum made by the Additivity of the filler node, is an antiderivative of `e`. -/
theorem by_parts_sound (hO : O.Exact) {x : Str} {integ : Expr → R (Option Expr)} {old : Expr → Bool} {a da w c f : Expr}
    (he : Integrand ρ A e) (hx : A x) (hi : IntegOk ρ x A integ e) (hd : ∀ t, t = e ∨ t ∈ Expr.children e → DiffOk O ρ x n t)
    (h : byPartsCheck O n x integ old e = .ok (some (a, da, w))) (hp : byPartsParts O n e a da w = .ok (c, g, f))
    (hS : (posed ρ x A g).Solves S) (hb : (ctors O m).sum [c, S] = .ok r) : (posed ρ x A e).Solves r := by
  obtain ⟨hc, cA, -, -⟩ := byPartsParts_ok hO (byPartsCheck_ok hO he hx hi hd h) hp
  refine ⟨?_, (ctors_pres (closed_syms A) O m).sum _ _ (by
    intro t ht
    simp only [List.mem_cons, List.not_mem_nil, or_false] at ht
    rcases ht with rfl | rfl
    exacts [cA, hS.2]) hb⟩
  have := add_back hO (.cons hc (.cons hS.1 .nil)) hb
  simpa [posed] using this

/-- **C36** ByParts when the new integrand is a constant multiple `f ≠ 1` of the old one: the solution `c / (1 - f)` stored at
the filler node is an antiderivative of `e` where `e` does not vanish. -/
theorem by_parts_same_sound_partial (hO : O.Exact) {x : Str} {integ : Expr → R (Option Expr)} {old : Expr → Bool}
    {a da w c f : Expr} (he : Integrand ρ A e) (hx : A x) (hi : IntegOk ρ x A integ e)
    (hd : ∀ t, t = e ∨ t ∈ Expr.children e → DiffOk O ρ x n t)
    (h : byPartsCheck O n x integ old e = .ok (some (a, da, w))) (hp : byPartsParts O n e a da w = .ok (c, g, f))
    (hf : f.contains x = false) (h0 : den ρ e ≠ 0) (h1 : den ρ f ≠ 1) (hb : byPartsSolution (ctors O n) c f = .ok r) :
    (posed ρ x A e).Solves r := by
  obtain ⟨hc, cA, hg, hq⟩ := byPartsParts_ok hO (byPartsCheck_ok hO he hx hi hd h) hp
  obtain ⟨hF, hv⟩ := byPartsFactor_ok hO he hg h0 hq
  have hxf : x ∉ syms f := fun hm => by
    have := (contains_iff x f).2 hm
    rw [this] at hf; cases hf
  obtain ⟨s1, s2⟩ := byPartsSolution_ok hO hc cA hF hxf h1 hb
  refine ⟨?_, s2⟩
  have : den ρ e = (den ρ e - den ρ g) / (1 - den ρ f) := by
    have : (1 : ℝ) - den ρ f ≠ 0 := sub_ne_zero.2 h1.symm
    rw [hv]; field_simp
  simp only [posed]
  rw [this]; exact s1

/-- **C36** ByParts twice: the integrand `e₀` has the parts `c₀` and `g₀ = k * e₁` with `k` the constant pulled out between the
two integrations by parts (1 if none was), and `e₁` has the parts `c₁` and `g₁ = s * e₀`. The solutions `c₀ / (1 - k*s)` and
`c₁ / (1 - k*s)` stored at the two filler nodes make up, with the backward steps of PullConstant and Additivity, an antiderivative
of `e₀` (although the second one is not an antiderivative of `e₁`). -/
theorem by_parts_twice_sound_partial (hO : O.Exact) {x : Str} {integ : Expr → R (Option Expr)} {old₀ old₁ : Expr → Bool}
    {e₀ a₀ da₀ w₀ c₀ g₀ f₀ e₁ a₁ da₁ w₁ c₁ g₁ f₁ k s f r₀ r₁ kr₁ : Expr} (he₀ : Integrand ρ A e₀) (he₁ : Integrand ρ A e₁)
    (hx : A x) (hi₀ : IntegOk ρ x A integ e₀) (hi₁ : IntegOk ρ x A integ e₁)
    (hd₀ : ∀ t, t = e₀ ∨ t ∈ Expr.children e₀ → DiffOk O ρ x n t) (hd₁ : ∀ t, t = e₁ ∨ t ∈ Expr.children e₁ → DiffOk O ρ x n t)
    (hc₀ : byPartsCheck O n x integ old₀ e₀ = .ok (some (a₀, da₀, w₀))) (hp₀ : byPartsParts O n e₀ a₀ da₀ w₀ = .ok (c₀, g₀, f₀))
    (hc₁ : byPartsCheck O n x integ old₁ e₁ = .ok (some (a₁, da₁, w₁))) (hp₁ : byPartsParts O n e₁ a₁ da₁ w₁ = .ok (c₁, g₁, f₁))
    (hk : k = rat 1 ∧ g₀ = e₁ ∨ pullConstant O n x g₀ = .ok (some (k, e₁)))
    (hs : opDiv (ctors O n) g₁ e₀ = .ok s) (hsx : s.contains x = false) (hf : opMul (ctors O n) k s = .ok f)
    (h0 : den ρ e₀ ≠ 0) (h1 : den ρ f ≠ 1)
    (hr₀ : byPartsSolution (ctors O n) c₀ f = .ok r₀) (hr₁ : byPartsSolution (ctors O n) c₁ f = .ok r₁)
    (hkr : opMul (ctors O n) k r₁ = .ok kr₁) (hb : (ctors O m).sum [r₀, kr₁] = .ok r) : (posed ρ x A e₀).Solves r := by
  have hC := ctors_sound hO n
  have hE := (adm_syms O A).toAdmE
  obtain ⟨s₀, cA₀, hg₀, -⟩ := byPartsParts_ok hO (byPartsCheck_ok hO he₀ hx hi₀ hd₀ hc₀) hp₀
  obtain ⟨s₁, cA₁, hg₁, -⟩ := byPartsParts_ok hO (byPartsCheck_ok hO he₁ hx hi₁ hd₁ hc₁) hp₁
  obtain ⟨hS, vs⟩ := byPartsFactor_ok hO he₀ hg₁ h0 hs
  have hK : Integrand ρ A k ∧ x ∉ syms k ∧ den ρ g₀ = den ρ k * den ρ e₁ := by
    rcases hk with ⟨rfl, rfl⟩ | hk
    · exact ⟨⟨by simp, by simp [Regular], by simp [syms]⟩, by simp [syms], by simp⟩
    · obtain ⟨a, b, c, d, -, -, -, f⟩ := (pullConstant_ok hO hg₀ (v := x) hk 0 1).1
      exact ⟨⟨a, b, d⟩, c, f⟩
  obtain ⟨iK, xK, vK⟩ := hK
  have xs : x ∉ syms s := fun hm => by
    have := (contains_iff x s).2 hm
    rw [this] at hsx; cases hsx
  obtain ⟨wf, df, vf⟩ := Val.mul hC (.self iK.wf iK.reg) (.self hS.wf hS.reg) hf
  have xf : x ∉ syms f := by
    have := (adm_syms O (· ≠ x)).toAdmE.opMul (fun s hs => by rintro rfl; exact xK hs) (fun s hs => by rintro rfl; exact xs hs) hf
    exact fun hm => this x hm rfl
  have iF : Integrand ρ A f := ⟨wf, df, hE.opMul iK.scope hS.scope hf⟩
  obtain ⟨t₀, tA₀⟩ := byPartsSolution_ok hO s₀ cA₀ iF xf h1 hr₀
  obtain ⟨t₁, tA₁⟩ := byPartsSolution_ok hO s₁ cA₁ iF xf h1 hr₁
  have tk := pull_back hO iK.wf iK.reg xK t₁ hkr
  refine ⟨?_, (ctors_pres (closed_syms A) O m).sum _ _ (by
    intro t ht
    simp only [List.mem_cons, List.not_mem_nil, or_false] at ht
    rcases ht with rfl | rfl
    exacts [tA₀, hE.opMul iK.scope tA₁ hkr]) hb⟩
  have := add_back hO (.cons t₀ (.cons tk .nil)) hb
  simp only [posed]
  convert this using 1
  have hne : (1 : ℝ) - den ρ f ≠ 0 := sub_ne_zero.2 h1.symm
  simp only [List.sum_cons, List.sum_nil, add_zero]
  rw [vK, vs, eq_comm, mul_div_assoc', ← add_div, div_eq_iff hne, vf]
  ring

/-- The table is such an integrator, where its answers are defined. -/
theorem integ_ok_table (hO : O.Exact) {x : Str} (he : Integrand ρ A e) (hx : A x)
    (ht : ∀ t ∈ Expr.children e, TableOk ρ x t) : IntegOk ρ x A (checkTable O n x) e := by
  intro dv w hm h
  have hd := he.child hm
  obtain ⟨a, b, c⟩ := table_sound hO hd.wf hd.reg (ht dv hm) h
  exact ⟨⟨c, b, a⟩, (adm_syms O A).checkTable (v := x) (by simpa [syms] using hx) hd.scope h⟩

section examples
set_option maxRecDepth 10000
private abbrev x : Expr := sym ['x']
private abbrev y : Expr := sym ['u']
private abbrev X : Str → Prop := fun s => s = ['x']
private abbrev U : Str → Prop := fun s => s = ['u']

private theorem sq (t : ℝ) : pw t 2 = t ^ 2 := by
  have := pw_int t 2
  norm_num at this ⊢
  exact this

private theorem pwe (t : ℝ) : pw (Real.exp 1) t = Real.exp t := by
  rw [pw_of_nonneg (Real.exp_pos 1).le, ← Real.exp_mul, one_mul]

private theorem anti_sin (ρ : Str → ℝ) (s : Str) : SolAt ρ s (prod [rat (-1), trig .cos (sym s)]) (Real.sin (ρ s)) := by
  refine ⟨by simp [WF, WFL, isAcc, List.filter], by simp [DomS, DomSL, TrigFn.ok, TrigFn.inner], ?_⟩
  refine ((Real.hasDerivAt_cos (ρ s)).fun_neg.congr_deriv (by simp)).congr_of_eventuallyEq (.of_forall fun t => ?_)
  simp [fnOf, den, denP, TrigFn.real]

private theorem anti_cos (ρ : Str → ℝ) (s : Str) : SolAt ρ s (trig .sin (sym s)) (Real.cos (ρ s)) := by
  refine ⟨by simp [WF], by simp [DomS, TrigFn.ok, TrigFn.inner], ?_⟩
  refine (Real.hasDerivAt_sin (ρ s)).congr_of_eventuallyEq (.of_forall fun t => ?_)
  simp [fnOf, den, TrigFn.real]

private theorem anti_exp (ρ : Str → ℝ) (s : Str) : SolAt ρ s (pow euler (sym s)) (Real.exp (ρ s)) := by
  refine ⟨by simp [WF, baseOk], by simp [DomS, HN, den, (Real.exp_pos 1).le], ?_⟩
  refine (Real.hasDerivAt_exp (ρ s)).congr_of_eventuallyEq (.of_forall fun t => ?_)
  simp [fnOf, den, pwe]

/-- ∫ 3 sin(x) dx -/
example (ρ : Str → ℝ) : (posed ρ ['x'] X (prod [rat 3, trig .sin x])).Solves (prod [rat (-3), trig .cos x]) :=
  pull_constant_sound exactOracle_exact (n := 30) (m := 30) (c := rat 3) (g := trig .sin x) (S := prod [rat (-1), trig .cos x])
    ⟨by simp [WF, WFL, isAcc, List.filter], by simp [Regular, DomS, DomSL, TrigFn.ok, TrigFn.inner], by simp [syms, symsL]⟩
    (by decide +kernel) ⟨by simpa [posed, den, TrigFn.real] using anti_sin ρ ['x'], by simp [syms, symsL, posed]⟩ (by decide +kernel)

/-- ∫ sin(x) + cos(x) dx -/
example (ρ : Str → ℝ) : (posed ρ ['x'] X (sum [trig .sin x, trig .cos x])).Solves
    (sum [trig .sin x, prod [rat (-1), trig .cos x]]) :=
  additivity_sound exactOracle_exact (m := 30) (Ss := [prod [rat (-1), trig .cos x], trig .sin x])
    ⟨by simp [WF, WFL], by simp [Regular, DomS, DomSL, TrigFn.ok, TrigFn.inner], by simp [syms, symsL]⟩
    (.cons ⟨by simpa [posed, den, TrigFn.real] using anti_sin ρ ['x'], by simp [syms, symsL, posed]⟩
      (.cons ⟨by simpa [posed, den, TrigFn.real] using anti_cos ρ ['x'], by simp [syms, posed]⟩ .nil)) (by decide +kernel)

/-- ∫ x (x + 1) dx by expanding. -/
example (ρ : Str → ℝ) (S : Expr) (hS : (posed ρ ['x'] X (sum [pow x (rat 2), x])).Solves S) :
    (posed ρ ['x'] X (prod [x, sum [x, rat 1]])).Solves S :=
  expand_transform_sound_partial exactOracle_exact (n := 30) (m := 30) (e := prod [x, sum [x, rat 1]])
    ⟨by simp [WF, WFL, isAcc, List.filter], by simp [Regular, DomS, DomSL], by simp [syms, symsL]⟩
    (Easy.expandOk 30 ⟨by decide +kernel, by decide +kernel, by decide +kernel⟩) (g := sum [pow x (rat 2), x]) (by decide +kernel) hS rfl

/-- ∫ x cos(x²) dx with `u = x**2`, where `x ≠ 0`. -/
example (ρ : Str → ℝ) (h0 : ρ ['x'] ≠ 0) : (posed ρ ['x'] X (prod [x, trig .cos (pow x (rat 2))])).Solves
    (prod [rat (1 / 2), trig .sin (pow x (rat 2))]) := by
  have hd : HasDerivAt (fnOf ρ ['x'] (pow x (rat 2))) (2 * ρ ['x']) (ρ ['x']) := by
    refine (((hasDerivAt_id (ρ ['x'])).fun_pow 2).congr_deriv (by simp)).congr_of_eventuallyEq (.of_forall fun t => ?_)
    simp [fnOf, den, sq]
  refine polynomial_usub_sound_partial exactOracle_exact (n := 30) (m := 30) (u := ['u']) (q := pow x (rat 2))
    (g := prod [rat (1 / 2), trig .cos y]) (S := prod [rat (1 / 2), trig .sin y])
    ⟨by simp [WF, WFL, isAcc, List.filter, baseOk], by simp [Regular, DomS, DomSL, TrigFn.ok, TrigFn.inner, intExp], by simp [syms, symsL]⟩
    rfl (by simp) (by decide +kernel) (Smooth.diffOk 30 (by decide +kernel)) (by rw [hd.deriv]; simpa using h0) (by simp [syms, symsL])
    (by decide +kernel) ⟨⟨by simp [WF, WFL, isAcc, List.filter], ?_, ?_⟩, ?_⟩ (by decide +kernel) (by decide +kernel)
  · simp [Regular, DomS, DomSL, TrigFn.ok, TrigFn.inner]
  · have := (anti_cos (pointAfter ρ ['u'] (pow x (rat 2))) ['u']).deriv.const_mul (1 / 2)
    refine (this.congr_deriv ?_).congr_of_eventuallyEq (.of_forall fun t => ?_)
    · simp [posedAfter, posed, den, denP, TrigFn.real]
    · simp [fnOf, den, denP, posedAfter, posed]
  · simp [syms, symsL, posedAfter, posed, scopeAfter]

/-- ∫ cos(x) sin(sin(x)) dx with `u = sin(x)`, where `cos(x) ≠ 0`. -/
example (ρ : Str → ℝ) (h0 : Real.cos (ρ ['x']) ≠ 0) : (posed ρ ['x'] X (prod [trig .cos x, trig .sin (trig .sin x)])).Solves
    (prod [rat (-1), trig .cos (trig .sin x)]) := by
  refine generic_usub_sound_partial exactOracle_exact (n := 30) (m := 30) (u := ['u']) (q := trig .sin x)
    (g := trig .sin y) (S := prod [rat (-1), trig .cos y])
    ⟨by simp [WF, WFL, isAcc, List.filter], by simp [Regular, DomS, DomSL, TrigFn.ok, TrigFn.inner], by simp [syms, symsL]⟩
    rfl (by simp) (by decide +kernel) (by simp [Regular, DomS, TrigFn.ok, TrigFn.inner])
    (Smooth.diffOk 30 (by decide +kernel)) (by rw [(anti_cos ρ ['x']).deriv.deriv]; exact h0) (by simp [syms])
    ?_ ⟨by simpa [posedAfter, posed, den, TrigFn.real] using anti_sin (pointAfter ρ ['u'] (trig .sin x)) ['u'],
      by simp [syms, symsL, posedAfter, posed, scopeAfter]⟩ (by decide +kernel) (by decide +kernel)
  intro d f h1 h2
  obtain rfl : trig .cos x = d := Except.ok.inj ((show diffE exactOracle 30 ['x'] (trig .sin x) = .ok (trig .cos x) by
    decide +kernel).symm.trans h1)
  obtain rfl : trig .sin (trig .sin x) = f := Except.ok.inj ((show opDiv (ctors exactOracle 30) (prod [trig .cos x, trig .sin (trig .sin x)])
    (trig .cos x) = .ok (trig .sin (trig .sin x)) by decide +kernel).symm.trans h2)
  decide +kernel

/-- ∫ tan(x) dx with `u = tan(x)`. -/
example (ρ : Str → ℝ) (h0 : Real.cos (ρ ['x']) ≠ 0) : (posed ρ ['x'] X (trig .tan x)).Solves
    (prod [rat (1 / 2), log (sum [pow (trig .tan x) (rat 2), rat 1]) euler]) := by
  have hpos : ∀ t : ℝ, 0 < t ^ 2 + 1 := fun t => by positivity
  refine trig_usub2_sound_partial exactOracle_exact (n := 30) (m := 30) (u := ['u']) (q := trig .tan x)
    (g := prod [y, pow (sum [pow y (rat 2), rat 1]) (rat (-1))])
    (S := prod [rat (1 / 2), log (sum [pow y (rat 2), rat 1]) euler])
    ⟨by simp [WF], by simp [Regular, DomS, TrigFn.ok, TrigFn.inner, den, h0], by simp [syms]⟩
    rfl (by simp) (by decide +kernel) (by simp) (by simp) (by decide +kernel)
    ⟨⟨by simp [WF, WFL, isAcc, List.filter, baseOk], ?_, ?_⟩, ?_⟩ (by decide +kernel) (by decide +kernel)
  · simp [Regular, DomS, DomSL, den, denS, intExp, HN, sq, (hpos _), (hpos _).le, Real.exp_pos]
  · have := (((hasDerivAt_id (TrigFn.tan.real (ρ ['x']))).fun_pow 2).add_const 1).log (hpos _).ne'
    refine ((this.const_mul (1 / 2)).congr_deriv ?_).congr_of_eventuallyEq (.of_forall fun t => ?_) <;>
      simp [posedAfter, posed, pointAfter, den, denP, denS, sq, fnOf, pw_neg_one] <;> field_simp
  · simp [syms, symsL, posedAfter, posed, scopeAfter]

/-- ∫ 1/(x² + 1) dx with `u = atan(x)`. -/
example (ρ : Str → ℝ) : (posed ρ ['x'] X (pow (sum [pow x (rat 2), rat 1]) (rat (-1)))).Solves (trig .atan x) := by
  have hpos : ∀ t : ℝ, t ^ 2 + 1 ≠ 0 := fun t => by positivity
  refine inverse_trig_usub_sound_partial exactOracle_exact (n := 30) (m := 30) (u := ['u']) (q := trig .atan x)
    (g := prod [pow (trig .sec y) (rat 2), pow (sum [pow (trig .tan y) (rat 2), rat 1]) (rat (-1))]) (S := y)
    ⟨by simp [WF, WFL, baseOk], by simp [Regular, DomS, DomSL, den, denS, intExp, sq, hpos], by simp [syms, symsL]⟩
    rfl (by simp) (by decide +kernel) (by simp [Regular, DomS, TrigFn.ok, TrigFn.inner])
    (fun f hf => ?_) ⟨⟨by simp [WF], by simp [Regular, DomS], ?_⟩, by simp [syms, posedAfter, posed, scopeAfter]⟩
    (by decide +kernel) (by decide +kernel)
  · rcases hf with ⟨rfl, h⟩ | ⟨rfl, -⟩
    · simp at h
    · decide +kernel
  · have hc : Real.cos (Real.arctan (ρ ['x'])) ≠ 0 := (Real.cos_arctan_pos _).ne'
    have hs := Real.sin_sq_add_cos_sq (Real.arctan (ρ ['x']))
    refine ((hasDerivAt_id _).congr_deriv ?_).congr_of_eventuallyEq (.of_forall fun t => ?_)
    · simp only [posedAfter, posed, pointAfter, den, denP, denS, TrigFn.real, Function.update_self]
      have h2 : ((2 : ℚ) : ℝ) = 2 := by norm_num
      have h1 : ((-1 : ℚ) : ℝ) = -1 := by norm_num
      rw [h2, h1, sq, sq, pw_neg_one]
      have : (Real.sin (Real.arctan (ρ ['x'])) / Real.cos (Real.arctan (ρ ['x']))) ^ 2 + 1 =
          (1 / Real.cos (Real.arctan (ρ ['x']))) ^ 2 := by
        field_simp
        exact hs
      have h3 : ((1 : ℚ) : ℝ) = 1 := by norm_num
      rw [h3, add_zero, this]
      field_simp
    · simp [posedAfter, posed, fnOf, den]

/-- ∫ cos(2 x) dx with `u = 2 x`. -/
example (ρ : Str → ℝ) : (posed ρ ['x'] X (trig .cos (prod [rat 2, x]))).Solves
    (prod [rat (1 / 2), trig .sin (prod [rat 2, x])]) := by
  have hd : HasDerivAt (fnOf ρ ['x'] (prod [rat 2, x])) 2 (ρ ['x']) := by
    refine (((hasDerivAt_id (ρ ['x'])).const_mul 2).congr_deriv (by simp)).congr_of_eventuallyEq (.of_forall fun t => ?_)
    simp [fnOf, den, denP]
  have hl : linCheck exactOracle 30 ['x'] (trig .cos (prod [rat 2, x])) (none, none) = .ok (true, some (prod [rat 2, x]), none) := by
    decide +kernel
  refine linear_usub_sound_partial exactOracle_exact (n := 30) (m := 30) (u := ['u']) (q := prod [rat 2, x])
    (g := prod [rat (1 / 2), trig .cos y]) (S := prod [rat (1 / 2), trig .sin y])
    ⟨by simp [WF, WFL, isAcc, List.filter], by simp [Regular, DomS, DomSL, TrigFn.ok, TrigFn.inner], by simp [syms, symsL]⟩
    rfl (by simp) (by decide +kernel) (Smooth.diffOk 30 (by decide +kernel)) (by rw [hd.deriv]; simp) (by simp [syms, symsL])
    (fun _ => by decide +kernel) (fun ic w h => by rw [hl] at h; simp at h)
    ⟨⟨by simp [WF, WFL, isAcc, List.filter], ?_, ?_⟩, ?_⟩ (by decide +kernel) (by decide +kernel)
  · simp [Regular, DomS, DomSL, TrigFn.ok, TrigFn.inner]
  · have := (anti_cos (pointAfter ρ ['u'] (prod [rat 2, x])) ['u']).deriv.const_mul (1 / 2)
    refine (this.congr_deriv ?_).congr_of_eventuallyEq (.of_forall fun t => ?_)
    · simp [posedAfter, posed, den, denP, TrigFn.real]
    · simp [fnOf, den, denP, posedAfter, posed]
  · simp [syms, symsL, posedAfter, posed, scopeAfter]

private abbrev bad : Expr := prod [trig .sin (prod [rat (1 / 6), x]), pow euler (prod [rat (1 / 36), pow x (rat 2)])]

/-- **C36** LinearUSub can leave the old variable in the new integrand: for `sin(x/6) * e**(x**2/36)` it substitutes `u = x/6`
(the second linear expression, found in `x**2/36` with an inverse variable change, is only compared with the first), and the new
integrand is `6 * sin(u) * e**(x**2/36)`. Its antiderivative with respect to `u` is `-6 * cos(u) * e**(x**2/36)`, for which the
backward step gives `-6 * cos(x/6) * e**(x**2/36)`, whose derivative at `x = 6` is not the integrand. -/
theorem linear_usub_fails : ∃ (e q g S r : Expr) (ρ : Str → ℝ), Built exactOracle e ∧ Regular ρ e ∧
    linearUSub exactOracle 30 ['x'] ['u'] e = .ok (some (q, g)) ∧
    SolAt (pointAfter ρ ['u'] q) ['u'] S (den (pointAfter ρ ['u'] q) g) ∧
    backStep exactOracle 30 (.linearUSub q) ['u'] S = .ok r ∧ ¬AntiAt ρ ['x'] r e := by
  refine ⟨bad, prod [rat (1 / 6), x],
    prod [rat 6, trig .sin y, pow euler (prod [rat (1 / 36), pow x (rat 2)])],
    prod [rat (-6), trig .cos y, pow euler (prod [rat (1 / 36), pow x (rat 2)])],
    prod [rat (-6), trig .cos (prod [rat (1 / 6), x]), pow euler (prod [rat (1 / 36), pow x (rat 2)])], fun _ => 6,
    built_of_self (by decide +kernel), ?_, by decide +kernel, ⟨?_, ?_, ?_⟩, by decide +kernel, ?_⟩
  · simp [Regular, DomS, DomSL, TrigFn.ok, TrigFn.inner, intExp, HN, den, (Real.exp_pos 1).le]
  · simp [WF, WFL, isAcc, List.filter, baseOk]
  · simp [Regular, DomS, DomSL, TrigFn.ok, TrigFn.inner, intExp, HN, den, (Real.exp_pos 1).le]
  · have := ((Real.hasDerivAt_cos 1).const_mul (-6)).mul_const (Real.exp 1)
    have h2 : (36 : ℝ)⁻¹ * 6 ^ 2 = 1 := by norm_num
    have hp : pointAfter (fun _ => 6) ['u'] (prod [rat (1 / 6), x]) ['u'] = 1 := by simp [pointAfter, den, denP]
    rw [hp]
    refine (this.congr_deriv ?_).congr_of_eventuallyEq (.of_forall fun t => ?_)
    · simp [pointAfter, den, denP, TrigFn.real, sq, pwe, h2, mul_assoc]
    · simp [fnOf, pointAfter, den, denP, TrigFn.real, sq, pwe, h2, mul_assoc]
  · intro h
    have h1 : HasDerivAt (fun t : ℝ => -6 * (Real.cos (1 / 6 * t) * Real.exp (1 / 36 * t ^ 2)))
        (Real.sin 1 * Real.exp 1 - 2 * Real.cos 1 * Real.exp 1) 6 := by
      have c := (((hasDerivAt_id (6 : ℝ)).const_mul (1 / 6)).cos)
      have e := ((((hasDerivAt_id (6 : ℝ)).fun_pow 2).const_mul (1 / 36)).exp)
      refine ((c.fun_mul e).const_mul (-6)).congr_deriv ?_
      norm_num
      ring
    have h2 : HasDerivAt (fun t : ℝ => -6 * (Real.cos (1 / 6 * t) * Real.exp (1 / 36 * t ^ 2)))
        (Real.sin 1 * Real.exp 1) 6 := by
      have h3 : (36 : ℝ)⁻¹ * 6 ^ 2 = 1 := by norm_num
      refine (h.congr_deriv ?_).congr_of_eventuallyEq (.of_forall fun t => ?_)
      · simp [bad, den, denP, TrigFn.real, sq, pwe, h3]
      · simp [fnOf, den, denP, TrigFn.real, sq, pwe]
    have h3 := h1.unique h2
    have h4 := mul_pos Real.cos_one_pos (Real.exp_pos 1)
    linarith

/-- ∫ sec(x) tan(x) dx by rewriting in terms of sin and cos. -/
example (ρ : Str → ℝ) (h0 : Real.cos (ρ ['x']) ≠ 0) (h1 : Real.sin (ρ ['x']) ≠ 0) (S : Expr)
    (hS : (posed ρ ['x'] X (prod [trig .sin x, pow (trig .cos x) (rat (-2))])).Solves S) :
    (posed ρ ['x'] X (prod [trig .sec x, trig .tan x])).Solves S := by
  refine rewrite_trig_sound_partial exactOracle_exact (n := 30) (m := 30) (gs := [prod [trig .sin x, pow (trig .cos x) (rat (-2))],
      prod [trig .csc x, pow (trig .tan x) (rat 2)], prod [trig .sec x, pow (trig .cot x) (rat (-1))]])
    ⟨by simp [WF, WFL, isAcc, List.filter], by simp [Regular, DomS, DomSL, TrigFn.ok, TrigFn.inner, den, h0], by simp [syms, symsL]⟩
    ?_ (by decide +kernel) (by decide +kernel) (by decide +kernel) (by decide +kernel)
    (g := prod [trig .sin x, pow (trig .cos x) (rat (-2))]) (by simp) hS rfl
  intro f i hs hf
  have : i = x := by
    cases hs with
    | child ht hs =>
      simp only [Expr.children, List.mem_cons, List.not_mem_nil, or_false] at ht
      rcases ht with rfl | rfl <;> cases hs with
      | here => rfl
      | child ht hs =>
        simp only [Expr.children, List.mem_cons, List.not_mem_nil, or_false] at ht
        subst ht
        cases hs with
        | child ht hs => simp [Expr.children] at ht
  subst this
  exact ⟨h1, h0⟩

/-- ∫ sin(x)³ dx as ∫ sin(x) (1 - cos(x)²) dx. -/
example (ρ : Str → ℝ) (S : Expr)
    (hS : (posed ρ ['x'] X (prod [trig .sin x, sum [prod [rat (-1), pow (trig .cos x) (rat 2)], rat 1]])).Solves S) :
    (posed ρ ['x'] X (pow (trig .sin x) (rat 3))).Solves S :=
  rewrite_pythagorean_sound_partial exactOracle_exact (n := 30) (m := 30)
    ⟨by simp [WF, baseOk], by simp [Regular, DomS, TrigFn.ok, TrigFn.inner, den, intExp], by simp [syms]⟩ (by decide +kernel)
    (g := prod [trig .sin x, sum [prod [rat (-1), pow (trig .cos x) (rat 2)], rat 1]]) (by decide +kernel) hS rfl

private theorem diffs (ρ : Str → ℝ) {e : Expr} (h : (e :: Expr.children e).all (Smooth ['x']) = true) (n : Nat) :
    ∀ t, t = e ∨ t ∈ Expr.children e → DiffOk exactOracle ρ ['x'] n t := by
  intro t ht
  rw [List.all_eq_true] at h
  exact Smooth.diffOk n (h t (by simpa using ht))

private theorem table (ρ : Str → ℝ) {e : Expr} (h : e = euler.pow x ∨ e = trig .sin x ∨ e = trig .cos x) : TableOk ρ ['x'] e := by
  rcases h with rfl | rfl | rfl <;> simp [TableOk, den]

private theorem iexp (ρ : Str → ℝ) : Integrand ρ X (prod [x, pow euler x]) :=
  ⟨by simp [WF, WFL, isAcc, List.filter, baseOk], by simp [Regular, DomS, DomSL, HN, den, (Real.exp_pos 1).le], by simp [syms, symsL]⟩

/-- ∫ x eˣ dx -/
example (ρ : Str → ℝ) : (posed ρ ['x'] X (prod [x, pow euler x])).Solves
    (sum [prod [x, pow euler x], prod [rat (-1), pow euler x]]) := by
  refine by_parts_sound exactOracle_exact (n := 30) (m := 30) (integ := fun e => if e = pow euler x then .ok (some (pow euler x)) else .ok none)
    (old := fun _ => false)
    (a := x) (da := rat 1) (w := pow euler x) (c := prod [x, pow euler x]) (g := prod [rat (-1), pow euler x])
    (f := prod [rat (-1), pow x (rat (-1))]) (S := prod [rat (-1), pow euler x]) (iexp ρ) rfl ?_ (diffs ρ (by decide +kernel) 30)
    (by decide +kernel) (by decide +kernel) ⟨⟨?_, ?_, ?_⟩, ?_⟩ (by decide +kernel)
  · intro dv w _ h
    simp only at h
    split at h
    · next hd =>
      cases h
      subst hd
      exact ⟨by simpa [den, pwe] using anti_exp ρ ['x'], by simp [syms]⟩
    · cases h
  · simp [WF, WFL, isAcc, List.filter, baseOk]
  · simp [Regular, DomS, DomSL, HN, den, posed, (Real.exp_pos 1).le]
  · refine ((anti_exp ρ ['x']).deriv.fun_neg.congr_deriv ?_).congr_of_eventuallyEq (.of_forall fun t => ?_) <;>
      simp [posed, den, denP, pwe, fnOf]
  · simp [syms, symsL, posed]

/-- ∫ sin(x) cos(x) dx: the new integrand is the old one times -1. -/
example (ρ : Str → ℝ) (h0 : Real.cos (ρ ['x']) ≠ 0) (h1 : Real.sin (ρ ['x']) ≠ 0) :
    (posed ρ ['x'] X (prod [trig .cos x, trig .sin x])).Solves (prod [rat (-1 / 2), pow (trig .cos x) (rat 2)]) := by
  have he : Integrand ρ X (prod [trig .cos x, trig .sin x]) :=
    ⟨by simp [WF, WFL, isAcc, List.filter], by simp [Regular, DomS, DomSL, TrigFn.ok, TrigFn.inner], by simp [syms, symsL]⟩
  refine by_parts_same_sound_partial exactOracle_exact (n := 30) (integ := checkTable exactOracle 30 ['x']) (old := fun _ => false)
    (a := trig .cos x) (da := prod [rat (-1), trig .sin x]) (w := prod [rat (-1), trig .cos x])
    (c := prod [rat (-1), pow (trig .cos x) (rat 2)]) (g := prod [rat (-1), trig .cos x, trig .sin x]) (f := rat (-1)) he rfl
    (integ_ok_table exactOracle_exact he rfl fun t ht => table ρ ?_) (diffs ρ (by decide +kernel) 30)
    (by decide +kernel) (by decide +kernel) (by decide +kernel) ?_ (by simp; norm_num) (by decide +kernel)
  · simp only [Expr.children, List.mem_cons, List.not_mem_nil, or_false] at ht
    tauto
  · simp [den, denP, TrigFn.real, h0, h1]

/-- ∫ eˣ cos(x) dx: twice by parts. -/
example (ρ : Str → ℝ) (h0 : Real.cos (ρ ['x']) ≠ 0) : (posed ρ ['x'] X (prod [trig .cos x, pow euler x])).Solves
    (sum [prod [rat (1 / 2), pow euler x, trig .sin x], prod [rat (1 / 2), trig .cos x, pow euler x]]) := by
  have he : Integrand ρ X (prod [trig .cos x, pow euler x]) :=
    ⟨by simp [WF, WFL, isAcc, List.filter, baseOk], by
      simp [Regular, DomS, DomSL, TrigFn.ok, TrigFn.inner, HN, den, (Real.exp_pos 1).le], by simp [syms, symsL]⟩
  have he' : Integrand ρ X (prod [pow euler x, trig .sin x]) :=
    ⟨by simp [WF, WFL, isAcc, List.filter, baseOk], by
      simp [Regular, DomS, DomSL, TrigFn.ok, TrigFn.inner, HN, den, (Real.exp_pos 1).le], by simp [syms, symsL]⟩
  refine by_parts_twice_sound_partial exactOracle_exact (n := 30) (m := 30) (integ := checkTable exactOracle 30 ['x'])
    (old₀ := fun _ => false) (old₁ := fun g => beq exactOracle g (prod [trig .cos x, pow euler x]))
    (e₀ := prod [trig .cos x, pow euler x]) (a₀ := trig .cos x) (da₀ := prod [rat (-1), trig .sin x]) (w₀ := pow euler x)
    (c₀ := prod [trig .cos x, pow euler x]) (g₀ := prod [pow euler x, trig .sin x])
    (f₀ := prod [trig .sin x, pow (trig .cos x) (rat (-1))])
    (e₁ := prod [pow euler x, trig .sin x]) (a₁ := trig .sin x) (da₁ := trig .cos x) (w₁ := pow euler x)
    (c₁ := prod [pow euler x, trig .sin x]) (g₁ := prod [rat (-1), trig .cos x, pow euler x])
    (f₁ := prod [rat (-1), trig .cos x, pow (trig .sin x) (rat (-1))])
    (k := rat 1) (s := rat (-1)) (f := rat (-1)) (r₀ := prod [rat (1 / 2), trig .cos x, pow euler x])
    (r₁ := prod [rat (1 / 2), pow euler x, trig .sin x]) (kr₁ := prod [rat (1 / 2), pow euler x, trig .sin x])
    he he' rfl (integ_ok_table exactOracle_exact he rfl fun t ht => table ρ ?_)
    (integ_ok_table exactOracle_exact he' rfl fun t ht => table ρ ?_) (diffs ρ (by decide +kernel) 30)
    (diffs ρ (by decide +kernel) 30) (by decide +kernel) (by decide +kernel) (by decide +kernel) (by decide +kernel)
    (.inl ⟨rfl, rfl⟩) (by decide +kernel) (by decide +kernel) (by decide +kernel) ?_ (by simp; norm_num) (by decide +kernel)
    (by decide +kernel) (by decide +kernel) (by decide +kernel)
  · simp only [Expr.children, List.mem_cons, List.not_mem_nil, or_false] at ht
    tauto
  · simp only [Expr.children, List.mem_cons, List.not_mem_nil, or_false] at ht
    tauto
  · simp [den, denP, TrigFn.real, h0, pwe]

end examples
end Simpy
