import Verif.Proofs.RewriteSound

/-! Integration by parts. -/

namespace Simpy
open Expr Node Filter Topology

variable {O : Oracle}

/-- `u`, `du`, `w` are parts of the integrand `e`: `e = u * dv`, `du` is the derivative of `u` and `dv` that of `w`. -/
structure Parts (ρ : Str → ℝ) (x : Str) (A : Str → Prop) (e u du w : Expr) : Prop where
  iu : Integrand ρ A u
  idu : Integrand ρ A du
  du' : HasDerivAt (fnOf ρ x u) (den ρ du) (ρ x)
  iw : ∃ dv, SolAt ρ x w dv ∧ den ρ e = den ρ u * dv
  wA : ∀ s ∈ syms w, A s

theorem byPartsTry_some {n : Nat} {x : Str} {integ : Expr → R (Option Expr)} {old : Expr → Bool} {e u dv : Expr}
    {r : Expr × Expr × Expr} (h : byPartsTry O n x integ old e u dv = .ok (some r)) :
    ∃ du w, r = (u, du, w) ∧ diffE O n x u = .ok du ∧ integ dv = .ok (some w) := by
  unfold byPartsTry at h
  obtain ⟨p, -, h⟩ := bind_ok.1 h
  split at h
  · have := pure_ok.1 h; cases this
  obtain ⟨du, h1, h⟩ := bind_ok.1 h
  obtain ⟨k, h2, h⟩ := bind_ok.1 h
  cases k with
  | none => have := pure_ok.1 h; cases this
  | some w =>
    simp only at h
    obtain ⟨a, -, h⟩ := bind_ok.1 h
    obtain ⟨g, -, h⟩ := bind_ok.1 h
    obtain ⟨f, -, h⟩ := bind_ok.1 h
    split at h
    · have := pure_ok.1 h; cases this
    · have := pure_ok.1 h
      simp only [Option.some.injEq] at this
      exact ⟨du, w, this.symm, h1, h2⟩

theorem byPartsCheck_ok (hO : O.Exact) {n : Nat} {ρ : Str → ℝ} {x : Str} {A : Str → Prop} {integ : Expr → R (Option Expr)}
    {old : Expr → Bool} {e u du w : Expr} (he : Integrand ρ A e) (hx : A x)
    (hi : ∀ dv w, dv ∈ Expr.children e → integ dv = .ok (some w) → SolAt ρ x w (den ρ dv) ∧ ∀ s ∈ syms w, A s)
    (hd : ∀ t, t = e ∨ t ∈ Expr.children e → DiffOk O ρ x n t) (h : byPartsCheck O n x integ old e = .ok (some (u, du, w))) :
    Parts ρ x A e u du w := by
  have gen : (if logOrInverse O x e then do
      let du ← diffE O n x e
      return some (e, du, sym x)
    else .ok none : R (Option (Expr × Expr × Expr))) = .ok (some (u, du, w)) → Parts ρ x A e u du w := by
    clear h
    intro h
    split at h
    · obtain ⟨d, h1, h⟩ := bind_ok.1 h
      have := pure_ok.1 h
      simp only [Option.some.injEq, Prod.mk.injEq] at this
      obtain ⟨rfl, rfl, rfl⟩ := this
      have hdd := diff_sound hO n he.wf he.reg (hd _ (.inl rfl)) h1
      refine ⟨he, ⟨hdd.wf, hdd.dom, Adm.diffE (adm_syms O A) n he.scope h1⟩, hdd.deriv, ⟨1, ⟨by simp [WF], by simp [DomS], ?_⟩, by simp⟩,
        by simpa [syms] using hx⟩
      have : fnOf ρ x (sym x) = fun t => t := by funext t; simp [fnOf, den]
      rw [this]; exact hasDerivAt_id _
    · cases h
  have two : ∀ {a b : Expr} {r : Expr × Expr × Expr}, WF a → WF b → Regular ρ a → Regular ρ b → (∀ s ∈ syms a, A s) →
      a ∈ Expr.children e → b ∈ Expr.children e → den ρ e = den ρ a * den ρ b →
      byPartsTry O n x integ old e a b = .ok (some r) → Parts ρ x A e r.1 r.2.1 r.2.2 := by
    intro a b r wa wb ra rb ha ma mb hv h
    obtain ⟨du, w, rfl, h1, h2⟩ := byPartsTry_some h
    have hdd := diff_sound hO n wa ra (hd _ (.inr ma)) h1
    obtain ⟨hw, hA⟩ := hi b w mb h2
    exact ⟨⟨wa, ra, ha⟩, ⟨hdd.wf, hdd.dom, Adm.diffE (adm_syms O A) n ha h1⟩, hdd.deriv, ⟨_, hw, hv⟩, hA⟩
  unfold byPartsCheck at h
  split at h
  · next a b =>
    obtain ⟨k, h1, h⟩ := bind_ok.1 h
    have wf := (WF_prod.1 he.wf).2
    have dm := Dom_prod.1 he.reg
    have sc : ∀ t ∈ [a, b], ∀ s ∈ syms t, A s := fun t ht s hs => he.scope s (by
      simp only [syms, symsL_mem]; exact ⟨t, ht, hs⟩)
    have hv : den ρ (prod [a, b]) = den ρ a * den ρ b := by rw [den_prod]; simp
    cases k with
    | some r =>
      have := pure_ok.1 h
      simp only [Option.some.injEq] at this
      subst this
      exact two (wf a (by simp)) (wf b (by simp)) (dm a (by simp)) (dm b (by simp)) (sc a (by simp)) (by simp [Expr.children])
        (by simp [Expr.children]) hv h1
    | none =>
      exact two (wf b (by simp)) (wf a (by simp)) (dm b (by simp)) (dm a (by simp)) (sc b (by simp)) (by simp [Expr.children])
        (by simp [Expr.children]) (by rw [hv, mul_comm]) h
  · cases h
  · exact gen h

/-- The product rule: the product of the parts is an antiderivative of the difference of the integrands. -/
theorem byPartsParts_ok (hO : O.Exact) {n : Nat} {ρ : Str → ℝ} {x : Str} {A : Str → Prop} {e u du w c g f : Expr}
    (hp : Parts ρ x A e u du w) (h : byPartsParts O n e u du w = .ok (c, g, f)) :
    SolAt ρ x c (den ρ e - den ρ g) ∧ (∀ s ∈ syms c, A s) ∧ Integrand ρ A g ∧ opDiv (ctors O n) g e = .ok f := by
  have hC := ctors_sound hO n
  have hE := (adm_syms O A).toAdmE
  obtain ⟨dv, hw, hv⟩ := hp.iw
  unfold byPartsParts at h
  obtain ⟨c', h1, h⟩ := bind_ok.1 h
  obtain ⟨a, h2, h⟩ := bind_ok.1 h
  obtain ⟨g', h3, h⟩ := bind_ok.1 h
  obtain ⟨f', h4, h⟩ := bind_ok.1 h
  have := pure_ok.1 h
  simp only [Prod.mk.injEq] at this
  obtain ⟨rfl, rfl, rfl⟩ := this
  have hg := Val.mul hC (Val.mul hC (.self hp.idu.wf hp.idu.reg) (.self hw.wf hw.reg) h2) (Val.rat (-1)) h3
  refine ⟨⟨opMul_W hC hp.iu.wf hw.wf h1, (opMul_V hC hp.iu.wf hw.wf hp.iu.reg hw.reg h1).2, ?_⟩, hE.opMul hp.iu.scope hp.wA h1,
    ⟨hg.1, hg.2.1, hE.opMul (hE.opMul hp.idu.scope hp.wA h2) (hE.rat _) h3⟩, h4⟩
  have hval : (fnOf ρ x c') =ᶠ[𝓝 (ρ x)] fun t => fnOf ρ x u t * fnOf ρ x w t := by
    have n1 : ∀ᶠ t in 𝓝 (ρ x), DomS true (upd ρ x t) u := (openAt (v := x) u hp.iu.reg).2.1
    have n2 : ∀ᶠ t in 𝓝 (ρ x), DomS true (upd ρ x t) w := (openAt (v := x) w hw.reg).2.1
    filter_upwards [n1, n2] with t d1 d2
    exact (opMul_V hC hp.iu.wf hw.wf d1 d2 h1).1
  refine HasDerivAt.congr_of_eventuallyEq ((hp.du'.fun_mul hw.deriv).congr_deriv ?_) hval
  have e1 : fnOf ρ x w (ρ x) = den ρ w := by simp [fnOf]
  have e2 : fnOf ρ x u (ρ x) = den ρ u := by simp [fnOf]
  rw [e1, e2, hv, hg.2.2]
  push_cast
  ring

/-- `c / (1 - f)` with a constant `f`. -/
theorem byPartsSolution_ok (hO : O.Exact) {n : Nat} {ρ : Str → ℝ} {x : Str} {A : Str → Prop} {c f r : Expr} {τ : ℝ}
    (hc : SolAt ρ x c τ) (cA : ∀ s ∈ syms c, A s) (hf : Integrand ρ A f) (hx : x ∉ syms f) (h1 : den ρ f ≠ 1)
    (h : byPartsSolution (ctors O n) c f = .ok r) : SolAt ρ x r (τ / (1 - den ρ f)) ∧ ∀ s ∈ syms r, A s := by
  have hC := ctors_sound hO n
  have hE := (adm_syms O A).toAdmE
  unfold byPartsSolution at h
  obtain ⟨d, h2, h⟩ := bind_ok.1 h
  have val : ∀ {σ : Str → ℝ}, DomS true σ c → DomS true σ f → den σ f = den ρ f → Val true σ r (den σ c / (1 - den ρ f)) := by
    intro σ d1 d2 hv
    exact .div hC (.self hc.wf d1) ((Val.sub hC .one (.self hf.wf d2) h2).congr (by rw [hv]))
      (sub_ne_zero.2 h1.symm) h
  obtain ⟨w, d', -⟩ := val hc.reg hf.reg rfl
  refine ⟨⟨w, d', ?_⟩, hE.opDiv cA (hE.opSub (hE.rat _) hf.scope h2) h⟩
  have hval : (fnOf ρ x r) =ᶠ[𝓝 (ρ x)] fun t => fnOf ρ x c t / (1 - den ρ f) := by
    have n1 : ∀ᶠ t in 𝓝 (ρ x), DomS true (upd ρ x t) c := (openAt (v := x) c hc.reg).2.1
    have n2 : ∀ᶠ t in 𝓝 (ρ x), DomS true (upd ρ x t) f := (openAt (v := x) f hf.reg).2.1
    filter_upwards [n1, n2] with t d1 d2
    exact (val d1 d2 (den_upd_free hx t)).2.2
  exact HasDerivAt.congr_of_eventuallyEq (hc.deriv.div_const _) hval

theorem byPartsFactor_ok (hO : O.Exact) {n : Nat} {ρ : Str → ℝ} {A : Str → Prop} {e g f : Expr} (he : Integrand ρ A e)
    (hg : Integrand ρ A g) (h0 : den ρ e ≠ 0) (h : opDiv (ctors O n) g e = .ok f) :
    Integrand ρ A f ∧ den ρ g = den ρ f * den ρ e := by
  have hC := ctors_sound hO n
  obtain ⟨w, d, v⟩ := Val.div hC (.self hg.wf hg.reg) (.self he.wf he.reg) h0 h
  refine ⟨⟨w, d, (adm_syms O A).toAdmE.opDiv hg.scope he.scope h⟩, ?_⟩
  rw [v]; field_simp

end Simpy
