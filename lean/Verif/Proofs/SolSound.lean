import Verif.Proofs.TableSound
import Verif.Proofs.ReplaceSound
import Verif.Proofs.Backward

/-! The backward steps of the transforms: scaling, adding, substituting. -/

namespace Simpy
open Expr Filter Topology

variable {O : Oracle}

mutual
theorem HN_congr {ρ ρ' : Str → ℝ} : ∀ e : Expr, (∀ s ∈ syms e, ρ s = ρ' s) → HN ρ e → HN ρ' e := by
  intro e h hn
  cases e with
  | pow b x => exact HN_congr b (fun s hs => h s (by simp [syms, hs])) hn
  | prod ts =>
    simp only [HN] at hn ⊢
    split
    · next hsub =>
      rw [if_pos hsub] at hn
      rwa [← denP_congr ts (by simpa [syms] using h)]
    · next hsub =>
      rw [if_neg hsub] at hn
      exact HNL_congr ts (by simpa [syms] using h) hn
  | _ =>
    simp only [HN] at hn ⊢
    rwa [← den_congr _ h]
theorem HNL_congr {ρ ρ' : Str → ℝ} : ∀ ts : List Expr, (∀ s ∈ symsL ts, ρ s = ρ' s) → HNL ρ ts → HNL ρ' ts := by
  intro ts h hn
  cases ts with
  | nil => trivial
  | cons t r => exact ⟨HN_congr t (fun s hs => h s (by simp [symsL, hs])) hn.1,
      HNL_congr r (fun s hs => h s (by simp [symsL, hs])) hn.2⟩
end

mutual
theorem DomS_congr {st : Bool} {ρ ρ' : Str → ℝ} : ∀ e : Expr, (∀ s ∈ syms e, ρ s = ρ' s) → DomS st ρ e → DomS st ρ' e := by
  intro e h hd
  cases e with
  | sum ts => exact DomSL_congr ts (by simpa [syms] using h) hd
  | prod ts => exact DomSL_congr ts (by simpa [syms] using h) hd
  | pow b x =>
    have hb : ∀ s ∈ syms b, ρ s = ρ' s := fun s hs => h s (by simp [syms, hs])
    have hx : ∀ s ∈ syms x, ρ s = ρ' s := fun s hs => h s (by simp [syms, hs])
    obtain ⟨a, b', c, d, f⟩ := hd
    rw [den_congr b hb, den_congr x hx] at c f
    exact ⟨DomS_congr b hb a, DomS_congr x hx b', c, fun hi => HN_congr b hb (d hi), f⟩
  | log i b =>
    have hi : ∀ s ∈ syms i, ρ s = ρ' s := fun s hs => h s (by simp [syms, hs])
    have hb : ∀ s ∈ syms b, ρ s = ρ' s := fun s hs => h s (by simp [syms, hs])
    obtain ⟨a, b', c, d, f, g⟩ := hd
    rw [den_congr i hi] at d
    rw [den_congr b hb] at f g
    exact ⟨DomS_congr i hi a, DomS_congr b hb b', HN_congr i hi c, d, f, g⟩
  | trig f i =>
    have hi : ∀ s ∈ syms i, ρ s = ρ' s := by simpa [syms] using h
    obtain ⟨a, b, c⟩ := hd
    rw [den_congr i hi] at b c
    exact ⟨DomS_congr i hi a, b, c⟩
  | absv i =>
    have hi : ∀ s ∈ syms i, ρ s = ρ' s := by simpa [syms] using h
    obtain ⟨a, b⟩ := hd
    rw [den_congr i hi] at b
    exact ⟨DomS_congr i hi a, b⟩
  | _ => exact hd
theorem DomSL_congr {st : Bool} {ρ ρ' : Str → ℝ} : ∀ ts : List Expr, (∀ s ∈ symsL ts, ρ s = ρ' s) → DomSL st ρ ts → DomSL st ρ' ts := by
  intro ts h hd
  cases ts with
  | nil => trivial
  | cons t r => exact ⟨DomS_congr t (fun s hs => h s (by simp [symsL, hs])) hd.1,
      DomSL_congr r (fun s hs => h s (by simp [symsL, hs])) hd.2⟩
end

/-- The substitution of `U` for `u` in `S` is principal wherever `U` and the substituted `S` are regular. -/
def SubstOk (O : Oracle) (n : Nat) (u : Str) (U S : Expr) : Prop :=
  ∀ σ, DomS true σ U → DomS true (upd σ u (den σ U)) S → RepOk O true σ (replacePerf O (sym u) U) n S

theorem beq_sym_iff {O : Oracle} {b : Expr} {u : Str} : beq O b (sym u) = true ↔ b = sym u := by
  cases b <;> simp [beq]

theorem perfOk_subst {st : Bool} {σ : Str → ℝ} {u : Str} {U : Expr} (wU : WF U) (dU : DomS st σ U) :
    PerfOk st σ (upd σ u (den σ U)) (replacePerf O (sym u) U) := by
  refine ⟨?_, ?_, ?_⟩
  · intro k b w wb db hb
    simp only [replacePerf, Except.ok.injEq] at hb
    split at hb
    · next hbo =>
      cases hb
      rw [beq_sym_iff.1 hbo]
      exact ⟨wU, dU, by simp [den]⟩
    · cases hb
  · intro k b wb db hb
    simp only [replacePerf, Except.ok.injEq] at hb
    split at hb <;> cases hb
  · intro k s hb
    by_cases hs : s = u
    · subst hs
      simp [replacePerf, beq] at hb
    · simp [hs]

/-- `replace(S, u, U)` at a point. -/
theorem subst_at (hO : O.Exact) {n : Nat} {σ : Str → ℝ} {u : Str} {U S r : Expr} (wS : WF S) (wU : WF U)
    (dU : DomS true σ U) (dS : DomS true (upd σ u (den σ U)) S) (ok : SubstOk O n u U S)
    (h : replaceOld O n S (sym u) U = .ok r) : WF r ∧ DomS true σ r ∧ den σ r = den (upd σ u (den σ U)) S :=
  replace_sound hO (perfOk_subst wU dU) n wS dS (ok σ dU dS) h

/-- The backward step of a u-substitution: the chain rule. -/
theorem usub_back (hO : O.Exact) {n : Nat} {ρ : Str → ℝ} {u v : Str} {U S r : Expr} {τ U' : ℝ} (wU : WF U)
    (dU : DomS true ρ U) (hU : HasDerivAt (fnOf ρ v U) U' (ρ v)) (hS : SolAt (upd ρ u (den ρ U)) u S τ)
    (hv : v ∉ syms S) (ok : SubstOk O n u U S) (h : replaceOld O n S (sym u) U = .ok r) : SolAt ρ v r (τ * U') := by
  obtain ⟨w, d, -⟩ := subst_at hO hS.wf wU dU hS.reg ok h
  refine ⟨w, d, ?_⟩
  -- nearby points
  have agree : ∀ t x, ∀ s ∈ syms S, upd (upd ρ u (den ρ U)) u x s = upd (upd ρ v t) u x s := by
    intro t x s hs
    have hsv : s ≠ v := fun h => hv (h ▸ hs)
    by_cases hsu : s = u
    · subst hsu; simp
    · simp [upd, hsu, hsv]
  obtain ⟨cU, nU, -⟩ := openAt (v := v) U dU
  obtain ⟨-, nS, -⟩ := openAt (v := u) S hS.reg
  have hnS : ∀ᶠ x in 𝓝 (den ρ U), DomS true (upd (upd ρ u (den ρ U)) u x) S := by
    have := nS
    unfold Near at this
    simpa using this
  have cU' : Tendsto (fun t => den (upd ρ v t) U) (𝓝 (ρ v)) (𝓝 (den ρ U)) := by
    have := cU
    unfold ContAt ContinuousAt at this
    simpa using this
  have hdS : ∀ᶠ t in 𝓝 (ρ v), DomS true (upd (upd ρ v t) u (den (upd ρ v t) U)) S := by
    filter_upwards [cU'.eventually hnS] with t ht
    exact DomS_congr S (agree t _) ht
  have hval : (fnOf ρ v r) =ᶠ[𝓝 (ρ v)] (fnOf (upd ρ u (den ρ U)) u S) ∘ (fnOf ρ v U) := by
    have nU' : ∀ᶠ t in 𝓝 (ρ v), DomS true (upd ρ v t) U := nU
    filter_upwards [hdS, nU'] with t h1 h2
    have := (subst_at hO hS.wf wU h2 h1 ok h).2.2
    change den (upd ρ v t) r = den (upd (upd ρ u (den ρ U)) u (den (upd ρ v t) U)) S
    rw [this]
    exact (den_congr S (agree t _)).symm
  refine HasDerivAt.congr_of_eventuallyEq ?_ hval
  have hS' : HasDerivAt (fnOf (upd ρ u (den ρ U)) u S) τ (fnOf ρ v U (ρ v)) := by
    have := hS.deriv
    simpa [fnOf] using this
  exact hS'.comp (ρ v) hU

/-- The backward step of PullConstant. -/
theorem pull_back (hO : O.Exact) {n : Nat} {ρ : Str → ℝ} {v : Str} {c S r : Expr} {τ : ℝ} (wc : WF c) (dc : DomS true ρ c)
    (hv : v ∉ syms c) (hS : SolAt ρ v S τ) (h : opMul (ctors O n) c S = .ok r) : SolAt ρ v r (den ρ c * τ) := by
  have hC := ctors_sound hO n
  refine ⟨opMul_W hC wc hS.wf h, (opMul_V hC wc hS.wf dc hS.reg h).2, ?_⟩
  have hval : (fnOf ρ v r) =ᶠ[𝓝 (ρ v)] fun t => den ρ c * fnOf ρ v S t := by
    have n1 : ∀ᶠ t in 𝓝 (ρ v), DomS true (upd ρ v t) c := (openAt (v := v) c dc).2.1
    have n2 : ∀ᶠ t in 𝓝 (ρ v), DomS true (upd ρ v t) S := (openAt (v := v) S hS.reg).2.1
    filter_upwards [n1, n2] with t h1 h2
    have := (opMul_V hC wc hS.wf h1 h2 h).1
    change den (upd ρ v t) r = den ρ c * den (upd ρ v t) S
    rw [this, den_upd_free hv]
  exact HasDerivAt.congr_of_eventuallyEq (hS.deriv.const_mul _) hval

theorem hasDerivAt_list {ρ : Str → ℝ} {v : Str} : ∀ {ss : List Expr} {τs : List ℝ},
    List.Forall₂ (fun S τ => SolAt ρ v S τ) ss τs → HasDerivAt (fun t => (ss.map (den (upd ρ v t))).sum) τs.sum (ρ v)
  | _, _, .nil => by simpa using hasDerivAt_const _ _
  | _, _, .cons h r => by
    simp only [List.map_cons, List.sum_cons]
    exact h.deriv.add (hasDerivAt_list r)

/-- The backward step of Additivity. -/
theorem add_back (hO : O.Exact) {n : Nat} {ρ : Str → ℝ} {v : Str} {ss : List Expr} {r : Expr} {τs : List ℝ}
    (hS : List.Forall₂ (fun S τ => SolAt ρ v S τ) ss τs) (h : (ctors O n).sum ss = .ok r) : SolAt ρ v r τs.sum := by
  have hC := ctors_sound hO n
  have hm : ∀ S ∈ ss, ∃ τ, SolAt ρ v S τ := fun S hS' => by
    exact forall₂_mem (P := fun S => ∃ τ, SolAt ρ v S τ) hS.flip (fun τ _ S h => ⟨τ, h⟩) S hS'
  have ws : ∀ S ∈ ss, WF S := fun S h => (hm S h).choose_spec.wf
  refine ⟨hC.sumW ss r ws h, (hC.sum ρ ss r ws (fun S h => (hm S h).choose_spec.reg) h).2, ?_⟩
  have hval : (fnOf ρ v r) =ᶠ[𝓝 (ρ v)] fun t => (ss.map (den (upd ρ v t))).sum := by
    have n1 : ∀ᶠ t in 𝓝 (ρ v), ∀ S ∈ ss, DomS true (upd ρ v t) S :=
      (near_all (P := fun σ S => DomS true σ S) fun S hS' => (openAt (v := v) S (hm S hS').choose_spec.reg).2.1)
    filter_upwards [n1] with t h1
    exact (hC.sum (upd ρ v t) ss r ws h1 h).1
  exact HasDerivAt.congr_of_eventuallyEq (hasDerivAt_list hS) hval

theorem substOk_of_tame (hO : O.Exact) {n : Nat} {u : Str} {U S : Expr} (wS : WF S) (wU : WF U)
    (ht : TameR (sym u) U S = true) : SubstOk O n u U S := fun _ dU dS =>
  repOk_of_tame hO (perfOk_subst wU dU) (by intro k q; simp [replacePerf, beq]) n wS dS
    (replacePerf_tame (fun _ _ => beq_sym_iff) dS.noFlt ht)

/-- `replace(S, u, U)` has no other symbols than those of `U` and those of `S` other than `u`. -/
theorem subst_syms {u : Str} {U : Expr} {A : Str → Prop} (hU : ∀ s ∈ syms U, A s) : ∀ {n : Nat} {S r : Expr},
    (∀ s ∈ syms S, s = u ∨ A s) → replaceOld O n S (sym u) U = .ok r → ∀ s ∈ syms r, A s
  | 0, _, _, _, h => by simp [replaceOld, replaceE] at h
  | n + 1, e, r, he, h => by
    have hP := ctors_pres (closed_syms A) O n
    have hA := adm_syms O A
    have ih := fun {e r : Expr} => subst_syms (u := u) hU (n := n) (S := e) (r := r)
    unfold replaceOld replaceE at h
    obtain ⟨v, hv, h⟩ := bind_ok.1 h
    simp only [replacePerf, Except.ok.injEq] at hv
    split at hv
    · subst hv; simp only [Except.ok.injEq] at h; subst h; exact hU
    next hne =>
    subst hv
    cases e with
    | sum ts =>
      obtain ⟨us, h1, h⟩ := bind_ok.1 h
      refine hP.sum us r (mapR_mem h1 fun t ht w hw => ih (fun s hs => he s ?_) hw) h
      simp only [syms, symsL_mem]; exact ⟨t, ht, hs⟩
    | prod ts =>
      obtain ⟨us, h1, h⟩ := bind_ok.1 h
      refine hP.prod us r (mapR_mem h1 fun t ht w hw => ih (fun s hs => he s ?_) hw) h
      simp only [syms, symsL_mem]; exact ⟨t, ht, hs⟩
    | pow b x =>
      obtain ⟨b', h1, h⟩ := bind_ok.1 h
      obtain ⟨x', h2, h⟩ := bind_ok.1 h
      exact hP.pow b' x' r (ih (fun s hs => he s (by simp [syms, hs])) h1) (ih (fun s hs => he s (by simp [syms, hs])) h2) h
    | log i b =>
      obtain ⟨i', h1, h⟩ := bind_ok.1 h
      obtain ⟨b', h2, h⟩ := bind_ok.1 h
      exact hA.plog (ih (fun s hs => he s (by simp [syms, hs])) h1) (ih (fun s hs => he s (by simp [syms, hs])) h2) h
    | trig f i =>
      obtain ⟨i', h1, h⟩ := bind_ok.1 h
      exact hA.ptrig n f (ih (fun s hs => he s (by simp [syms, hs])) h1) h
    | absv i =>
      obtain ⟨i', h1, h⟩ := bind_ok.1 h
      exact hP.abs i' r (ih (fun s hs => he s (by simp [syms, hs])) h1) h
    | sym s =>
      simp only [Except.ok.injEq] at h
      subst h
      intro s' hs'
      refine (he s' hs').resolve_left ?_
      rintro rfl
      simp only [syms, List.mem_singleton] at hs'
      subst hs'
      simp [beq] at hne
    | _ => simp only [Except.ok.injEq] at h; subst h; simp [syms]

namespace Node

/-- The backward step of any transform but Additivity. -/
theorem reduces_back (hO : O.Exact) (n : Nat) {g : Goal} {h : Nat → Goal} {i k : Nat} {tr : Transf} (hr : Reduces g h i k tr)
    (hna : tr ≠ .additivity) {S r : Expr} (hS : (h i).Solves S) (ok : ∀ q, usubOf tr = some q → SubstOk O n (h i).v q S)
    (hb : backStep O n tr (h i).v S = .ok r) : g.Solves r := by
  have usub : ∀ q, Reduces g h i k (.genericUSub q) → SubstOk O n (h i).v q S →
      replaceOld O n S (sym (h i).v) q = .ok r → g.Solves r := by
    rintro q ⟨w, d, hq, h1, h2, h3, q', h4, h5⟩ ok hb
    obtain ⟨hS, hA⟩ := hS
    refine ⟨?_, subst_syms hq (fun s hs => h3 s (hA s hs)) hb⟩
    rw [h5]
    rw [h1] at hS
    exact usub_back hO w d h4 hS (fun hm => h2 (hA _ hm)) ok hb
  have same : (h i).ρ = g.ρ ∧ (h i).v = g.v ∧ (∀ s, (h i).allowed s → g.allowed s) ∧ g.τ = (h i).τ →
      (Except.ok S : R Expr) = .ok r → g.Solves r := by
    rintro ⟨h1, h2, h3, h4⟩ hb
    obtain ⟨hS, hA⟩ := hS
    cases hb
    rw [h1, h2, ← h4] at hS
    exact ⟨hS, fun s hs => h3 s (hA s hs)⟩
  cases tr with
  | additivity => exact absurd rfl hna
  | pullConstant c =>
    obtain ⟨w, d, hv, hq, h1, h2, h3, h4⟩ := hr
    obtain ⟨hS, hA⟩ := hS
    rw [h1, h2] at hS
    refine ⟨?_, ?_⟩
    · rw [h4]; exact pull_back hO w d hv hS hb
    · exact opMul_G ((closed_syms g.allowed).g O) (ctors_pres (closed_syms g.allowed) O n) hq
        (fun s hs => h3 s (hA s hs)) hb
  | trigUSub2 q => exact usub q hr (ok q rfl) hb
  | inverseTrigUSub q => exact usub q hr (ok q rfl) hb
  | polynomialUSub q => exact usub q hr (ok q rfl) hb
  | linearUSub q => exact usub q hr (ok q rfl) hb
  | genericUSub q => exact usub q hr (ok q rfl) hb
  | _ => exact same hr hb

/-- The backward step of Additivity. -/
theorem reduces_back_add (hO : O.Exact) (n : Nat) {g : Goal} {h : Nat → Goal} {i k : Nat} (hr : Reduces g h i k .additivity)
    {ss : List Expr} {r : Expr} (hl : ss.length = k) (hs : ∀ j S, ss[j]? = some S → (h j).Solves S)
    (hb : (ctors O n).sum ss = .ok r) : g.Solves r := by
  obtain ⟨h1, h2⟩ := hr
  have hj : ∀ j S, ss[j]? = some S → j < k := fun j S hj => by
    by_contra hn
    rw [List.getElem?_eq_none (by omega)] at hj
    cases hj
  have hss : ∀ j S, ss[j]? = some S → SolAt g.ρ g.v S (h j).τ := fun j S hjS => by
    obtain ⟨a, b, -⟩ := h1 j (hj j S hjS)
    have := (hs j S hjS).1
    rwa [a, b] at this
  have hf : List.Forall₂ (fun S τ => SolAt g.ρ g.v S τ) ss ((List.range k).map fun j => (h j).τ) := by
    rw [List.forall₂_iff_get]
    refine ⟨by simp [hl], fun j a b => ?_⟩
    have := hss j ss[j] (List.getElem?_eq_getElem a)
    simpa using this
  refine ⟨?_, ?_⟩
  · rw [h2]; exact add_back hO hf hb
  · have : ∀ S ∈ ss, ∀ s ∈ syms S, g.allowed s := by
      intro S hS s hs'
      obtain ⟨j, hjS⟩ := List.getElem?_of_mem hS
      exact (h1 j (hj j S hjS)).2.2 s ((hs j S hjS).2 s hs')
    exact (ctors_pres (closed_syms g.allowed) O n).sum ss r this hb

/-- The backward steps of a faithful tree are sound. -/
theorem faithful_steps (hO : O.Exact) (n : Nat) {G : List Nat → Goal} {t : Node} (hG : Faithful G t) :
    StepsSound O n (SubstOk O n) (fun p => (G p).Solves) t.Used t := by
  intro p N i c tr hN hc htr hu
  obtain ⟨hv, hr⟩ := hG p N i c tr hN hc htr hu
  rw [hv]
  cases tr
  case additivity => exact fun ss r hl hs h => reduces_back_add hO n hr hl hs h
  all_goals exact fun S r hS ok h => reduces_back hO n hr (by simp) hS ok h

end Node
end Simpy
