import Verif.Proofs.PowSound2
import Mathlib.Analysis.SpecialFunctions.Pow.Deriv

/-! The strict domain is open along each variable and `den` is continuous there. -/

namespace Simpy
open Expr Filter Topology

/-- The assignment `ρ` with the value of `v` replaced by `t`. -/
noncomputable abbrev upd (ρ : Str → ℝ) (v : Str) (t : ℝ) : Str → ℝ := Function.update ρ v t

@[simp] theorem upd_self (ρ : Str → ℝ) (v : Str) : upd ρ v (ρ v) = ρ := Function.update_eq_self v ρ

/-- Continuity of `den` at `ρ` along `v`. -/
def ContAt (ρ : Str → ℝ) (v : Str) (e : Expr) : Prop := ContinuousAt (fun t => den (upd ρ v t) e) (ρ v)

/-- Eventually along `v` near `ρ`. -/
def Near (ρ : Str → ℝ) (v : Str) (P : (Str → ℝ) → Prop) : Prop := ∀ᶠ t in 𝓝 (ρ v), P (upd ρ v t)

theorem Near.and {ρ : Str → ℝ} {v : Str} {P Q : (Str → ℝ) → Prop} (h : Near ρ v P) (k : Near ρ v Q) :
    Near ρ v (fun σ => P σ ∧ Q σ) := Filter.Eventually.and h k

theorem Near.mono {ρ : Str → ℝ} {v : Str} {P Q : (Str → ℝ) → Prop} (h : Near ρ v P) (k : ∀ σ, P σ → Q σ) :
    Near ρ v Q := Filter.Eventually.mono h fun t ht => k _ ht

theorem Near.of {ρ : Str → ℝ} {v : Str} {P : (Str → ℝ) → Prop} (h : ∀ σ, P σ) : Near ρ v P :=
  Filter.Eventually.of_forall fun _ => h _

theorem ContAt.near {ρ : Str → ℝ} {v : Str} {e : Expr} (h : ContAt ρ v e) {U : Set ℝ} (hU : IsOpen U)
    (hx : den ρ e ∈ U) : Near ρ v (fun σ => den σ e ∈ U) := by
  have := h.preimage_mem_nhds (hU.mem_nhds (by simpa using hx))
  exact this

theorem ContAt.near_ne {ρ : Str → ℝ} {v : Str} {e : Expr} (h : ContAt ρ v e) {a : ℝ} (hx : den ρ e ≠ a) :
    Near ρ v (fun σ => den σ e ≠ a) := h.near (U := {a}ᶜ) isOpen_compl_singleton hx

theorem ContAt.near_pos {ρ : Str → ℝ} {v : Str} {e : Expr} (h : ContAt ρ v e) (hx : 0 < den ρ e) :
    Near ρ v (fun σ => 0 < den σ e) := h.near (U := Set.Ioi 0) isOpen_Ioi hx

theorem ContAt.comp {ρ : Str → ℝ} {v : Str} {e : Expr} (h : ContAt ρ v e) {g : ℝ → ℝ}
    (hg : ContinuousAt g (den ρ e)) : ContinuousAt (fun t => g (den (upd ρ v t) e)) (ρ v) := by
  refine ContinuousAt.comp (f := fun t => den (upd ρ v t) e) (g := g) ?_ h
  simpa using hg

theorem TrigFn.contAt {f : TrigFn} {t : ℝ} (hok : f.ok t) : ContinuousAt f.real t := by
  cases f <;> simp only [TrigFn.ok] at hok
  · exact Real.continuous_sin.continuousAt
  · exact Real.continuous_cos.continuousAt
  · exact Real.continuous_sin.continuousAt.div Real.continuous_cos.continuousAt hok
  · exact continuousAt_const.div Real.continuous_sin.continuousAt hok
  · exact continuousAt_const.div Real.continuous_cos.continuousAt hok
  · exact Real.continuous_cos.continuousAt.div Real.continuous_sin.continuousAt hok
  · exact Real.continuous_arcsin.continuousAt
  · exact Real.continuous_arccos.continuousAt
  · exact Real.continuous_arctan.continuousAt

theorem TrigFn.okOpen {f : TrigFn} {ρ : Str → ℝ} {v : Str} {e : Expr} (hc : ContAt ρ v e) (hok : f.ok (den ρ e))
    (hin : f.inner (den ρ e)) : Near ρ v (fun σ => f.ok (den σ e) ∧ (true = true → f.inner (den σ e))) := by
  have open' : ∀ (U : Set ℝ), IsOpen U → den ρ e ∈ U → (∀ x ∈ U, f.ok x ∧ f.inner x) →
      Near ρ v (fun σ => f.ok (den σ e) ∧ (true = true → f.inner (den σ e))) := fun U h1 h2 h3 =>
    (hc.near h1 h2).mono fun σ h => ⟨(h3 _ h).1, fun _ => (h3 _ h).2⟩
  cases f
  case asin => exact open' (Set.Ioo (-1) 1) isOpen_Ioo hin (fun x hx => ⟨⟨hx.1.le, hx.2.le⟩, hx⟩)
  case acos => exact open' (Set.Ioo (-1) 1) isOpen_Ioo hin (fun x hx => ⟨⟨hx.1.le, hx.2.le⟩, hx⟩)
  case tan =>
    have hU : IsOpen {x : ℝ | Real.cos x ≠ 0} := isOpen_compl_singleton.preimage Real.continuous_cos
    exact open' _ hU hok (fun x hx => ⟨hx, trivial⟩)
  case sec =>
    have hU : IsOpen {x : ℝ | Real.cos x ≠ 0} := isOpen_compl_singleton.preimage Real.continuous_cos
    exact open' _ hU hok (fun x hx => ⟨hx, trivial⟩)
  case csc =>
    have hU : IsOpen {x : ℝ | Real.sin x ≠ 0} := isOpen_compl_singleton.preimage Real.continuous_sin
    exact open' _ hU hok (fun x hx => ⟨hx, trivial⟩)
  case cot =>
    have hU : IsOpen {x : ℝ | Real.sin x ≠ 0} := isOpen_compl_singleton.preimage Real.continuous_sin
    exact open' _ hU hok (fun x hx => ⟨hx, trivial⟩)
  all_goals exact Near.of fun σ => ⟨trivial, fun _ => trivial⟩

theorem near_all {ρ : Str → ℝ} {v : Str} {P : (Str → ℝ) → Expr → Prop} : ∀ {ts : List Expr},
    (∀ t ∈ ts, Near ρ v (fun σ => P σ t)) → Near ρ v (fun σ => ∀ t ∈ ts, P σ t)
  | [], _ => Near.of (by simp)
  | t :: r, h => ((h t (by simp)).and (near_all (ts := r) (fun u hu => h u (by simp [hu])))).mono fun σ hσ u hu => by
    rcases List.mem_cons.1 hu with rfl | hu
    · exact hσ.1
    · exact hσ.2 u hu

theorem contAt_prod {ρ : Str → ℝ} {v : Str} : ∀ {ts : List Expr}, (∀ t ∈ ts, ContAt ρ v t) → ContAt ρ v (prod ts)
  | [], _ => by simp only [ContAt, den, denP]; exact continuousAt_const
  | t :: r, h => by
    have h1 := h t (by simp)
    have h2 := contAt_prod (ts := r) (fun u hu => h u (by simp [hu]))
    simp only [ContAt, den, denP] at h1 h2 ⊢
    exact h1.mul h2

theorem contAt_sum {ρ : Str → ℝ} {v : Str} : ∀ {ts : List Expr}, (∀ t ∈ ts, ContAt ρ v t) → ContAt ρ v (sum ts)
  | [], _ => by simp only [ContAt, den, denS]; exact continuousAt_const
  | t :: r, h => by
    have h1 := h t (by simp)
    have h2 := contAt_sum (ts := r) (fun u hu => h u (by simp [hu]))
    simp only [ContAt, den, denS] at h1 h2 ⊢
    exact h1.add h2

theorem contAt_pow {ρ : Str → ℝ} {v : Str} {b x : Expr} (hb : ContAt ρ v b) (hx : ContAt ρ v x)
    (h : DomS true ρ (pow b x)) : ContAt ρ v (pow b x) := by
  obtain ⟨_, _, _, h4, h5⟩ := h
  cases hi : intExp x with
  | true =>
    obtain ⟨n, rfl⟩ := intExp_iff.1 hi
    have : ∀ t, den (upd ρ v t) (pow b (rat n)) = (den (upd ρ v t) b) ^ n := by
      intro t; simp only [den, Rat.cast_intCast]; exact pw_int _ _
    simp only [ContAt, this]
    refine ContinuousAt.zpow₀ hb n ?_
    rcases h5 rfl with h5 | ⟨-, h5⟩
    · left; simpa using h5
    · right
      have : (1 : ℝ) ≤ n := by simpa using h5
      exact_mod_cast le_trans zero_le_one this
  | false =>
    have hp : 0 < den ρ b := lt_of_le_of_ne (h4 hi).nonneg (Ne.symm ((h5 rfl).resolve_right (by simp [hi])))
    have e : (fun t => den (upd ρ v t) (pow b x)) =ᶠ[𝓝 (ρ v)] fun t => den (upd ρ v t) b ^ den (upd ρ v t) x := by
      have := hb.near_pos hp
      refine Filter.Eventually.mono this fun t ht => ?_
      simp only [den]
      exact pw_of_nonneg ht.le _
    refine ContinuousAt.congr ?_ e.symm
    exact ContinuousAt.rpow hb hx (.inl (by simpa using hp.ne'))

/-- What is proved by induction. -/
def OpenAt (ρ : Str → ℝ) (v : Str) (e : Expr) : Prop :=
  ContAt ρ v e ∧ Near ρ v (fun σ => DomS true σ e) ∧ (HN ρ e → den ρ e ≠ 0 → Near ρ v (fun σ => HN σ e))

theorem HN_near_atom {ρ : Str → ℝ} {v : Str} {e : Expr} (hc : ContAt ρ v e) (h : ∀ σ, HN σ e ↔ 0 ≤ den σ e)
    (h1 : HN ρ e) (h2 : den ρ e ≠ 0) : Near ρ v (fun σ => HN σ e) :=
  (hc.near_pos (lt_of_le_of_ne ((h ρ).1 h1) (Ne.symm h2))).mono fun σ hσ => (h σ).2 hσ.le

mutual
theorem openAt {ρ : Str → ℝ} {v : Str} : ∀ (e : Expr), DomS true ρ e → OpenAt ρ v e := by
  intro e hd
  have const : ∀ c : ℝ, ContinuousAt (fun _ : ℝ => c) (ρ v) := fun c => continuousAt_const
  cases e with
  | rat q =>
    have hc : ContAt ρ v (rat q) := by simp only [ContAt, den]; exact const _
    exact ⟨hc, Near.of (by simp), fun h1 h2 => HN_near_atom hc (by simp [HN]) h1 h2⟩
  | pi =>
    have hc : ContAt ρ v pi := by simp only [ContAt, den]; exact const _
    exact ⟨hc, Near.of (by simp [DomS]), fun h1 h2 => HN_near_atom hc (by simp [HN]) h1 h2⟩
  | euler =>
    have hc : ContAt ρ v euler := by simp only [ContAt, den]; exact const _
    exact ⟨hc, Near.of (by simp [DomS]), fun h1 h2 => HN_near_atom hc (by simp [HN]) h1 h2⟩
  | sym s =>
    have hc : ContAt ρ v (sym s) := by
      simp only [ContAt, den]
      by_cases hs : s = v
      · subst hs; simp only [upd, Function.update_self]; exact continuousAt_id
      · simp only [upd, Function.update_of_ne hs]; exact const _
    exact ⟨hc, Near.of (by simp [DomS]), fun h1 h2 => HN_near_atom hc (by simp [HN]) h1 h2⟩
  | sum ts =>
    have ih := openAtL (v := v) ts hd
    have hc := contAt_sum (fun t ht => (ih t ht).1)
    exact ⟨hc, (near_all (fun t ht => (ih t ht).2.1)).mono fun σ h => Dom_sum.2 h,
      fun h1 h2 => HN_near_atom hc (by simp [HN]) h1 h2⟩
  | prod ts =>
    have ih := openAtL (v := v) ts hd
    have hc := contAt_prod (fun t ht => (ih t ht).1)
    refine ⟨hc, (near_all (fun t ht => (ih t ht).2.1)).mono fun σ h => Dom_prod.2 h, fun h1 h2 => ?_⟩
    by_cases hs : (prod ts).isSubtraction = true
    · refine HN_near_atom hc (fun σ => ?_) h1 h2
      simp [HN, hs, den]
    · simp only [HN, hs, Bool.false_eq_true, if_false, HNL_iff] at h1 ⊢
      refine near_all fun t ht => (ih t ht).2.2 (h1 t ht) ?_
      intro h0
      apply h2
      rw [den_prod]
      exact List.prod_eq_zero (List.mem_map.2 ⟨t, ht, h0⟩)
  | pow b x =>
    have ihb := openAt (v := v) b hd.1
    have ihx := openAt (v := v) x hd.2.1
    obtain ⟨_, _, h3, h4, h5⟩ := id hd
    have hc := contAt_pow ihb.1 ihx.1 hd
    have hne : den ρ (pow b x) ≠ 0 → den ρ b ≠ 0 := by
      intro h h0
      rcases h5 rfl with h5 | ⟨h5, h6⟩
      · exact h5 h0
      · obtain ⟨n, rfl⟩ := intExp_iff.1 h5
        have hn : (1 : ℝ) ≤ n := by simpa using h6
        have hn' : n ≠ 0 := by
          rintro rfl; norm_num at hn
        apply h
        simp only [den, h0, Rat.cast_intCast]
        rw [pw_int, zero_zpow n hn']
    refine ⟨hc, ?_, fun h1 h2 => ihb.2.2 h1 (hne h2)⟩
    have hHN : Near ρ v (fun σ => intExp x = false → HN σ b) := by
      cases hi : intExp x with
      | true => exact Near.of (by simp)
      | false =>
        exact (ihb.2.2 (h4 hi) ((h5 rfl).resolve_right (by simp [hi]))).mono fun σ h _ => h
    have hstr : Near ρ v (fun σ => (den σ b ≠ 0 ∨ 0 ≤ den σ x) ∧
        (true = true → den σ b ≠ 0 ∨ intExp x = true ∧ 1 ≤ den σ x)) := by
      rcases h5 rfl with h5 | ⟨h5, h6⟩
      · exact (ihb.1.near_ne h5).mono fun σ h => ⟨.inl h, fun _ => .inl h⟩
      · obtain ⟨n, rfl⟩ := intExp_iff.1 h5
        simp only [den_rat] at h6 ⊢
        exact Near.of fun σ => ⟨.inr (by linarith), fun _ => .inr ⟨h5, h6⟩⟩
    exact ((ihb.2.1.and ihx.2.1).and (hHN.and hstr)).mono fun σ h =>
      ⟨h.1.1, h.1.2, h.2.2.1, h.2.1, h.2.2.2⟩
  | log i b =>
    have ihi := openAt (v := v) i hd.1
    have ihb := openAt (v := v) b hd.2.1
    obtain ⟨_, _, h3, h4, h5, h6⟩ := id hd
    have hl : Real.log (den ρ b) ≠ 0 := Real.log_ne_zero_of_pos_of_ne_one h5 h6
    have hc : ContAt ρ v (log i b) := by
      simp only [ContAt, den]
      exact (ihi.1.comp (g := Real.log) (Real.continuousAt_log h4.ne')).div
        (ihb.1.comp (g := Real.log) (Real.continuousAt_log h5.ne')) (by simpa using hl)
    refine ⟨hc, ?_, fun h1 h2 => HN_near_atom hc (by simp [HN]) h1 h2⟩
    exact ((ihi.2.1.and ihb.2.1).and ((ihi.2.2 h3 h4.ne').and ((ihi.1.near_pos h4).and
      ((ihb.1.near_pos h5).and (ihb.1.near_ne h6))))).mono fun σ h =>
      ⟨h.1.1, h.1.2, h.2.1, h.2.2.1, h.2.2.2.1, h.2.2.2.2⟩
  | trig f i =>
    have ih := openAt (v := v) i hd.1
    have hc : ContAt ρ v (trig f i) := by
      simp only [ContAt, den]
      exact ih.1.comp (TrigFn.contAt hd.2.1)
    refine ⟨hc, ?_, fun h1 h2 => HN_near_atom hc (by simp [HN]) h1 h2⟩
    exact (ih.2.1.and (TrigFn.okOpen ih.1 hd.2.1 (hd.2.2 rfl))).mono fun σ h => ⟨h.1, h.2.1, h.2.2⟩
  | absv i =>
    have ih := openAt (v := v) i hd.1
    have hc : ContAt ρ v (absv i) := by
      simp only [ContAt, den]
      exact ih.1.comp continuous_abs.continuousAt
    refine ⟨hc, ?_, fun h1 h2 => HN_near_atom hc (by simp [HN]) h1 h2⟩
    exact (ih.2.1.and (ih.1.near_ne (hd.2 rfl))).mono fun σ h => ⟨h.1, fun _ => h.2⟩
  | flt _ => simp [DomS] at hd
  | inf => simp [DomS] at hd
  | neginf => simp [DomS] at hd
  | any _ => simp [DomS] at hd
theorem openAtL {ρ : Str → ℝ} {v : Str} : ∀ (ts : List Expr), DomSL true ρ ts → ∀ t ∈ ts, OpenAt ρ v t
  | [], _, t, ht => by simp at ht
  | a :: r, hd, t, ht => by
    have h1 := openAt (v := v) a hd.1
    have h2 := openAtL (v := v) r hd.2
    rcases List.mem_cons.1 ht with h | h
    · rw [h]; exact h1
    · exact h2 t h
end

end Simpy
