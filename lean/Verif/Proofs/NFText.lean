import Verif.Proofs.NFPow
import Verif.Proofs.ClearPoly

/-! # Lemmas: monomials are printed clearly -/

namespace Simpy
namespace NF
open Expr Lin Mono1

variable {O : Oracle}

/-- Printed, and clearly. -/
def CR (O : Oracle) (n : Nat) (e : Expr) : Prop := clear O n e = true ∧ Ok ((ctors O n).repr e)

theorem level_vp (s : Str) (k : ℕ) : level (vp s k) ≤ 1 := by
  rcases vp_cases s k with ⟨h1, h⟩ | ⟨h1, h⟩ <;> rw [h]
  · simp [level]
  · have h2 : ¬ ((k : ℚ) < 0) := by
      have : (0 : ℚ) ≤ k := by positivity
      linarith
    simp only [level, if_neg h2]; split <;> simp

theorem cr_vp (n : Nat) (s : Str) {k : ℕ} (hk : 1 ≤ k) : CR O (n + 2) (vp s k) := by
  refine ⟨?_, _, repr_vp n s hk⟩
  rcases vp_cases s k with ⟨h1, h⟩ | ⟨h1, h⟩ <;> rw [h]
  · rfl
  · exact clear_unit (VarPower.power k (by omega)) n

theorem cr_rat (n : Nat) (q : ℚ) : CR O (n + 1) (rat q) := ⟨rfl, _, rfl⟩

theorem numDen_vp {C : Ctors} (s : Str) (k : ℕ) : numDenTerm O C (vp s k) = .ok ([vp s k], []) := by
  rcases vp_cases s k with ⟨h1, h⟩ | ⟨h1, h⟩ <;> rw [h]
  · rfl
  · simp [numDenTerm, deconPow, negNum]

theorem numDen_loop {C : Ctors} : ∀ {l : List Expr}, (∀ f ∈ l, ∃ s k, f = vp s k) → numDenLoop O C l = .ok (l, [])
  | [], _ => rfl
  | t :: r, h => by
    obtain ⟨s, k, rfl⟩ := h t (by simp)
    rw [numDenLoop, numDen_vp, numDen_loop fun f hf => h f (by simp [hf])]
    rfl

theorem fs_vp {d : Str →₀ ℕ} : ∀ f ∈ fs O d, ∃ s k, f = vp s k := fun f hf => by
  obtain ⟨s, _, rfl⟩ := mem_fs.1 hf; exact ⟨_, _, rfl⟩

theorem skip_fs {d : Str →₀ ℕ} : mkProdSkip (fs O d) = .ok (mono O 1 d) := by
  by_cases hd : d = 0
  · subst hd; rw [fs_zero, mono_const]; rfl
  rw [mono, if_neg one_ne_zero, if_neg hd, if_pos rfl]
  match hf : fs O d, fs_ne (O := O) hd with
  | [f], _ =>
    obtain ⟨s, k, rfl⟩ := fs_vp f (show f ∈ fs O d by simp [hf])
    simp [mkProdSkip, one, prod_vp]
  | a :: b :: r, _ => rfl

theorem skip_rat_fs {c : ℚ} (h0 : c ≠ 0) (h1 : c ≠ 1) {d : Str →₀ ℕ} : mkProdSkip (rat c :: fs O d) = .ok (mono O c d) := by
  by_cases hd : d = 0
  · subst hd; rw [fs_zero, mono_const]; rfl
  rw [mono, if_neg h0, if_neg hd, if_neg h1]
  match hf : fs O d, fs_ne (O := O) hd with
  | a :: r, _ => rfl

theorem numDen_fs {C : Ctors} (d : Str →₀ ℕ) : numDen O C (fs O d) = .ok (mono O 1 d, rat 1) := by
  unfold numDen
  rw [numDen_loop fs_vp, ok_bind]
  dsimp only
  rw [skip_fs]
  rfl

theorem numDen_rat_fs {C : Ctors} {c : ℚ} (h0 : c ≠ 0) (d : Str →₀ ℕ) : numDen O C (rat c :: fs O d) = .ok (mono O c.num d, rat c.den) := by
  unfold numDen
  rw [numDenLoop, numDen_loop fs_vp, numDenTerm, ok_bind]
  have hd : mkProdSkip (if c.den ≠ 1 then [rat (c.den : ℚ)] else []) = .ok (rat c.den) := by
    by_cases h : c.den = 1 <;> simp [h, mkProdSkip, isProd]
  have hn : mkProdSkip ((if c.num ≠ 1 then [rat (c.num : ℚ)] else []) ++ fs O d) = .ok (mono O c.num d) := by
    by_cases h : c.num = 1
    · simp only [h, ne_eq, not_true, if_false, List.nil_append, Int.cast_one]
      exact skip_fs
    · have : ((c.num : ℤ) : ℚ) ≠ 1 := by exact_mod_cast h
      have h0' : ((c.num : ℤ) : ℚ) ≠ 0 := by
        have : c.num ≠ 0 := Rat.num_ne_zero.2 h0
        exact_mod_cast this
      simp only [ne_eq, h, not_false_iff, if_true, List.cons_append, List.nil_append]
      exact skip_rat_fs h0' this
  simp only [List.append_nil, ok_bind, pure, Except.pure]
  rw [hn, hd]; rfl

/-- Numerator and denominator of a monomial. -/
theorem numDen_mono {C : Ctors} {c : ℚ} (h0 : c ≠ 0) (d : Str →₀ ℕ) : numDen O C (flatP (mono O c d)) = .ok (mono O c.num d, rat c.den) := by
  rw [flat_mono h0]
  split
  · rename_i h; rw [h.1]; simpa using numDen_fs (O := O) (C := C) d
  · exact numDen_rat_fs h0 d

theorem term_ok {n : Nat} {e : Expr} (h : Ok ((ctors O n).repr e)) : Ok (prodTermRepr (ctors O n) e) :=
  Ok.bind h fun _ _ => ⟨_, rfl⟩

theorem mapR_Ok {f : Expr → R Str} : ∀ {l : List Expr}, (∀ a ∈ l, Ok (f a)) → Ok (mapR f l)
  | [], _ => ⟨_, rfl⟩
  | a :: r, h => by
    obtain ⟨x, hx⟩ := h a (by simp)
    obtain ⟨y, hy⟩ := mapR_Ok (f := f) (l := r) fun b hb => h b (by simp [hb])
    exact ⟨x :: y, by simp [mapR, hx, hy]⟩

theorem level_mono_pos {c : ℚ} (h : 0 < c) (d : Str →₀ ℕ) : level (mono O c d) ≤ 2 := by
  by_cases hd : d = 0
  · subst hd
    rw [mono_const]
    simp only [level, if_neg (not_lt.2 h.le)]; split <;> simp
  rcases mono_form (O := O) h.ne' hd with ⟨s, k, _, _, e⟩ | ⟨e, hs⟩
  · rw [e]; have := level_vp s k; omega
  · rw [decide_eq_false (not_lt.2 h.le)] at hs
    rw [e] at hs ⊢
    simp [level, hs]

theorem cr_leaf (n : Nat) {c : ℚ} (h : 0 < c) (hd : c.den = 1) {d : Str →₀ ℕ} {f : Expr} (hf : f ∈ flatP (mono O c d)) :
    CR O (n + 2) f ∧ level f ≤ 1 := by
  rw [flat_mono h.ne'] at hf
  rcases List.mem_append.1 hf with hf | hf
  · split at hf
    · simp at hf
    · simp only [List.mem_singleton] at hf
      subst hf
      exact ⟨cr_rat _ _, by rw [level_nat (not_lt.2 h.le) hd]; omega⟩
  · obtain ⟨s, hs, rfl⟩ := mem_fs.1 hf
    exact ⟨cr_vp n s hs, level_vp ..⟩

theorem cr_int (n : Nat) {c : ℚ} (h : 0 < c) (hd : c.den = 1) (d : Str →₀ ℕ) : CR O (n + 3) (mono O c d) := by
  by_cases d0 : d = 0
  · subst d0; rw [mono_const]; exact cr_rat _ _
  have hl := fun f hf => cr_leaf (O := O) n h hd (d := d) (f := f) hf
  have hnd := numDen_mono (O := O) (C := ctors O (n + 2)) h.ne' d
  rcases mono_form (O := O) h.ne' d0 with ⟨s, k, hk, _, e⟩ | ⟨e, hs⟩
  · rw [e]; exact cr_vp (n + 1) s hk
  · rw [decide_eq_false (not_lt.2 h.le)] at hs
    have hne : flatP (mono O c d) ≠ [] := by
      rw [flat_mono h.ne']; simp [fs_ne d0]
    rw [hd, Nat.cast_one] at hnd
    rw [e] at hs ⊢
    generalize flatP (mono O c d) = l at *
    constructor
    · rw [clear, hs]
      simp only [Bool.false_eq_true, if_false, hnd]
      simp only [beq, beq_self_eq_true, if_true, Bool.and_eq_true, List.all_eq_true]
      refine ⟨by simpa using hne, fun f hf => ⟨(hl f hf).1.1, factorOk_level (hl f hf).2⟩⟩
    · show Ok (prodRepr O (ctors O (n + 2)) l)
      unfold prodRepr
      rw [hs]
      simp only [Bool.false_eq_true, if_false]
      rw [hnd, ok_bind]
      simp only [beq, beq_self_eq_true, Bool.not_true, Bool.false_eq_true, if_false]
      exact Ok.bind (mapR_Ok fun f hf => term_ok (hl f hf).1.2) fun _ _ => ⟨_, rfl⟩

theorem cr_pos (n : Nat) {c : ℚ} (h : 0 < c) (d : Str →₀ ℕ) : CR O (n + 4) (mono O c d) := by
  by_cases hd : c.den = 1
  · exact cr_int (n + 1) h hd d
  by_cases d0 : d = 0
  · subst d0; rw [mono_const]; exact cr_rat _ _
  have hnd := numDen_mono (O := O) (C := ctors O (n + 3)) h.ne' d
  rcases mono_form (O := O) h.ne' d0 with ⟨s, k, hk, h1, e⟩ | ⟨e, hs⟩
  · rw [e]; exact cr_vp (n + 2) s hk
  · rw [decide_eq_false (not_lt.2 h.le)] at hs
    have hp : (0 : ℚ) < c.num := by exact_mod_cast Rat.num_pos.2 h
    have hn := cr_int (O := O) n hp (by simp) d
    have hlv := level_mono_pos (O := O) hp d
    have hd0 : ¬ ((c.den : ℚ) < 0) := by simp
    have hd1 : ((c.den : ℚ) == 1) = false := by simpa using hd
    rw [e] at hs ⊢
    generalize flatP (mono O c d) = l at *
    generalize mono O c.num d = N at *
    constructor
    · rw [clear, hs]
      simp only [Bool.false_eq_true, if_false, hnd]
      simp [beq, hd1, hn.1, clear_rat, factorOk_level hlv, factorOk_level (k := 1) (t := rat (c.den : ℚ)) (by rw [level_nat hd0 (by simp)]; omega)]
    · show Ok (prodRepr O (ctors O (n + 3)) l)
      unfold prodRepr
      rw [hs]
      simp only [Bool.false_eq_true, if_false]
      rw [hnd, ok_bind]
      have hr : (rat (c.den : ℚ)).isProd = false := rfl
      simp only [beq, hd1, Bool.not_false, if_true, hr, Bool.false_eq_true, if_false]
      by_cases hN : N.isProd = true
      · simp only [hN, if_true]
        exact Ok.bind hn.2 fun _ _ => Ok.bind (term_ok (O := O) (n := n + 3) (e := rat c.den) ⟨_, rfl⟩) fun _ _ => ⟨_, rfl⟩
      · simp only [hN, Bool.false_eq_true, if_false]
        exact Ok.bind (term_ok hn.2) fun _ _ => Ok.bind (term_ok (O := O) (n := n + 3) (e := rat c.den) ⟨_, rfl⟩) fun _ _ => ⟨_, rfl⟩

theorem isProd_vp_mono {c : ℚ} {d : Str →₀ ℕ} (hc : 0 < c) : (mono O c d).isSubtraction = false := by
  by_cases d0 : d = 0
  · subst d0; rw [mono_const]; simpa [isSubtraction] using hc.le
  rcases mono_form (O := O) hc.ne' d0 with ⟨s, k, hk, h1, e⟩ | ⟨e, hs⟩
  · rw [e]; exact sub_vp s k
  · rw [hs]; simpa using hc.le

/-- Every monomial is printed clearly. -/
theorem cr_mono (n : Nat) (c : ℚ) (d : Str →₀ ℕ) : CR O (n + 5) (mono O c d) := by
  by_cases h0 : c = 0
  · subst h0; rw [mono_zero]; exact cr_rat _ _
  by_cases hc : 0 < c
  · exact cr_pos (n + 1) hc d
  have hc : c < 0 := lt_of_le_of_ne (not_lt.1 hc) h0
  by_cases d0 : d = 0
  · subst d0; rw [mono_const]; exact cr_rat _ _
  have hpr : (ctors O (n + 4)).prod [mono O c d, rat (-1)] = .ok (mono O (-c) d) := by
    have := prod_mono2 (O := O) (n + 1) c (-1) d 0
    rwa [mono_const, mul_neg_one, add_zero] at this
  have hp := cr_pos (O := O) n (show 0 < -c by linarith) d
  have hlv := level_mono_pos (O := O) (show 0 < -c by linarith) d
  have hns := isProd_vp_mono (O := O) (d := d) (show 0 < -c by linarith)
  rcases mono_form (O := O) h0 d0 with ⟨s, k, hk, h1, e⟩ | ⟨e, hs⟩
  · rw [h1] at hc; norm_num at hc
  rw [decide_eq_true hc] at hs
  rw [e] at hs hpr ⊢
  generalize flatP (mono O c d) = l at *
  generalize mono O (-c) d = N at *
  constructor
  · rw [clear, hs]
    simp only [if_true, hpr, hp.1, factorOk_level hlv, Bool.and_self]
  · show Ok (prodRepr O (ctors O (n + 4)) l)
    unfold prodRepr
    rw [hs]
    simp only [if_true]
    rw [hpr, ok_bind]
    simp only [hns, Bool.false_eq_true, if_false]
    exact Ok.ite (Ok.bind (term_ok hp.2) fun _ _ => ⟨_, rfl⟩) (Ok.bind hp.2 fun _ _ => ⟨_, rfl⟩)

theorem keep_ok : ∀ {l : List Expr}, (∀ f ∈ l, Leaf f) → ∃ ks, nwfKeep l = .ok ks ∧ (l.filter varies ≠ [] → ks ≠ [])
  | [], _ => ⟨[], rfl, by simp⟩
  | t :: r, h => by
    obtain ⟨ks, h1, h2⟩ := keep_ok (l := r) fun f hf => h f (by simp [hf])
    rw [nwfKeep]
    cases h t (by simp) with
    | num q =>
      have : varies (rat q) = false := rfl
      refine ⟨ks, by simp [this, h1], ?_⟩
      simpa [List.filter_cons, this] using h2
    | pow s k hk => exact ⟨(if k = 1 then 1 else 2) :: ks, by simp [varies_vp, h1, nwf_vp, bind, Except.bind, pure, Except.pure], by simp⟩

theorem nwf_prod_leaves {l : List Expr} (h : ∀ f ∈ l, Leaf f) : Ok (Simpy.nwf (prod l)) := by
  obtain ⟨ks, h1, h2⟩ := keep_ok h
  rw [Simpy.nwf]
  match hf : l.filter varies with
  | [] => exact ⟨_, rfl⟩
  | [t] =>
    have : t.isProd = false := by
      cases h t (List.mem_filter.1 (show t ∈ l.filter varies by simp [hf])).1 with
      | num q => rfl
      | pow s k hk => exact prod_vp s k
    simp only [this, h1]
    exact ⟨_, rfl⟩
  | a :: b :: r =>
    dsimp only
    rw [h1, ok_bind]
    have := h2 (by simp [hf])
    match ks, this with
    | x :: y, _ => exact ⟨_, rfl⟩

theorem power_prod_leaves {l : List Expr} (h : ∀ f ∈ l, Leaf f) : Ok (constPower (prod l)) := by
  unfold constPower
  refine Ok.bind ?_ fun x _ => ?_
  · show Ok (mkProdSkip (l.filter varies))
    match hf : l.filter varies with
    | [] => exact ⟨_, rfl⟩
    | [t] =>
      have : t.isProd = false := by
        cases h t (List.mem_filter.1 (show t ∈ l.filter varies by simp [hf])).1 with
        | num q => rfl
        | pow s k hk => exact prod_vp s k
      exact ⟨t, by simp [mkProdSkip, this]⟩
    | a :: b :: r => exact ⟨_, rfl⟩
  · split <;> exact ⟨_, rfl⟩

theorem fine_mono (n : Nat) (c : ℚ) (d : Str →₀ ℕ) : Fine O (n + 5) (mono O c d) := by
  by_cases h0 : c = 0
  · subst h0; rw [mono_zero]; exact fine_rat _ _
  by_cases d0 : d = 0
  · subst d0; rw [mono_const]; exact fine_rat _ _
  rcases mono_form (O := O) h0 d0 with ⟨s, k, hk, h1, e⟩ | ⟨e, hs⟩
  · rw [e]; exact fine_vp _ s hk
  · have h := (cr_mono (O := O) n c d).2
    have hl := mono_leaves (O := O) (c := c) (d := d)
    rw [e] at h ⊢
    exact ⟨nwf_prod_leaves hl, power_prod_leaves hl, h⟩

/-! ## Values -/

theorem built_vp (s : Str) {k : ℕ} (hk : 1 ≤ k) : Built O (vp s k) := by
  have : (ctors O 1).pow (sym s) (rat k) = .ok (vp s k) := pow_var' 0 (vp_ne hk)
  exact .pow 1 (.sym s) (.rat _) this

theorem built_mono (c : ℚ) (d : Str →₀ ℕ) : Built O (mono O c d) := by
  have := prod_leaves (O := O) 0 (ts := rat c :: fs O d) (by
    intro f hf
    rw [flatPL_id (fun f hf => by
      rcases List.mem_cons.1 hf with rfl | hf
      · rfl
      · obtain ⟨s, h1, rfl⟩ := mem_fs.1 hf; exact prod_vp s _)] at hf
    rcases List.mem_cons.1 hf with rfl | hf
    · exact .num _
    · exact fs_leaf hf)
  rw [flatPL_id (fun f hf => by
      rcases List.mem_cons.1 hf with rfl | hf
      · rfl
      · obtain ⟨s, h1, rfl⟩ := mem_fs.1 hf; exact prod_vp s _)] at this
  rw [List.map_cons, List.prod_cons, List.map_cons, List.sum_cons, fs_lc, fs_lx, lc_rat, mul_one, lx_rat] at this
  replace this : (ctors O 3).prod (rat c :: fs O d) = .ok (mono O c d) := by rw [this, zero_add]
  refine .prod 3 (fun t ht => ?_) this
  rcases List.mem_cons.1 ht with rfl | ht
  · exact .rat _
  · obtain ⟨s, h1, rfl⟩ := mem_fs.1 ht; exact built_vp s h1

theorem den_vp (ρ : Str → ℝ) (s : Str) (k : ℕ) : den ρ (vp s k) = ρ s ^ k := by
  rcases vp_cases s k with ⟨h1, h⟩ | ⟨h1, h⟩ <;> rw [h]
  · simp [den, h1]
  · have := pw_int (ρ s) k
    simpa [den] using this

theorem dom_vp (ρ : Str → ℝ) (s : Str) (k : ℕ) : DomS false ρ (vp s k) := by
  rcases vp_cases s k with ⟨h1, h⟩ | ⟨h1, h⟩ <;> rw [h] <;> simp [DomS, den, intExp, HN]

/-- The value of `s ** d s * …`. -/
noncomputable def mval (ρ : Str → ℝ) (d : Str →₀ ℕ) : ℝ := d.prod fun s k => ρ s ^ k

theorem den_fs (ρ : Str → ℝ) (d : Str →₀ ℕ) : ((fs O d).map (den ρ)).prod = mval ρ d := by
  have : ((fs O d).map (den ρ)).Perm ((d.support.toList.map fun s => vp s (d s)).map (den ρ)) := (sorted_perm _).map _
  rw [this.prod_eq, List.map_map]
  have : (den ρ ∘ fun s => vp s (d s)) = fun s => ρ s ^ d s := funext fun s => by simp [den_vp]
  rw [this, Finset.prod_map_toList]
  rfl

theorem den_flat (ρ : Str → ℝ) {c : ℚ} (h0 : c ≠ 0) (d : Str →₀ ℕ) : ((flatP (mono O c d)).map (den ρ)).prod = c * mval ρ d := by
  rw [flat_mono h0, List.map_append, List.prod_append, den_fs]
  split
  · rename_i h; simp [h.1]
  · simp [den]

theorem den_mono (ρ : Str → ℝ) (c : ℚ) (d : Str →₀ ℕ) : den ρ (mono O c d) = c * mval ρ d := by
  by_cases h0 : c = 0
  · subst h0; rw [mono_zero]; simp [den]
  by_cases d0 : d = 0
  · subst d0; rw [mono_const]; simp [den, mval]
  rcases mono_form (O := O) h0 d0 with ⟨s, k, hk, h1, e⟩ | ⟨e, hs⟩
  · have := den_flat (O := O) ρ h0 d
    rw [e] at this ⊢
    rw [← this, flat_vp]; simp
  · rw [← den_flat (O := O) ρ h0 d, ← den_prod, ← e]

theorem dom_mono (ρ : Str → ℝ) (c : ℚ) (d : Str →₀ ℕ) : Dom ρ (mono O c d) := by
  by_cases h0 : c = 0
  · subst h0; rw [mono_zero]; simp [Dom, DomS]
  by_cases d0 : d = 0
  · subst d0; rw [mono_const]; simp [Dom, DomS]
  rcases mono_form (O := O) h0 d0 with ⟨s, k, hk, h1, e⟩ | ⟨e, hs⟩
  · rw [e]; exact dom_vp ρ s k
  · have hl := mono_leaves (O := O) (c := c) (d := d)
    rw [e, Dom, DomS]
    refine (DomSL_iff ρ _).2 fun f hf => ?_
    cases hl f hf with
    | num q => simp [DomS]
    | pow s k hk => exact dom_vp ρ s k

theorem syms_mono {c : ℚ} {d : Str →₀ ℕ} : ∀ x ∈ syms (mono O c d), d x ≠ 0 := by
  have hfs : ∀ f ∈ fs O d, ∀ x ∈ syms f, d x ≠ 0 := by
    intro f hf x hx
    obtain ⟨s, hs, rfl⟩ := mem_fs.1 hf
    rw [syms_vp] at hx
    simp at hx; subst hx; omega
  by_cases h0 : c = 0
  · subst h0; rw [mono_zero]; simp [syms]
  by_cases d0 : d = 0
  · subst d0; rw [mono_const]; simp [syms]
  have hfl : ∀ f ∈ flatP (mono O c d), ∀ x ∈ syms f, d x ≠ 0 := by
    rw [flat_mono h0]
    intro f hf x hx
    rcases List.mem_append.1 hf with hf | hf
    · split at hf
      · simp at hf
      · simp at hf; subst hf; simp [syms] at hx
    · exact hfs f hf x hx
  rcases mono_form (O := O) h0 d0 with ⟨s, k, hk, h1, e⟩ | ⟨e, hs⟩
  · rw [e, flat_vp] at hfl
    rw [e]
    exact hfl _ (by simp)
  · rw [e]
    exact (closed_syms (fun x => d x ≠ 0)).prod.2 hfl

end NF
end Simpy
