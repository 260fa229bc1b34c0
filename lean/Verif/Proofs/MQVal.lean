import Verif.Proofs.MQMono
import Verif.Spec.PowerTerm
import Verif.Proofs.ProdSound

/-! # Lemmas: the form and the values of monomials with rational exponents -/

namespace Simpy
namespace MQ
open Expr Lin Mono1
open NF (one sorted_perm)

variable {O : Oracle} {e : Expr}

theorem pow_sym (n : Nat) (s : Str) (q : ℚ) : opPow O (ctors O (n + 1)) (sym s) (rat q) = .ok (mono O 1 (Finsupp.single s q)) := by
  show (ctors O (n + 1)).pow (sym s) (rat q) = _
  by_cases h : q = 0
  · subst h; rw [Finsupp.single_zero, mono_const]; exact NF.pow_zero' n _
  · rw [← vp_mono s h]; exact pow_var' n h

theorem opPow_mono (n : Nat) {c : ℚ} (h0 : c ≠ 0) {d : Str →₀ ℚ} (hg : Good d) (k : ℤ) :
    opPow O (ctors O (n + 6)) (mono O c d) (rat k) = .ok (mono O (c ^ k) ((k : ℚ) • d)) := by
  by_cases hd : d = 0
  · subst hd
    rw [mono_const, smul_zero, mono_const]
    have hn : (k : ℚ).num = k := Rat.num_intCast _
    simp [opPow, fracPowInt, h0, hn, bind, Except.bind, pure, Except.pure]
  · rw [← pow_mono n h0 hg k]
    rcases mono_form (O := O) (c := c) hd with ⟨s, j, _, _, h, _⟩ | ⟨h, _⟩
    · rw [h]; rcases vp_cases s j with ⟨_, h⟩ | ⟨_, h⟩ <;> rw [h] <;> rfl
    · rw [h]; rfl

/-- Everything that is made by products is a monomial. -/
theorem rep (h : FromMul O e) : ∃ c d, c ≠ 0 ∧ Good d ∧ e = mono O c d := by
  induction h with
  | @num q h => exact ⟨q, 0, h, good_zero, (mono_const q).symm⟩
  | @sym s h => exact ⟨1, Finsupp.single s 1, one_ne_zero, good_single h 1, by rw [← vp_mono s one_ne_zero]; simp [vp, varPow]⟩
  | @root n s q r h e =>
    have := opPow_le (ctors_le O (Nat.le_succ n)) (O := O) (.sym s) (rat q) r e
    rw [pow_sym n s q] at this
    exact ⟨1, _, one_ne_zero, good_single h q, (Except.ok.inj this).symm⟩
  | @mul n a b r _ _ e iha ihb =>
    obtain ⟨c, d, h1, h2, rfl⟩ := iha
    obtain ⟨c', d', h1', h2', rfl⟩ := ihb
    have := opMul_le (ctors_le O (Nat.le_add_right n 4)) _ _ r e
    rw [mul_mono n h1 h1' h2 h2'] at this
    exact ⟨_, _, mul_ne_zero h1 h1', good_add h2 h2', (Except.ok.inj this).symm⟩
  | @div n a b r _ _ e iha ihb =>
    obtain ⟨c, d, h1, h2, rfl⟩ := iha
    obtain ⟨c', d', h1', h2', rfl⟩ := ihb
    have := opDiv_le (ctors_le O (Nat.le_add_right n 6)) _ _ r e
    rw [div_mono n h1 h1' h2 h2'] at this
    refine ⟨_, _, div_ne_zero h1 h1', ?_, (Except.ok.inj this).symm⟩
    rw [sub_eq_add_neg]
    exact good_add h2 (by simpa using good_smul h2' (-1))
  | @neg n a r _ e iha =>
    obtain ⟨c, d, h1, h2, rfl⟩ := iha
    have := opNeg_le (ctors_le O (Nat.le_add_right n 4)) _ r e
    rw [neg_monoE n h1 h2] at this
    exact ⟨_, _, neg_ne_zero.2 h1, h2, (Except.ok.inj this).symm⟩
  | @pow n a r k _ e iha =>
    obtain ⟨c, d, h1, h2, rfl⟩ := iha
    have := opPow_le (ctors_le O (Nat.le_add_right n 6)) (O := O) _ _ r e
    rw [opPow_mono n h1 h2 k] at this
    exact ⟨_, _, zpow_ne_zero _ h1, good_smul h2 _, (Except.ok.inj this).symm⟩

theorem root_vp (s : Str) {k : ℚ} (hk : k ≠ 0) : RootOf s (vp s k) := by
  rcases vp_cases s k with ⟨_, h⟩ | ⟨h1, h⟩ <;> rw [h]
  · exact .one s
  · exact .power s hk h1

theorem root_fs (d : Str →₀ ℚ) : RootProduct (fs O d) := by
  have nd : (fs O d).Nodup := by
    refine (sorted_perm _).nodup_iff.2 ?_
    exact List.Nodup.map_on (fun p hp q hq h => (vp_inj h).1) (Finset.nodup_toList _)
  have key : ∀ l : List Expr, l.Nodup → (∀ f ∈ l, ∃ s, d s ≠ 0 ∧ f = vp s (d s)) →
      ∃ ss : List Str, ss.Nodup ∧ List.Forall₂ RootOf ss l ∧ ∀ s ∈ ss, vp s (d s) ∈ l := by
    intro l
    induction l with
    | nil => exact fun _ _ => ⟨[], by simp, .nil, by simp⟩
    | cons f r ih =>
      intro h1 h2
      obtain ⟨hf, hr⟩ := List.nodup_cons.1 h1
      obtain ⟨ss, i1, i2, i3⟩ := ih hr fun g hg => h2 g (by simp [hg])
      obtain ⟨s, hs, rfl⟩ := h2 f (by simp)
      refine ⟨s :: ss, List.nodup_cons.2 ⟨fun h => hf (i3 s h), i1⟩, .cons (root_vp s hs) i2, ?_⟩
      intro t ht
      rcases List.mem_cons.1 ht with rfl | ht
      · simp
      · exact List.mem_cons_of_mem _ (i3 t ht)
  obtain ⟨ss, h1, h2, _⟩ := key _ nd fun f hf => mem_fs.1 hf
  exact ⟨ss, h1, h2⟩

theorem form_mono {c : ℚ} (h0 : c ≠ 0) (d : Str →₀ ℚ) : PowerTerm (mono O c d) := by
  unfold mono
  by_cases hd : d = 0
  · rw [if_pos hd]; exact .num h0
  rw [if_neg hd]
  have hr := root_fs (O := O) d
  have hn := fs_ne (O := O) hd
  have hm : ∀ f ∈ fs O d, _ := fun f hf => mem_fs.1 hf
  generalize fs O d = l at *
  by_cases h1 : c = 1
  · rw [if_pos h1]
    match l, hn with
    | [f], _ =>
      obtain ⟨s, hs, rfl⟩ := hm f (by simp)
      exact .power (root_vp s hs)
    | a :: b :: r, _ => exact .prod (by simp) hr
  · rw [if_neg h1]; exact .scaled h0 h1 hn hr

/-! ## Values -/

theorem den_vp {ρ : Str → ℝ} (hρ : ∀ s, 0 < ρ s) (s : Str) (k : ℚ) : den ρ (vp s k) = ρ s ^ (k : ℝ) := by
  rcases vp_cases s k with ⟨h1, h⟩ | ⟨h1, h⟩ <;> rw [h]
  · simp [den, h1]
  · simp [den, pw_of_nonneg (hρ s).le]

theorem dom_vp {ρ : Str → ℝ} (hρ : ∀ s, 0 < ρ s) (s : Str) (k : ℚ) : DomS false ρ (vp s k) := by
  rcases vp_cases s k with ⟨h1, h⟩ | ⟨h1, h⟩ <;> rw [h]
  · simp [DomS]
  · have := hρ s
    simp [DomS, den, HN, this.ne', this.le, this]

/-- The value of `s ** d s * …`. -/
noncomputable def mval (ρ : Str → ℝ) (d : Str →₀ ℚ) : ℝ := d.prod fun s k => ρ s ^ (k : ℝ)

theorem den_fs {ρ : Str → ℝ} (hρ : ∀ s, 0 < ρ s) (d : Str →₀ ℚ) : ((fs O d).map (den ρ)).prod = mval ρ d := by
  have : ((fs O d).map (den ρ)).Perm ((d.support.toList.map fun s => vp s (d s)).map (den ρ)) := (sorted_perm _).map _
  rw [this.prod_eq, List.map_map]
  have : (den ρ ∘ fun s => vp s (d s)) = fun s => ρ s ^ (d s : ℝ) := funext fun s => by simp [den_vp hρ]
  rw [this, Finset.prod_map_toList]
  rfl

theorem den_mono {ρ : Str → ℝ} (hρ : ∀ s, 0 < ρ s) (c : ℚ) (d : Str →₀ ℚ) : den ρ (mono O c d) = c * mval ρ d := by
  by_cases d0 : d = 0
  · subst d0; rw [mono_const]; simp [den, mval]
  have hfl : ((flatP (mono O c d)).map (den ρ)).prod = c * mval ρ d := by
    rw [flat_mono, List.map_append, List.prod_append, den_fs hρ]
    split
    · rename_i h; simp [h.1]
    · simp [den]
  rcases mono_form (O := O) (c := c) d0 with ⟨s, k, hk, h1, e, _⟩ | ⟨e, hs⟩
  · rw [e] at hfl ⊢
    rw [← hfl, flat_vp]; simp
  · rw [← hfl, ← den_prod, ← e]

theorem dom_mono {ρ : Str → ℝ} (hρ : ∀ s, 0 < ρ s) (c : ℚ) (d : Str →₀ ℚ) : Dom ρ (mono O c d) := by
  by_cases d0 : d = 0
  · subst d0; rw [mono_const]; simp [Dom, DomS]
  have hfl : ∀ f ∈ flatP (mono O c d), DomS false ρ f := by
    rw [flat_mono]
    intro f hf
    rcases List.mem_append.1 hf with h | h
    · split at h
      · simp at h
      · simp at h; subst h; simp [DomS]
    · obtain ⟨s, _, rfl⟩ := mem_fs.1 h; exact dom_vp hρ s _
  rcases mono_form (O := O) (c := c) d0 with ⟨s, k, hk, h1, e, _⟩ | ⟨e, hs⟩
  · rw [e]; exact dom_vp hρ s k
  · rw [e, Dom, DomS]; exact (DomSL_iff ρ _).2 hfl

/-- The values determine the coefficient and the exponents. -/
theorem mval_inj {a b : ℚ} {d e : Str →₀ ℚ} (h : ∀ ρ : Str → ℝ, (∀ s, 0 < ρ s) → (a : ℝ) * mval ρ d = b * mval ρ e) (ha : a ≠ 0) : a = b ∧ d = e := by
  have hab : a = b := by
    have := h (fun _ => 1) fun _ => one_pos
    simpa [mval, Finsupp.prod] using this
  refine ⟨hab, Finsupp.ext fun s => ?_⟩
  subst hab
  have hpos : ∀ t, (0 : ℝ) < Function.update (fun _ => (1 : ℝ)) s 2 t := fun t => by
    by_cases e : t = s
    · subst e; simp
    · simp [e]
  have key : ∀ d : Str →₀ ℚ, mval (Function.update (fun _ => (1 : ℝ)) s 2) d = (2 : ℝ) ^ (d s : ℝ) := by
    intro d
    unfold mval
    rw [Finsupp.prod_eq_single s]
    · simp
    · intro t _ ht; simp [ht]
    · intro _; simp
  have := h _ hpos
  rw [key, key] at this
  have h2 := mul_left_cancel₀ (show (a : ℝ) ≠ 0 by exact_mod_cast ha) this
  have h3 := (Real.rpow_right_inj (x := 2) (by norm_num) (by norm_num)).1 h2
  exact_mod_cast h3

end MQ
end Simpy
