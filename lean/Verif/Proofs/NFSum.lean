import Verif.Proofs.NFText
import Verif.Props.Read
import Mathlib.Algebra.MvPolynomial.Funext
import Mathlib.Algebra.MvPolynomial.CommRing

/-! # Lemmas: sums of monomials, as the constructors write them -/

namespace Simpy
namespace NF
open Expr Lin Mono1

variable {O : Oracle}

/-- All names can be told apart in the printed form. -/
def GoodD (d : Str →₀ ℕ) : Prop := ∀ s, d s ≠ 0 → goodName s = true

theorem mval_eval (ρ : Str → ℝ) (d : Str →₀ ℕ) (c : ℝ) : MvPolynomial.eval ρ (MvPolynomial.monomial d c) = c * mval ρ d := by
  rw [MvPolynomial.eval_monomial]; rfl

/-- Monomials with the same key are the same. -/
theorem mono_key (hO : O.Exact) {a b : ℚ} {d e : Str →₀ ℕ} (ha : a ≠ 0) (gd : GoodD d) (ge : GoodD e)
    (h : key O (mono O a d) = key O (mono O b e)) : a = b ∧ d = e := by
  obtain ⟨c1, s, hs⟩ := cr_mono (O := O) 0 a d
  obtain ⟨c2, t, ht⟩ := cr_mono (O := O) 0 b e
  have : s = t := by
    have h3 : text O (mono O a d) = text O (mono O b e) := by
      have := congrArg (fun k => k.2.2) h
      exact this
    rwa [text_eq hs, text_eq ht] at h3
  subst this
  have hval : ∀ ρ : Str → ℝ, (a : ℝ) * mval ρ d = b * mval ρ e := fun ρ => by
    have := same_text_same_value_partial hO (built_mono a d) (built_mono b e) (dom_mono ρ a d) (dom_mono ρ b e)
      (fun x hx => gd x (syms_mono x hx)) (fun x hx => ge x (syms_mono x hx)) c1 c2 hs ht
    rwa [den_mono, den_mono] at this
  have hp : MvPolynomial.monomial d (a : ℝ) = MvPolynomial.monomial e (b : ℝ) :=
    MvPolynomial.funext fun ρ => by rw [mval_eval, mval_eval, hval]
  rcases (MvPolynomial.monomial_eq_monomial_iff ..).1 hp with ⟨h1, h2⟩ | ⟨h1, h2⟩
  · exact ⟨by exact_mod_cast h2, h1⟩
  · exact absurd (by exact_mod_cast h1) ha

/-! ## Like terms -/

theorem fs_dinj {d e : Str →₀ ℕ} (h : fs O d = fs O e) : d = e := by
  rw [← fs_lx (O := O) d, ← fs_lx (O := O) e, h]

theorem fs_noFlt (d : Str →₀ ℕ) : NoFltL (fs O d) := by
  refine (NoFltL_iff _).2 fun f hf => ?_
  obtain ⟨s, _, rfl⟩ := mem_fs.1 hf
  rcases vp_cases s (d s) with ⟨_, h⟩ | ⟨_, h⟩ <;> rw [h] <;> simp [NoFlt]

theorem acc_mono {c : ℚ} {d : Str →₀ ℕ} (h0 : c ≠ 0) (hd : d ≠ 0) : (mono O c d).isAcc = false := by
  rcases mono_form (O := O) h0 hd with ⟨s, k, hk, h1, e⟩ | ⟨e, hs⟩
  · rw [e]; exact acc_vp s k
  · rw [e]; rfl

theorem filter_acc (d : Str →₀ ℕ) : (fs O d).filter isAcc = [] ∧ (fs O d).filter (fun t => !isAcc t) = fs O d := by
  constructor
  · refine List.filter_eq_nil_iff.2 fun f hf => ?_
    obtain ⟨s, _, rfl⟩ := mem_fs.1 hf
    simp [acc_vp]
  · refine List.filter_eq_self.2 fun f hf => ?_
    obtain ⟨s, _, rfl⟩ := mem_fs.1 hf
    simp [acc_vp]

theorem decon_mono {c : ℚ} {d : Str →₀ ℕ} (h0 : c ≠ 0) (hd : d ≠ 0) : deconProd (mono O c d) = ([rat c], fs O d) := by
  obtain ⟨f1, f2⟩ := filter_acc (O := O) d
  rw [mono, if_neg h0, if_neg hd]
  by_cases h1 : c = 1
  · rw [if_pos h1, h1]
    match hf : fs O d, fs_ne (O := O) hd with
    | [f], _ =>
      obtain ⟨s, k, rfl⟩ := fs_vp f (show f ∈ fs O d by simp [hf])
      rw [one]
      rcases vp_cases s k with ⟨_, h⟩ | ⟨_, h⟩ <;> rw [h] <;> rfl
    | a :: b :: r, _ =>
      rw [hf] at f1 f2
      show deconProd (prod (a :: b :: r)) = _
      unfold deconProd
      dsimp only
      rw [f1, f2]; rfl
  · rw [if_neg h1]
    unfold deconProd
    have : (rat c).isAcc = true := rfl
    simp [List.filter_cons, this, f1, f2]

/-- A coefficient and exponents as they occur among the terms of a sum. -/
def Nice (p : ℚ × (Str →₀ ℕ)) : Prop := p.2 ≠ 0 → p.1 ≠ 0

/-- The polynomial. -/
noncomputable def pol (l : List (ℚ × (Str →₀ ℕ))) : MvPolynomial Str ℚ := (l.map fun p => MvPolynomial.monomial p.2 p.1).sum

theorem pol_cons (p : ℚ × (Str →₀ ℕ)) (l : List (ℚ × (Str →₀ ℕ))) : pol (p :: l) = MvPolynomial.monomial p.2 p.1 + pol l := by
  simp [pol]
theorem pol_append (a b : List (ℚ × (Str →₀ ℕ))) : pol (a ++ b) = pol a + pol b := by simp [pol]

theorem pol_split (f : ℚ × (Str →₀ ℕ) → Bool) (l : List (ℚ × (Str →₀ ℕ))) :
    pol l = pol (l.filter f) + pol (l.filter fun p => !f p) := by
  induction l with
  | nil => simp [pol]
  | cons t r ih => by_cases h : f t = true <;> simp [h, pol_cons, ih, add_assoc, add_left_comm]

theorem pol_same {d : Str →₀ ℕ} {l : List (ℚ × (Str →₀ ℕ))} (h : ∀ p ∈ l, p.2 = d) :
    pol l = MvPolynomial.monomial d (l.map Prod.fst).sum := by
  induction l with
  | nil => simp [pol]
  | cons t r ih =>
    rw [pol_cons, ih fun p hp => h p (by simp [hp]), h t (by simp), List.map_cons, List.sum_cons, map_add]

open Classical in
theorem like_mono (hO : O.Exact) {d : Str →₀ ℕ} (hd : d ≠ 0) {p : ℚ × (Str →₀ ℕ)} (hp : Nice p) :
    beqL O (fs O d) (deconProd (mono O p.1 p.2)).2 = decide (p.2 = d) := by
  by_cases h2 : p.2 = 0
  · rw [h2, mono_const]
    have : ¬ ((0 : Str →₀ ℕ) = d) := fun h => hd h.symm
    rw [decide_eq_false this]
    match hf : fs O d, fs_ne (O := O) hd with
    | a :: r, _ =>
      obtain ⟨s, k, rfl⟩ := fs_vp a (show a ∈ fs O d by simp [hf])
      show beqL O (vp s k :: r) [rat p.1] = false
      rcases vp_cases s k with ⟨_, h⟩ | ⟨_, h⟩ <;> rw [h] <;> simp [beqL, beq]
  · rw [decon_mono (hp h2) h2]
    by_cases h : p.2 = d
    · rw [h, decide_eq_true rfl]
      exact beqL_refl _ (fs_noFlt d)
    · rw [decide_eq_false h]
      by_contra hc
      exact h (fs_dinj (beqL_eq hO.isPi hO.isE _ _ (fs_noFlt d) (fs_noFlt p.2) (by simpa using hc))).symm

theorem like_term {c : ℚ} {qs : List ℚ} (d : Str →₀ ℕ) (l : List Expr) (hl : l = rat c :: qs.map rat) : likeTerm O l (fs O d) =
    .ok (if c + qs.sum = 0 then none else some (mono O (c + qs.sum) d)) := by
  subst hl
  unfold likeTerm
  have : rat c :: qs.map rat = (c :: qs).map rat := rfl
  rw [this, accumulateSum_rat, ok_bind, List.sum_cons]
  simp only [beq, beq_iff_eq]
  by_cases h0 : c + qs.sum = 0
  · simp [h0, pure, Except.pure]
  rw [if_neg h0, if_neg h0]
  by_cases h1 : c + qs.sum = 1
  · rw [if_pos h1, skip_fs, h1]; rfl
  · rw [if_neg h1, skip_rat_fs h0 h1]; rfl

theorem filter_monos {f : Expr → Bool} {g : ℚ × (Str →₀ ℕ) → Bool} {l : List (ℚ × (Str →₀ ℕ))} (h : ∀ p ∈ l, f (mono O p.1 p.2) = g p) :
    (monos O l).filter f = monos O (l.filter g) := by
  unfold monos
  rw [List.filter_map]
  congr 1
  exact List.filter_congr h

theorem isEmpty_monos (l : List (ℚ × (Str →₀ ℕ))) : (monos O l).isEmpty = l.isEmpty := by cases l <;> rfl

open Classical in
theorem loop_monos (hO : O.Exact) : ∀ (N : Nat) (l : List (ℚ × (Str →₀ ℕ))), l.length ≤ N → (∀ p ∈ l, Nice p) →
    ∃ (k : List (ℚ × (Str →₀ ℕ))) (qs : List ℚ), combineSumLoop O N (monos O l) = .ok (monos O k, qs.map rat) ∧
      pol k + MvPolynomial.C qs.sum = pol l ∧ (k.map Prod.snd).Nodup ∧ (∀ p ∈ k, p.1 ≠ 0 ∧ p.2 ≠ 0 ∧ ∃ c, (c, p.2) ∈ l)
  | 0, l, hN, _ => by
    have : l = [] := List.length_eq_zero_iff.1 (by omega)
    subst this
    exact ⟨[], [], by simp [combineSumLoop, monos], by simp [pol], by simp, by simp⟩
  | N + 1, [], _, _ => ⟨[], [], by simp [combineSumLoop, monos], by simp [pol], by simp, by simp⟩
  | N + 1, (c, d) :: r, hN, hl => by
    have hr : ∀ p ∈ r, Nice p := fun p hp => hl p (List.mem_cons_of_mem _ hp)
    have hm : monos O ((c, d) :: r) = mono O c d :: monos O r := rfl
    rw [hm]
    unfold combineSumLoop
    by_cases d0 : d = 0
    · subst d0
      obtain ⟨k, qs, h1, h2, h3, h4⟩ := loop_monos hO N r (by simpa using hN) hr
      refine ⟨k, c :: qs, ?_, ?_, h3, fun p hp => ?_⟩
      · rw [mono_const, if_pos (show (rat c).isAcc = true from rfl), h1]; rfl
      · rw [pol_cons, ← h2, List.sum_cons, map_add, MvPolynomial.C_apply]
        ring
      · obtain ⟨a, b, e, h⟩ := h4 p hp
        exact ⟨a, b, e, List.mem_cons_of_mem _ h⟩
    · have c0 : c ≠ 0 := hl (c, d) (by simp) d0
      rw [acc_mono c0 d0, decon_mono c0 d0]
      simp only [Bool.false_eq_true, if_false]
      have hf := filter_monos (O := O) (f := fun u => beqL O (fs O d) (deconProd u).2) (g := fun p => decide (p.2 = d)) (l := r)
        fun p hp => like_mono hO d0 (hr p hp)
      have hg := filter_monos (O := O) (f := fun u => !beqL O (fs O d) (deconProd u).2) (g := fun p => !decide (p.2 = d)) (l := r)
        fun p hp => by rw [like_mono hO d0 (hr p hp)]
      rw [hf, hg, isEmpty_monos]
      obtain ⟨k, qs, h1, h2, h3, h4⟩ := loop_monos hO N (r.filter fun p => !decide (p.2 = d))
        (le_trans (List.length_filter_le ..) (by simpa using hN)) fun p hp => hr p (List.mem_filter.1 hp).1
      have h4' : ∀ p ∈ k, p.1 ≠ 0 ∧ p.2 ≠ 0 ∧ ∃ c', (c', p.2) ∈ (c, d) :: r := fun p hp => by
        obtain ⟨a, b, e, h⟩ := h4 p hp
        exact ⟨a, b, e, List.mem_cons_of_mem _ (List.mem_filter.1 h).1⟩
      have hnd : d ∉ k.map Prod.snd := by
        intro h
        obtain ⟨p, hp, rfl⟩ := List.mem_map.1 h
        obtain ⟨_, _, e, h⟩ := h4 p hp
        have := (List.mem_filter.1 h).2
        simp at this
      have hsame : ∀ p ∈ r.filter (fun p => decide (p.2 = d)), p.2 = d := fun p hp => by simpa using (List.mem_filter.1 hp).2
      have e1 := pol_split (fun p => decide (p.2 = d)) r
      rw [pol_same hsame, ← h2] at e1
      rw [h1]
      by_cases he : (r.filter fun p => decide (p.2 = d)).isEmpty = true
      · rw [if_pos he]
        have he' : r.filter (fun p => decide (p.2 = d)) = [] := by simpa using he
        rw [he'] at e1
        refine ⟨(c, d) :: k, qs, rfl, ?_, ?_, ?_⟩
        · rw [pol_cons, pol_cons, e1]; simp [add_assoc]
        · simpa using ⟨by simpa using hnd, h3⟩
        · exact List.forall_mem_cons.2 ⟨⟨c0, d0, c, by simp⟩, h4'⟩
      · rw [if_neg he]
        generalize hqs : (r.filter fun p => decide (p.2 = d)) = hs at *
        have hco : ([rat c] ++ ((monos O hs).map fun u => (deconProd u).1).flatten) = rat c :: (hs.map Prod.fst).map rat := by
          rw [List.singleton_append]
          congr 1
          have : ∀ p ∈ hs, p.1 ≠ 0 := fun p hp => by
            have hm : p ∈ r := by rw [← hqs] at hp; exact (List.mem_filter.1 hp).1
            exact hr p hm (by rw [hsame p hp]; exact d0)
          clear hqs he e1 hf
          induction hs with
          | nil => rfl
          | cons p q ih =>
            simp only [monos, List.map_cons, List.flatten_cons] at ih ⊢
            rw [ih (fun p hp => hsame p (by simp [hp])) (fun p hp => this p (by simp [hp])),
              decon_mono (this p (by simp)) (by rw [hsame p (by simp)]; exact d0)]
            rfl
        rw [like_term d _ hco, ok_bind]
        by_cases hz : c + (hs.map Prod.fst).sum = 0
        · refine ⟨k, qs, by rw [if_pos hz]; rfl, ?_, h3, h4'⟩
          rw [pol_cons, e1]
          have : MvPolynomial.monomial d c + MvPolynomial.monomial d (hs.map Prod.fst).sum = (0 : MvPolynomial Str ℚ) := by
            rw [← map_add, hz, map_zero]
          dsimp only
          rw [← add_assoc, this, zero_add]
        · refine ⟨(c + (hs.map Prod.fst).sum, d) :: k, qs, by rw [if_neg hz]; rfl, ?_, ?_, ?_⟩
          · rw [pol_cons, pol_cons, e1]
            dsimp only
            rw [map_add]; ring
          · simpa using ⟨by simpa using hnd, h3⟩
          · exact List.forall_mem_cons.2 ⟨⟨hz, d0, c, by simp⟩, h4'⟩

/-! ## The normal form -/

/-- The terms of the polynomial. -/
noncomputable def terms (O : Oracle) (p : MvPolynomial Str ℚ) : List Expr := p.support.toList.map fun d => mono O (p.coeff d) d

/-- A sum of the terms, in the order of the terms. -/
def oneS : List Expr → Expr
  | [] => rat 0
  | [t] => t
  | s => sum s.reverse

/-- The polynomial, as the constructors write it. -/
noncomputable def polyE (O : Oracle) (p : MvPolynomial Str ℚ) : Expr := oneS (sorted O (terms O p))

/-- All names can be told apart. -/
def Good (p : MvPolynomial Str ℚ) : Prop := ∀ d ∈ p.support, GoodD d

theorem pol_coeff {k : List (ℚ × (Str →₀ ℕ))} (hn : (k.map Prod.snd).Nodup) : ∀ p ∈ k, (pol k).coeff p.2 = p.1 := by
  induction k with
  | nil => simp
  | cons q r ih =>
    simp only [List.map_cons, List.nodup_cons] at hn
    have out : ∀ d, d ∉ r.map Prod.snd → (pol r).coeff d = 0 := by
      intro d hd
      clear ih hn
      induction r with
      | nil => simp [pol]
      | cons t r ih =>
        simp only [List.map_cons, List.mem_cons, not_or] at hd
        rw [pol_cons, MvPolynomial.coeff_add, ih hd.2, MvPolynomial.coeff_monomial, if_neg fun h => hd.1 h.symm, add_zero]
    intro p hp
    rw [pol_cons, MvPolynomial.coeff_add, MvPolynomial.coeff_monomial]
    rcases List.mem_cons.1 hp with rfl | hp
    · rw [if_pos rfl, out _ hn.1, add_zero]
    · have : q.2 ≠ p.2 := fun h => hn.1 (by rw [h]; exact List.mem_map.2 ⟨p, hp, rfl⟩)
      rw [if_neg this, zero_add, ih hn.2 p hp]

theorem pol_support {k : List (ℚ × (Str →₀ ℕ))} {d : Str →₀ ℕ} (h : (pol k).coeff d ≠ 0) : ∃ c, (c, d) ∈ k := by
  induction k with
  | nil => simp [pol] at h
  | cons q r ih =>
    by_cases hq : q.2 = d
    · exact ⟨q.1, by rw [← hq]; simp⟩
    · rw [pol_cons, MvPolynomial.coeff_add, MvPolynomial.coeff_monomial, if_neg hq, zero_add] at h
      obtain ⟨c, hc⟩ := ih h
      exact ⟨c, List.mem_cons_of_mem _ hc⟩

theorem mono_inj {a b : ℚ} {d e : Str →₀ ℕ} (ha : a ≠ 0) (hb : b ≠ 0) (h : mono O a d = mono O b e) : a = b ∧ d = e := by
  have h1 := mono_lc (O := O) a d
  have h2 := mono_lx (O := O) a d
  rw [h, mono_lc] at h1
  rw [h, mono_lx, dg, dg, if_neg ha, if_neg hb] at h2
  exact ⟨h1.symm, h2.symm⟩

theorem terms_perm {k : List (ℚ × (Str →₀ ℕ))} (hn : (k.map Prod.snd).Nodup) (h0 : ∀ p ∈ k, p.1 ≠ 0) : (monos O k).Perm (terms O (pol k)) := by
  have nd1 : (monos O k).Nodup := by
    refine List.Nodup.map_on (fun p hp q hq h => ?_) hn.of_map
    obtain ⟨a, b⟩ := mono_inj (h0 p hp) (h0 q hq) h
    exact Prod.ext a b
  have nd2 : (terms O (pol k)).Nodup := by
    refine List.Nodup.map_on (fun d hd e he h => ?_) (Finset.nodup_toList _)
    rw [Finset.mem_toList, MvPolynomial.mem_support_iff] at hd he
    exact (mono_inj hd he h).2
  refine (List.perm_ext_iff_of_nodup nd1 nd2).2 fun f => ?_
  simp only [monos, terms, List.mem_map, Finset.mem_toList, MvPolynomial.mem_support_iff]
  constructor
  · rintro ⟨p, hp, rfl⟩
    have := pol_coeff hn p hp
    exact ⟨p.2, by rw [this]; exact h0 p hp, by rw [this]⟩
  · rintro ⟨d, hd, rfl⟩
    obtain ⟨c, hc⟩ := pol_support hd
    exact ⟨(c, d), hc, by rw [pol_coeff hn _ hc]⟩

theorem flatS_mono (c : ℚ) (d : Str →₀ ℕ) : flatS (mono O c d) = [mono O c d] := by
  by_cases h0 : c = 0
  · subst h0; rw [mono_zero]; rfl
  by_cases d0 : d = 0
  · subst d0; rw [mono_const]; rfl
  rcases mono_form (O := O) h0 d0 with ⟨s, k, hk, h1, e⟩ | ⟨e, hs⟩
  · rw [e]; rcases vp_cases s k with ⟨_, h⟩ | ⟨_, h⟩ <;> rw [h] <;> rfl
  · rw [e]; rfl

theorem nice_of (p : ℚ × (Str →₀ ℕ)) : ∃ q, Nice q ∧ mono O q.1 q.2 = mono O p.1 p.2 ∧ MvPolynomial.monomial q.2 q.1 = MvPolynomial.monomial p.2 p.1
    ∧ (GoodD p.2 → GoodD q.2) := by
  by_cases h : p.1 = 0
  · refine ⟨(0, 0), fun h => absurd rfl h, by simp [mono_zero, h], by simp [h], fun _ s hs => by simp at hs⟩
  · exact ⟨p, fun _ => h, rfl, rfl, id⟩

theorem nice_list (l : List (ℚ × (Str →₀ ℕ))) (hg : ∀ p ∈ l, GoodD p.2) : ∃ k : List (ℚ × (Str →₀ ℕ)), (∀ p ∈ k, Nice p) ∧ monos O k = monos O l ∧
    pol k = pol l ∧ ∀ p ∈ k, GoodD p.2 := by
  induction l with
  | nil => exact ⟨[], by simp, rfl, rfl, by simp⟩
  | cons p r ih =>
    obtain ⟨k, h1, h2, h3, h4⟩ := ih fun q hq => hg q (by simp [hq])
    obtain ⟨q, g1, g2, g3, g4⟩ := nice_of (O := O) p
    refine ⟨q :: k, List.forall_mem_cons.2 ⟨g1, h1⟩, ?_, by rw [pol_cons, pol_cons, g3, h3], List.forall_mem_cons.2 ⟨g4 (hg p (by simp)), h4⟩⟩
    show mono O q.1 q.2 :: monos O k = mono O p.1 p.2 :: monos O r
    rw [g2, h2]

theorem perm_oneS {C : Ctors} {l t : List Expr} : l.Perm t → (∀ a b r, l = a :: b :: r → sortTerms C l = .ok (sorted O t)) →
    (match l with
      | [] => return rat 0
      | [t] => return t
      | _ => do
        let s ← sortTerms C l
        return sum s.reverse : R Expr) = .ok (oneS (sorted O t)) := by
  intro hp hs
  match l, hp, hs with
  | [], hp, hs =>
    have : t = [] := hp.symm.eq_nil
    subst this
    have : sorted O [] = [] := (sorted_perm []).eq_nil
    rw [this]; rfl
  | [a], hp, hs =>
    have : sorted O t = [a] := ((sorted_perm t).trans hp.symm).eq_singleton
    rw [this]; rfl
  | a :: b :: r, hp, hs =>
    dsimp only
    rw [hs a b r rfl, ok_bind]
    have hlen := ((sorted_perm (O := O) t).trans hp.symm).length_eq
    match hst : sorted O t, hlen with
    | [], hlen => simp at hlen
    | [_], hlen => simp at hlen
    | _ :: _ :: _, _ => rfl

/-- Sums of monomials. -/
theorem sum_monos (hO : O.Exact) (n : Nat) (l : List (ℚ × (Str →₀ ℕ))) (hg : ∀ p ∈ l, GoodD p.2) {ts : List Expr} (hts : flatSL ts = monos O l) :
    (ctors O (n + 6)).sum ts = .ok (polyE O (pol l)) := by
  obtain ⟨l', hn', hm', hp', hg'⟩ := nice_list (O := O) l hg
  rw [← hp']
  rw [← hm'] at hts
  obtain ⟨k, qs, h1, h2, h3, h4⟩ := loop_monos hO _ l' le_rfl hn'
  show sumCtor O (ctors O (n + 5)) ts = _
  have hcomb : ∃ k' : List (ℚ × (Str →₀ ℕ)), combineSum O (flatSL ts) = .ok (monos O k') ∧ pol k' = pol l' ∧ (k'.map Prod.snd).Nodup ∧
      (∀ p ∈ k', p.1 ≠ 0 ∧ GoodD p.2) := by
    have hgk : ∀ p ∈ k, p.1 ≠ 0 ∧ GoodD p.2 := fun p hp => by
      obtain ⟨a, _, c, hc⟩ := h4 p hp; exact ⟨a, hg' (c, p.2) hc⟩
    have hlen : (monos O l').length = l'.length := by simp [monos]
    unfold combineSum
    rw [hts, hlen, h1, ok_bind]
    dsimp only
    by_cases he : qs = []
    · subst he
      exact ⟨k, by simp [pure, Except.pure], by simpa using h2, h3, hgk⟩
    · have he' : (qs.map rat).isEmpty = false := by cases qs <;> simp_all
      rw [he', accumulateSum_rat]
      simp only [Bool.false_eq_true, if_false, ok_bind, beq, beq_iff_eq]
      by_cases hz : qs.sum = 0
      · rw [if_pos hz]
        exact ⟨k, rfl, by simpa [hz] using h2, h3, hgk⟩
      · rw [if_neg hz]
        refine ⟨k ++ [(qs.sum, 0)], ?_, ?_, ?_, ?_⟩
        · simp [monos, mono_const, pure, Except.pure]
        · rw [pol_append, ← h2, MvPolynomial.C_apply]; congr 1; simp [pol]
        · rw [List.map_append, List.nodup_append]
          refine ⟨h3, by simp, ?_⟩
          intro d hd e he
          simp at he
          subst he
          obtain ⟨p, hp, rfl⟩ := List.mem_map.1 hd
          exact (h4 p hp).2.1
        · intro p hp
          rcases List.mem_append.1 hp with hp | hp
          · exact hgk p hp
          · simp at hp; subst hp; exact ⟨hz, fun s hs => by simp at hs⟩
  obtain ⟨k', g1, g2, g3, g4⟩ := hcomb
  unfold sumCtor
  rw [g1, ok_bind, ← g2]
  refine perm_oneS (O := O) (terms_perm g3 fun p hp => (g4 p hp).1) fun a b r _ => ?_
  refine sort_is (fun f hf => ?_) (fun f hf g hg h => ?_) ((sorted_perm _).trans (terms_perm g3 fun p hp => (g4 p hp).1).symm) (sorted_le _)
  · obtain ⟨p, _, rfl⟩ := List.mem_map.1 hf
    exact fine_mono n _ _
  · obtain ⟨p, hp, rfl⟩ := List.mem_map.1 hf
    obtain ⟨q, hq, rfl⟩ := List.mem_map.1 hg
    obtain ⟨e1, e2⟩ := mono_key hO (g4 p hp).1 (g4 p hp).2 (g4 q hq).2 h
    rw [e1, e2]

end NF
end Simpy
