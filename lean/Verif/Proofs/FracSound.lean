import Verif.Proofs.RewriteSound
import Verif.Proofs.PolySound
import Verif.Proofs.TreeSound
import Verif.Model.Simplify

/-! `rewrite_as_one_fraction`. -/

namespace Simpy
open Expr

variable {O : Oracle}

/-- The reciprocal of a product that need not be canonical. -/
theorem recip_kid (hO : O.Exact) {n : Nat} {st : Bool} {ρ : Str → ℝ} {t r : Expr} (kt : Kid WF t)
    (hd : DomS st ρ t) (h0 : den ρ t ≠ 0) (h : (ctors O n).pow t (rat (-1)) = .ok r) : Val st ρ r (den ρ t)⁻¹ := by
  cases t with
  | prod us =>
    cases n with
    | zero => cases h
    | succ n =>
      have hC := ctors_sound hO n
      have hg : Good st ρ us := fun u hu => ⟨kt u hu, Dom_prod.1 hd u hu⟩
      have hu : ∀ u ∈ us, den ρ u ≠ 0 := fun u hu h => h0 (by
        rw [den_prod]; exact List.prod_eq_zero (List.mem_map.2 ⟨u, hu, h⟩))
      change powCtor O (ctors O n) (prod us) (rat (-1)) = .ok r at h
      unfold powCtor at h
      rw [if_neg (by simp [beq]), if_neg (by norm_num [beq]), if_neg (by simp [beq]), if_neg (by simp [isAcc])] at h
      simp only at h
      by_cases hs : (prod us).isSubtraction = true
      · rw [hs] at h
        simp only [Bool.not_true, Bool.false_eq_true, if_false] at h
        change powTail O (ctors O n) (prod us) (rat (-1)) = _ at h
        unfold powTail at h
        simp only at h
        rw [if_pos (by rw [hs]; rfl)] at h
        obtain ⟨nb, h1, h⟩ := bind_ok.1 h
        rw [if_neg (by decide)] at h
        obtain ⟨p, h2, h⟩ := bind_ok.1 h
        have h1' : (ctors O n).prod [rat (-1), prod us] = .ok nb := h1
        have vnb : Val st ρ nb (-den ρ (prod us)) := by
          have hl : flatPL [rat (-1), prod us] = flatPL (rat (-1) :: us) := by simp [flatPL, flatP]
          have h3 : (ctors O n).prod (rat (-1) :: us) = .ok nb := by
            rw [← h1']
            cases n with
            | zero => rfl
            | succ n =>
              change prodCtor O (ctors O n) _ = prodCtor O (ctors O n) _
              unfold prodCtor; rw [hl]
          have hw : ∀ u ∈ rat (-1) :: us, WF u := by simpa using fun u hu => (hg u hu).1
          have hdm : ∀ u ∈ rat (-1) :: us, DomS st ρ u := by simpa using fun u hu => (hg u hu).2
          obtain ⟨v, d⟩ := hC.prod ρ _ _ hw hdm h3
          exact ⟨hC.prodW _ _ hw h3, d, by rw [v]; simp [den_prod]⟩
        obtain ⟨w2, d2, v2⟩ := recip_V hO vnb.1 vnb.2.1 (by rw [vnb.2.2]; simpa using h0) h2
        refine (Val.neg hC ⟨w2, d2, v2⟩ h).congr ?_
        rw [vnb.2.2, inv_neg, neg_neg]
      · rw [Bool.not_eq_true] at hs
        rw [hs] at h
        simp only [Bool.not_false, if_true] at h
        obtain ⟨ps, h1, h9⟩ := bind_ok.1 h
        clear h
        have hf : List.Forall₂ (Val st ρ) ps (us.map (fun u => (den ρ u)⁻¹)) := by
          have := mapR_ok.1 h1
          clear h1 h9 hs h0 hd kt
          induction this with
          | nil => exact .nil
          | cons a _ ih =>
            exact .cons (recip_V hO (hg _ (by simp)).1 (hg _ (by simp)).2 (hu _ (by simp)) a)
              (ih (fun u hu => hg u (by simp [hu])) (fun u hu' => hu u (by simp [hu'])))
        refine (Val.prod hC hf h9).congr ?_
        rw [den_prod]
        clear hf h1 h9 hs h0 hd hg hu kt
        induction us with
        | nil => simp
        | cons a l ih => simp [ih, mul_comm]
  | _ => exact recip_V hO kt hd h0 h

theorem opDiv_kid (hO : O.Exact) {n : Nat} {st : Bool} {ρ : Str → ℝ} {a b r : Expr} {x : ℝ} (ha : Val st ρ a x) (kb : Kid WF b)
    (hb : DomS st ρ b) (h0 : den ρ b ≠ 0) (h : opDiv (ctors O n) a b = .ok r) : Val st ρ r (x / den ρ b) := by
  have gen : (do let i ← (ctors O n).pow b (rat (-1)); (ctors O n).prod [a, i]) = .ok r → Val st ρ r (x / den ρ b) := by
    clear h; intro h
    obtain ⟨i, h1, h⟩ := bind_ok.1 h
    have v := recip_kid hO kb hb h0 h1
    refine (Val.prod (ctors_sound hO n) (.cons ha (.cons v .nil)) h).congr ?_
    simp [div_eq_mul_inv]
  unfold opDiv at h
  split at h
  · split at h
    · exact Val.div (C := ctors O n) (ctors_sound hO n) ha (Val.self (by simp) hb) h0 (by unfold opDiv; simp [*])
    · exact gen h
  · exact gen h

theorem opMul_kid2 (hO : O.Exact) {n : Nat} {st : Bool} {ρ : Str → ℝ} {a b r : Expr} {y : ℝ} (ka : Kid WF a)
    (da : DomS st ρ a) (hb : Val st ρ b y) (h : opMul (ctors O n) a b = .ok r) : Val st ρ r (den ρ a * y) := by
  obtain ⟨w, d, rfl⟩ := hb
  exact opMul_kid hO ka w da d h

/-- A term as a fraction. -/
structure FracOk (st : Bool) (ρ : Str → ℝ) (t : Expr) (p : Expr × Expr) : Prop where
  num : Kid WF p.1
  den : Kid WF p.2
  dnum : DomS st ρ p.1
  dden : DomS st ρ p.2
  ne : Simpy.den ρ p.2 ≠ 0
  val : Simpy.den ρ t * Simpy.den ρ p.2 = Simpy.den ρ p.1

theorem fracTerm_V (hO : O.Exact) {n : Nat} {st : Bool} {ρ : Str → ℝ} {k : Bool} {t : Expr} {p : (Expr × Expr) × Bool}
    (w : WF t) (d : DomS st ρ t) (h : fracTerm O (ctors O n) k t = .ok p) : FracOk st ρ t p.1 := by
  have triv : ∀ {t : Expr} {b : Bool}, WF t → DomS st ρ t → .ok ((t, rat 1), b) = (.ok p : R ((Expr × Expr) × Bool)) →
      FracOk st ρ t p.1 := by
    rintro t b w d ⟨⟩
    exact ⟨(adm_WF hO).kid w, by simp [Kid], d, by simp, by simp, by simp⟩
  unfold fracTerm at h
  split at h
  · obtain ⟨⟨a, b⟩, h1, h⟩ := bind_ok.1 h
    have := (pure_ok.1 h).symm; subst this
    obtain ⟨k1, k2, d1, d2, d3, d4⟩ := numDen_V hO (st := st) (ρ := ρ)
      (fun u hu => ⟨WF_prod.1 w |>.2 u hu, Dom_prod.1 d u hu⟩) h1
    exact ⟨k1, k2, d1, d2, d3, by rw [den_prod]; exact d4⟩
  · rename_i b q
    split at h
    · rename_i hq
      obtain ⟨r, h1, h⟩ := bind_ok.1 h
      have := (pure_ok.1 h).symm; subst this
      have hq' : ((q : ℚ) : ℝ) < 0 := by exact_mod_cast hq
      have hb : den ρ b ≠ 0 := by
        rcases d.2.2.1 with h | h
        · exact h
        · rw [den_rat] at h; exact absurd hq' (not_lt.2 h)
      obtain ⟨w1, d1, v1⟩ := recip_pow_V hO (nx := rat (-q)) w.1 w.2.1 d (.inl hb) rfl h1
      have hne : den ρ (pow b (rat q)) ≠ 0 := by simp only [den]; exact pw_ne_zero (e := rat q) (ρ := ρ) rfl (fun hi => (d.2.2.2.1 hi).nonneg) hb
      refine ⟨by simp [Kid], (adm_WF hO).kid w1, by simp, d1, ?_, ?_⟩
      · rw [v1]; exact inv_ne_zero hne
      · rw [v1, mul_inv_cancel₀ hne]; simp
    · exact triv w d h
  · exact triv w d h

theorem addDens_mem {acc fs : List Expr} : ∀ {t : Expr}, t ∈ addDens O acc fs → t ∈ acc ∨ t ∈ fs := by
  induction fs generalizing acc with
  | nil => intro t h; exact .inl h
  | cons f r ih =>
    intro t h
    rw [addDens] at h
    rcases ih h with h | h
    · split at h
      · exact .inl h
      · rcases List.mem_append.1 h with h | h
        · exact .inl h
        · right; simp at h; simp [h]
    · right; simp [h]

theorem denFactors_V {st : Bool} {ρ : Str → ℝ} {d : Expr} (k : Kid WF d) (dd : DomS st ρ d) (h0 : den ρ d ≠ 0) :
    ∀ t ∈ denFactors d, WF t ∧ DomS st ρ t ∧ den ρ t ≠ 0 := by
  cases d with
  | prod ts =>
    intro t ht
    exact ⟨k t ht, Dom_prod.1 dd t ht, fun h => h0 (by
      rw [den_prod]; exact List.prod_eq_zero (List.mem_map.2 ⟨t, ht, h⟩))⟩
  | _ => intro t ht; simp only [denFactors, List.mem_singleton] at ht; subst ht; exact ⟨k, dd, h0⟩

theorem oneFraction_V (hO : O.Exact) {n : Nat} {st : Bool} {ρ : Str → ℝ} {k : Bool} {e r : Expr} (w : WF e) (d : DomS st ρ e)
    (h : oneFraction O (ctors O n) k e = .ok (some r)) : Val st ρ r (den ρ e) := by
  have hC := ctors_sound hO n
  unfold oneFraction at h
  split at h
  · rename_i ts
    obtain ⟨fs, h1, h9⟩ := bind_ok.1 h
    clear h
    split at h9
    · cases h9
    rename_i hany
    clear hany
    · obtain ⟨common, h2, h10⟩ := bind_ok.1 h9
      obtain ⟨nums, h3, h11⟩ := bind_ok.1 h10
      obtain ⟨s, h4, h⟩ := bind_ok.1 h11
      clear h9 h10 h11
      obtain ⟨r', h5, h6⟩ := bind_ok.1 h
      have := (pure_ok.1 h6).symm; cases this
      clear h h6
      have hf : List.Forall₂ (fun t p => FracOk st ρ t p.1) ts fs :=
        forall₂_of_mem (mapR_ok.1 h1) (fun t ht p hp => fracTerm_V hO (WF_sum.1 w t ht) (Dom_sum.1 d t ht) hp)
      have hfs : ∀ p ∈ fs, ∃ t, FracOk st ρ t p.1 := fun p hp => (Node.forall₂_right hf p hp).imp fun _ h => h.2
      have hds : ∀ t ∈ addDens O [] (fs.flatMap (fun f => denFactors f.1.2)), WF t ∧ DomS st ρ t ∧ den ρ t ≠ 0 := by
        intro t ht
        rcases addDens_mem ht with ht | ht
        · simp at ht
        · obtain ⟨p, hp, ht⟩ := List.mem_flatMap.1 ht
          obtain ⟨t', ok⟩ := hfs p hp
          exact denFactors_V ok.den ok.dden ok.ne t ht
      obtain ⟨cv, cd⟩ := hC.prod ρ _ _ (fun t ht => (hds t ht).1) (fun t ht => (hds t ht).2.1) h2
      have cw := hC.prodW _ _ (fun t ht => (hds t ht).1) h2
      have cne : den ρ common ≠ 0 := by
        rw [cv]
        intro h0
        obtain ⟨t, ht, h0⟩ := List.mem_map.1 (List.prod_eq_zero_iff.1 h0)
        exact (hds t ht).2.2 h0
      have hn : List.Forall₂ (Val st ρ) nums (ts.map (fun t => den ρ t * den ρ common)) := by
        have h3' := mapR_ok.1 h3
        clear h1 h2 h3 h4 h5 hfs hds w d cv
        induction hf generalizing nums with
        | nil => cases h3'; exact .nil
        | cons a _ ih =>
          rcases h3' with _ | ⟨b1, b2⟩
          refine .cons ?_ (ih _ b2)
          obtain ⟨m, g1, g2⟩ := bind_ok.1 b1
          refine (opDiv_kid hO (opMul_kid2 hO a.num a.dnum (Val.self cw cd) g1) a.den a.dden a.ne g2).congr ?_
          rw [← a.val, mul_right_comm, mul_div_assoc, div_self a.ne, mul_one]
      have vs := Val.sum hC hn h4
      refine (Val.div hC vs (Val.self cw cd) cne h5).congr ?_
      rw [den_sum]
      have : (ts.map (fun t => den ρ t * den ρ common)).sum = (ts.map (den ρ)).sum * den ρ common := by
        rw [← List.sum_map_mul_right]
      rw [this, mul_div_assoc, div_self cne, mul_one]
  · cases h
    exact Val.self w d

end Simpy
