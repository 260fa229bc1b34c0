import Verif.Proofs.NFSubs

/-! # Lemmas: derivatives of polynomials that are multiplied out -/

namespace Simpy
open Expr
namespace NF

variable {O : Oracle} {v : Str} {n : Nat} {c : ℚ} {d : Str →₀ ℕ}

theorem op_mono2 (n : Nat) (a b : ℚ) (d e : Str →₀ ℕ) : opMul (ctors O (n + 3)) (mono O a d) (mono O b e) = .ok (mono O (a * b) (d + e)) := by
  have h := prod_mono2 (O := O) n a b d e
  rw [← h]
  unfold opMul
  split
  · rename_i p q h1 h2
    rw [h1, h2, ← mono_const (O := O) p, ← mono_const (O := O) q, prod_mono2, zero_add, mono_const]
  · rfl

/-- the polynomial of a factor -/
noncomputable def lm (f : Expr) : MvPolynomial Str ℚ := mon (lc f, lx f)

theorem mon_zero (d : Str →₀ ℕ) : mon (0, d) = 0 := by simp [mon]

theorem diff_leaf {f : Expr} (h : Leaf f) (hg : GoodD (lx f)) (n : Nat) : ∃ q : ℚ × (Str →₀ ℕ), diffE O (n + 7) v f = .ok (mono O q.1 q.2) ∧ GoodD q.2 ∧
    mon q = MvPolynomial.pderiv v (lm f) := by
  have z : GoodD 0 := by intro s hs; simp at hs
  cases h with
  | num q =>
    refine ⟨(0, 0), by rw [mono_const]; rfl, z, ?_⟩
    have : lm (rat q) = MvPolynomial.C q := by simp [lm, mon, lc_rat, lx_rat]
    rw [this, MvPolynomial.pderiv_C, mon_zero]
  | pow s k hk =>
    have hl : lm (vp s k) = MvPolynomial.X s ^ k := by
      rw [lm, lc_vp, lx_vp, mon, MvPolynomial.X_pow_eq_monomial]
    rw [lx_vp] at hg
    have hgs : goodName s = true := hg s (by simp; omega)
    have hs : ∀ m, diffE O (m + 1) v (sym s) = .ok (mono O (if s = v then 1 else 0) 0) := by
      intro m
      rw [mono_const]
      show Except.ok (if s = v then rat 1 else rat 0) = _
      split <;> rfl
    refine ⟨(k * (if s = v then 1 else 0), Finsupp.single s (k - 1)), ?_, ?_, ?_⟩
    · rcases vp_cases s k with ⟨h1, e⟩ | ⟨h1, e⟩
      · rw [e, hs, h1]; simp
      · rw [e, diffE]
        have hc : (rat (k : ℚ)).contains v = false := rfl
        have h2 : opSub (ctors O (n + 6)) (rat (k : ℚ)) (rat 1) = .ok (rat ((k - 1 : ℕ) : ℚ)) := by
          show Except.ok (rat ((k : ℚ) - 1)) = _
          rw [Nat.cast_sub (by omega)]; simp
        have h3 : opPow O (ctors O (n + 6)) (sym s) (rat ((k - 1 : ℕ) : ℚ)) = .ok (mono O 1 (Finsupp.single s (k - 1))) := by
          have hx : sym s = mono O 1 (Finsupp.single s 1) := by rw [← vp_mono s le_rfl]; simp [vp, Lin.varPow]
          have := pow_mono (O := O) (n + 1) 1 (Finsupp.single s 1) (k - 1)
          rw [one_pow, Finsupp.smul_single, smul_eq_mul, mul_one, ← hx] at this
          exact this
        have h4 : opMul (ctors O (n + 6)) (rat (k : ℚ)) (mono O 1 (Finsupp.single s (k - 1))) = .ok (mono O k (Finsupp.single s (k - 1))) := by
          have := op_mono2 (O := O) (n + 3) k 1 0 (Finsupp.single s (k - 1))
          rwa [mono_const, mul_one, zero_add] at this
        have h5 := op_mono2 (O := O) (n + 3) k (if s = v then 1 else 0) (Finsupp.single s (k - 1)) 0
        rw [add_zero] at h5
        simp only [hc, Bool.not_false, if_true, h2, ok_bind, h3, h4, hs, h5]
    · intro t ht
      by_cases h : s = t
      · rw [← h]; exact hgs
      · simp [h] at ht
    · rw [hl, MvPolynomial.pderiv_pow, MvPolynomial.pderiv_X]
      by_cases h : s = v
      · subst h
        simp only [if_true, mul_one, Pi.single_eq_same]
        rw [MvPolynomial.X_pow_eq_monomial, mon, ← MvPolynomial.C_eq_coe_nat, MvPolynomial.C_mul_monomial]; simp
      · have : (Pi.single v (1 : MvPolynomial Str ℚ) : Str → MvPolynomial Str ℚ) s = 0 := Pi.single_eq_of_ne h _
        rw [if_neg h]
        simp [this, mon]

theorem leaves_monos {l : List Expr} (hl : ∀ f ∈ l, Leaf f) : monos O (l.map fun f => (lc f, lx f)) = l := by
  unfold monos
  rw [List.map_map]
  conv_rhs => rw [← List.map_id l]
  exact List.map_congr_left fun f hf => (leaf_mono (hl f hf)).symm

theorem prod_diff (n : Nat) : ∀ (r pre : List Expr), (∀ f ∈ pre ++ r, Leaf f ∧ GoodD (lx f)) → ∃ k : List (ℚ × (Str →₀ ℕ)),
    prodDiffTerms (ctors O (n + 7)) (diffE O (n + 7) v) pre r = .ok (monos O k) ∧ (∀ q ∈ k, GoodD q.2) ∧
      pol k = (pre.map lm).prod * MvPolynomial.pderiv v (r.map lm).prod
  | [], pre, _ => ⟨[], rfl, by simp, by simp [pol]⟩
  | t :: r, pre, h => by
    obtain ⟨q, h1, h2, h3⟩ := diff_leaf (O := O) (v := v) (h t (by simp)).1 (h t (by simp)).2 n
    obtain ⟨k, k1, k2, k3⟩ := prod_diff n r (pre ++ [t]) (by simpa using h)
    have hpr : ∀ f ∈ pre ++ r, Leaf f := fun f hf => (h f (by simp at hf ⊢; tauto)).1
    have hp : (ctors O (n + 7)).prod (mono O q.1 q.2 :: (pre ++ r)) = .ok (mono O (q.1 * ((pre ++ r).map lc).prod) (q.2 + ((pre ++ r).map lx).sum)) := by
      have := prod_monos (O := O) (n + 4) (q :: (pre ++ r).map fun f => (lc f, lx f))
      have e : monos O (q :: (pre ++ r).map fun f => (lc f, lx f)) = mono O q.1 q.2 :: (pre ++ r) := by
        show mono O q.1 q.2 :: monos O ((pre ++ r).map fun f => (lc f, lx f)) = _
        rw [leaves_monos hpr]
      rw [e] at this
      rw [this]
      simp [Function.comp_def]
    refine ⟨(q.1 * ((pre ++ r).map lc).prod, q.2 + ((pre ++ r).map lx).sum) :: k, ?_, ?_, ?_⟩
    · simp only [prodDiffTerms, h1, ok_bind, hp, k1]; rfl
    · refine List.forall_mem_cons.2 ⟨?_, k2⟩
      intro s hs
      by_contra hbad
      refine hs ?_
      have hz : ∀ l : List Expr, (∀ f ∈ l, GoodD (lx f)) → (l.map lx).sum s = 0 := by
        intro l
        induction l with
        | nil => simp
        | cons f l ih =>
          intro hl
          have hf : lx f s = 0 := by by_contra hh; exact hbad (hl f (by simp) s hh)
          simp [hf, ih fun g hg => hl g (by simp [hg])]
      have hq : q.2 s = 0 := by by_contra hh; exact hbad (h2 s hh)
      have := hz (pre ++ r) fun f hf => (h f (by simp at hf ⊢; tauto)).2
      simp only [Finsupp.add_apply, hq, this]
    · have hm : ∀ l : List Expr, mon ((l.map lc).prod, (l.map lx).sum) = (l.map lm).prod := by
        intro l
        have := mon_prod (l.map fun f => (lc f, lx f))
        simp only [List.map_map, Function.comp_def] at this
        rw [mon, ← this]
        congr 1
      have hmm : mon (q.1 * ((pre ++ r).map lc).prod, q.2 + ((pre ++ r).map lx).sum) = mon q * ((pre ++ r).map lm).prod := by
        rw [← hm, mon, mon, mon, MvPolynomial.monomial_mul]
      rw [pol_cons, k3]
      have e : MvPolynomial.monomial (q.2 + ((pre ++ r).map lx).sum) (q.1 * ((pre ++ r).map lc).prod) = mon q * ((pre ++ r).map lm).prod := hmm
      rw [e, h3]
      simp only [List.map_append, List.prod_append, List.map_cons, List.prod_cons, List.map_nil, List.prod_nil, mul_one, MvPolynomial.pderiv_mul]
      ring

theorem good_pol {k : List (ℚ × (Str →₀ ℕ))} (h : ∀ q ∈ k, GoodD q.2) : Good (pol k) := by
  rw [pol_mon]
  exact good_sum fun x hx => by
    obtain ⟨q, hq, rfl⟩ := List.mem_map.1 hx; exact good_mon (h q hq)

theorem diff_mono (hO : O.Exact) {a : ℚ} {m : Str →₀ ℕ} (hm : GoodD m) (n : Nat) :
    diffE O (n + 8) v (mono O a m) = .ok (polyE O (MvPolynomial.pderiv v (mon (a, m)))) ∧ Good (MvPolynomial.pderiv v (mon (a, m))) := by
  have hl := mono_leaves (O := O) (c := a) (d := m)
  by_cases h0 : a = 0
  · subst h0
    have : polyE O 0 = rat 0 := by rw [← polyE_C 0, map_zero]
    rw [mono_zero, mon_zero, map_zero, this]
    exact ⟨rfl, by intro x hx; simp at hx⟩
  have hx := mono_lx (O := O) a m
  have hc := mono_lc (O := O) a m
  rw [dg, if_neg h0] at hx
  rcases mono_split (O := O) (c := a) (d := m) with h | ⟨_, m0, e, _⟩
  · have hf : flatP (mono O a m) = [mono O a m] := by
      clear hx hc hl
      generalize mono O a m = g at *
      cases h with
      | num q => simp [flatP]
      | pow s k _ => exact flat_vp s k
    rw [hf] at hx hc
    simp at hx hc
    obtain ⟨q, h1, h2, h3⟩ := diff_leaf (O := O) (v := v) h (by rw [hx]; exact hm) (n + 1)
    rw [lm, hx, hc] at h3
    rw [← h3]
    refine ⟨?_, good_mon h2⟩
    rw [h1, mon, polyE_mono]
  · rw [e]
    generalize flatP (mono O a m) = L at *
    have hgl : ∀ f ∈ L, GoodD (lx f) := fun f hf s hs => hm s (by
      rw [← hx]
      intro hz
      have : lx f ≤ (L.map lx).sum := List.single_le_sum (by simp) _ (List.mem_map.2 ⟨f, hf, rfl⟩)
      have := this s
      rw [hz] at this
      omega)
    obtain ⟨k, k1, k2, k3⟩ := prod_diff (O := O) (v := v) n L [] (fun f hf => ⟨hl f (by simpa using hf), hgl f (by simpa using hf)⟩)
    have hm' : (L.map lm).prod = mon (a, m) := by
      have := mon_prod (L.map fun f => (lc f, lx f))
      simp only [List.map_map, Function.comp_def] at this
      rw [mon, ← hx, ← hc, ← this]
      congr 1
    rw [List.map_nil, List.prod_nil, one_mul, hm'] at k3
    rw [← k3]
    refine ⟨?_, good_pol k2⟩
    rw [diffE, k1, ok_bind]
    exact sum_monos hO (n + 1) k k2 (flatSL_monos k)

/-- The derivative of a polynomial that is multiplied out is multiplied out. -/
theorem diff_polyE (hO : O.Exact) {p : MvPolynomial Str ℚ} (hg : Good p) (n : Nat) :
    diffE O (n + 9) v (polyE O p) = .ok (polyE O (MvPolynomial.pderiv v p)) ∧ Good (MvPolynomial.pderiv v p) := by
  rcases polyE_cases (O := O) p with ⟨a, m, rfl⟩ | ⟨h, hlen⟩
  · rw [polyE_mono]
    by_cases h0 : a = 0
    · subst h0
      have : polyE O 0 = rat 0 := by rw [← polyE_C 0, map_zero]
      rw [mono_zero, map_zero, map_zero, this]
      exact ⟨rfl, by intro x hx; simp at hx⟩
    · exact diff_mono hO (hg m (by simp [h0])) (n + 1)
  · obtain ⟨l, h1, h2, h3, -⟩ := terms_list (O := O) p
    have gl : ∀ q ∈ l, GoodD q.2 := fun q hq => hg q.2 (by
      rw [MvPolynomial.mem_support_iff, ← (h3 q hq).1]; exact (h3 q hq).2)
    have hps : ∀ q ∈ l.map (fun q => MvPolynomial.pderiv v (mon q)), Good q := by
      intro q hq
      obtain ⟨a, ha, rfl⟩ := List.mem_map.1 hq
      exact (diff_mono (O := O) hO (gl a ha) 0).2
    have hsum : (l.map fun q => MvPolynomial.pderiv v (mon q)).sum = MvPolynomial.pderiv v p := by
      rw [← h2, pol_mon, map_list_sum, List.map_map]; rfl
    have hmap : mapR (diffE O (n + 8) v) (monos O l) = .ok ((l.map fun q => MvPolynomial.pderiv v (mon q)).map (polyE O)) := by
      unfold monos
      clear h1 h2 h3 hps hsum
      induction l with
      | nil => rfl
      | cons q l ih =>
        simp only [List.map_cons, mapR, (diff_mono (O := O) (v := v) (a := q.1) hO (gl q (by simp)) n).1, ok_bind, ih fun q hq => gl q (by simp [hq])]
    refine ⟨?_, ?_⟩
    · rw [h, h1, diffE, hmap, ok_bind]
      have := sum_polys hO (n + 2) _ hps
      rw [this, hsum]
    · rw [← hsum]; exact good_sum hps

end NF
end Simpy
