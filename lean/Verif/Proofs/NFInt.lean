import Verif.Proofs.NFClear
import Verif.Proofs.NFSimp
import Verif.Proofs.IntTree
import Mathlib.Algebra.MvPolynomial.PDeriv
import Mathlib.RingTheory.MvPolynomial.Basic

/-! # Lemmas: integrating polynomials in several symbols -/

namespace Simpy
open Expr
namespace NF

variable {O : Oracle} {v : Str} {n : Nat}

/-! ## The antiderivative -/

/-- The antiderivative of a monomial. -/
noncomputable def I (v : Str) (q : ℚ × (Str →₀ ℕ)) : ℚ × (Str →₀ ℕ) := (q.1 / (q.2 v + 1), q.2 + Finsupp.single v 1)

/-- The antiderivative of a polynomial. -/
noncomputable def A (v : Str) : MvPolynomial Str ℚ →ₗ[ℚ] MvPolynomial Str ℚ :=
  (MvPolynomial.basisMonomials Str ℚ).constr ℚ fun d => mon (I v (1, d))

theorem A_mon (q : ℚ × (Str →₀ ℕ)) : A v (mon q) = mon (I v q) := by
  have h1 : mon q = q.1 • MvPolynomial.basisMonomials Str ℚ q.2 := by
    rw [MvPolynomial.coe_basisMonomials, MvPolynomial.smul_monomial]; simp [mon]
  rw [h1, map_smul, A, Module.Basis.constr_basis, mon, mon, MvPolynomial.smul_monomial]
  congr 1
  simp [I, div_eq_mul_inv]

theorem A_pol (l : List (ℚ × (Str →₀ ℕ))) : A v (pol l) = pol (l.map (I v)) := by
  rw [pol_mon, pol_mon, map_list_sum, List.map_map, List.map_map]
  exact congrArg List.sum (List.map_congr_left fun q _ => A_mon q)

theorem A_list (l : List (MvPolynomial Str ℚ)) : A v l.sum = (l.map (A v)).sum := map_list_sum _ _

theorem pderiv_A (p : MvPolynomial Str ℚ) : MvPolynomial.pderiv v (A v p) = p := by
  induction p using MvPolynomial.induction_on' with
  | monomial d c =>
    have : MvPolynomial.monomial d c = mon (c, d) := rfl
    rw [this, A_mon, I, mon, MvPolynomial.pderiv_monomial, mon]
    congr 1
    · simp
    · have : ((d v : ℚ) + 1) ≠ 0 := by positivity
      simp; field_simp
  | add p q hp hq => rw [map_add, map_add, hp, hq]

theorem deriv_ev (ρ : Str → ℝ) (p : MvPolynomial Str ℚ) :
    HasDerivAt (fun t => ev (Function.update ρ v t) p) (ev ρ (MvPolynomial.pderiv v p)) (ρ v) := by
  unfold ev
  induction p using MvPolynomial.induction_on with
  | C a => simpa using hasDerivAt_const (ρ v) ((algebraMap ℚ ℝ) a)
  | add p q hp hq => simpa [MvPolynomial.eval₂_add] using hp.fun_add hq
  | mul_X p s hp =>
    have hs : HasDerivAt (fun t => Function.update ρ v t s) (if s = v then 1 else 0) (ρ v) := by
      by_cases h : s = v
      · subst h; simpa using hasDerivAt_id' (ρ s)
      · simpa [h] using hasDerivAt_const (ρ v) (ρ s)
    have := hp.fun_mul hs
    simp only [MvPolynomial.eval₂_mul, MvPolynomial.eval₂_X, MvPolynomial.pderiv_mul, MvPolynomial.eval₂_add]
    refine this.congr_deriv ?_
    rw [Function.update_eq_self, MvPolynomial.pderiv_X]
    by_cases h : s = v
    · subst h; simp
    · simp [h]

theorem deriv_A (ρ : Str → ℝ) (p : MvPolynomial Str ℚ) : HasDerivAt (fun t => ev (Function.update ρ v t) (A v p)) (ev ρ p) (ρ v) := by
  have := deriv_ev (v := v) ρ (A v p)
  rwa [pderiv_A] at this

theorem good_mon {q : ℚ × (Str →₀ ℕ)} (h : GoodD q.2) : Good (mon q) := by
  intro d hd
  have := MvPolynomial.support_monomial_subset hd
  simp at this; subst this; exact h

theorem good_A (hv : goodName v = true) {p : MvPolynomial Str ℚ} (h : Good p) : Good (A v p) := by
  obtain ⟨l, h1, h2, h3, h4⟩ := terms_list (O := exactOracle) p
  rw [← h2, A_pol, pol_mon]
  refine good_sum fun q hq => ?_
  simp only [List.map_map, List.mem_map, Function.comp] at hq
  obtain ⟨a, ha, rfl⟩ := hq
  refine good_mon fun s hs => ?_
  simp only [I, Finsupp.add_apply] at hs
  by_cases h' : s = v
  · subst h'; exact hv
  · refine h a.2 ?_ s (by simpa [Finsupp.single_apply, Ne.symm h'] using hs)
    rw [MvPolynomial.mem_support_iff, ← (h3 a ha).1]; exact (h3 a ha).2

/-! ## Normal forms are polynomial expressions -/

theorem polyExpr_vp (s : Str) (h : goodName s = true) {k : ℕ} (hk : 1 ≤ k) : PolyExpr O (vp s k) := by
  rcases vp_cases s k with ⟨_, e⟩ | ⟨h1, e⟩ <;> rw [e]
  · exact .sym s h
  · refine .pow 1 k (.sym s h) (by omega) (pow_var 0 (by omega)) fun _ _ => ⟨Finsupp.single s 1, ?_⟩
    rw [toMv_sym, MvPolynomial.coeff_X]; norm_num

theorem polyExpr_mono {c : ℚ} {d : Str →₀ ℕ} (hg : GoodD d) : PolyExpr O (mono O c d) := by
  by_cases h0 : c = 0
  · subst h0; rw [mono_zero]; exact .rat 0
  by_cases d0 : d = 0
  · subst d0; rw [mono_const]; exact .rat c
  rcases mono_form (O := O) h0 d0 with ⟨s, k, hk, h1, e⟩ | ⟨e, hs⟩
  · rw [e]
    refine polyExpr_vp s (hg s ?_) hk
    rw [h1, vp_mono (O := O) s hk] at e
    have := (mono_inj one_ne_zero one_ne_zero e).2
    rw [this]; simp; omega
  · have hl : ∀ f ∈ flatP (mono O c d), Leaf f := mono_leaves
    have hpr : ∀ f ∈ flatP (mono O c d), f.isProd = false := fun f hf => by
      cases hl f hf with
      | num q => rfl
      | pow s k _ => exact prod_vp s k
    have hself : flatPL (flatP (mono O c d)) = flatP (mono O c d) := flatPL_id hpr
    have hp := prod_leaves (O := O) 0 (ts := flatP (mono O c d)) (by rw [hself]; exact hl)
    rw [hself, mono_lc, mono_lx, dg, if_neg h0] at hp
    have hp' : (ctors O 3).prod (flatP (mono O c d)) = .ok (prod (flatP (mono O c d))) := hp.trans (congrArg _ e)
    have hm : ∀ f ∈ flatP (mono O c d), PolyExpr O f := by
      intro f hf
      rw [flat_mono h0] at hf
      rcases List.mem_append.1 hf with hf | hf
      · split at hf
        · simp at hf
        · simp at hf; subst hf; exact .rat c
      · obtain ⟨s, h1, rfl⟩ := mem_fs.1 hf
        exact polyExpr_vp s (hg s (by omega)) h1
    generalize flatP (mono O c d) = L at *
    rw [e]
    exact .prod 3 hm hpr hp'

theorem polyExpr_polyE (hO : O.Exact) {p : MvPolynomial Str ℚ} (hg : Good p) : PolyExpr O (polyE O p) := by
  obtain ⟨l, h1, h2, h3, h4⟩ := terms_list (O := O) p
  have gl : ∀ q ∈ l, GoodD q.2 := fun q hq => hg q.2 (by
    rw [MvPolynomial.mem_support_iff, ← (h3 q hq).1]; exact (h3 q hq).2)
  rcases polyE_cases (O := O) p with ⟨c, d, rfl⟩ | ⟨h, hlen⟩
  · rw [polyE_mono]
    by_cases h0 : c = 0
    · subst h0; rw [mono_zero]; exact .rat 0
    · exact polyExpr_mono (hg d (by rw [MvPolynomial.mem_support_iff]; simpa using h0))
  · have hs := sum_monos hO 0 l gl (flatSL_monos l)
    rw [h2, h, h1] at hs
    rw [h, h1]
    refine .sum 6 (fun t ht => ?_) hs
    obtain ⟨q, hq, rfl⟩ := List.mem_map.1 ht
    exact polyExpr_mono (gl q hq)

/-! ## Problems are compared by their expressions -/

theorem eqw {b : Expr} (h : PolyExpr O b) : ∀ a, eqWithVar O v v a b = true → a = b := by
  have list : ∀ {ts : List Expr}, (∀ t ∈ ts, ∀ a, eqWithVar O v v a t = true → a = t) → ∀ l, eqWithVarL O v v l ts = true → l = ts := by
    intro ts
    induction ts with
    | nil =>
      intro _ l hl
      cases l with
      | nil => rfl
      | cons a r => simp [eqWithVarL] at hl
    | cons t r ih =>
      intro h l hl
      cases l with
      | nil => simp [eqWithVarL] at hl
      | cons a m =>
        simp only [eqWithVarL, Bool.and_eq_true] at hl
        rw [h t (by simp) a hl.1, ih (fun u hu => h u (by simp [hu])) m hl.2]
  induction h with
  | rat q =>
    intro a ha
    cases a <;> simp [eqWithVar, sameClass, beq] at ha
    rw [ha]
  | sym s hs =>
    intro a ha
    cases a <;> simp [eqWithVar, sameClass] at ha
    rename_i t
    by_cases ht : t = v
    · simp [ht] at ha; rw [ht, ha]
    · simp [ht] at ha; rw [ha]
  | sum n _ _ ih =>
    intro a ha
    cases a <;> simp [eqWithVar, sameClass] at ha
    rw [list ih _ ha]
  | prod n _ _ _ ih =>
    intro a ha
    cases a <;> simp [eqWithVar, sameClass] at ha
    rw [list ih _ ha]
  | pow n k _ _ _ _ ih =>
    intro a ha
    cases a <;> simp [eqWithVar, sameClass] at ha
    rename_i c x
    rw [ih c ha.1]
    have h2 := ha.2
    cases x <;> simp [eqWithVar, sameClass, beq] at h2
    rw [h2]

theorem not_refused {as : List Node} {e : Expr} (h : PolyExpr O e) (ha : ∀ a ∈ as, a.var = v ∧ a.expr ≠ e) (tr : Option Transf) :
    Node.refused O as (Node.mk e v tr .unset none false []) = false := by
  simp only [Node.refused, Node.filler, Bool.not_false, Bool.true_and, List.any_eq_false]
  intro a hm
  obtain ⟨h1, h2⟩ := ha a hm
  rw [h1]
  exact fun hx => h2 (eqw h _ hx)

end NF
end Simpy
