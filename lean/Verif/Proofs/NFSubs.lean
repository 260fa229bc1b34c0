import Verif.Proofs.NFRun
import Verif.Proofs.NFSimp

/-! # Lemmas: monomials put into polynomials that are multiplied out -/

namespace Simpy
open Expr
namespace NF

variable {O : Oracle} {v : Str} {n : Nat} {c : ℚ} {d : Str →₀ ℕ}

theorem mval_add (ρ : Str → ℝ) (d e : Str →₀ ℕ) : mval ρ (d + e) = mval ρ d * mval ρ e := by
  unfold mval
  exact Finsupp.prod_add_index' (by simp) (by intro s a b; rw [pow_add])

theorem mval_smul (ρ : Str → ℝ) (k : ℕ) (d : Str →₀ ℕ) : mval ρ (k • d) = mval ρ d ^ k := by
  induction k with
  | zero => simp [mval]
  | succ k ih => rw [succ_nsmul, mval_add, ih, pow_succ]

theorem mval_single (ρ : Str → ℝ) (s : Str) (k : ℕ) : mval ρ (Finsupp.single s k) = ρ s ^ k := by
  unfold mval; rw [Finsupp.prod_single_index (by simp)]

/-- The value where the variable is a monomial. -/
noncomputable def upd (ρ : Str → ℝ) (v : Str) (c : ℚ) (d : Str →₀ ℕ) : Str → ℝ := Function.update ρ v (c * mval ρ d)

theorem subs_leaf (hd : GoodD d) {f : Expr} (h : Leaf f) (hg : GoodD (lx f)) (n : Nat) : ∃ q : ℚ × (Str →₀ ℕ), subsE O (n + 6) (single v (mono O c d)) f = .ok (mono O q.1 q.2) ∧ GoodD q.2 ∧
    ∀ ρ, q.1 * mval ρ q.2 = den (upd ρ v c d) f := by
  cases h with
  | num q => exact ⟨(q, 0), by rw [mono_const]; rfl, by intro s hs; simp at hs, by intro ρ; simp [mval, den]⟩
  | pow s k hk =>
    have hsym : subsE O (n + 5) (single v (mono O c d)) (sym s) = .ok (if s = v then mono O c d else sym s) := by
      simp only [subsE, single]
      split <;> rfl
    have h6 : subsE O (n + 6) (single v (mono O c d)) (sym s) = .ok (if s = v then mono O c d else sym s) := by
      simp only [subsE, single]
      split <;> rfl
    have hx : sym s = mono O 1 (Finsupp.single s 1) := by
      rw [← vp_mono s le_rfl]; simp [vp, Lin.varPow]
    by_cases hs : s = v
    · subst hs
      simp only [if_true] at hsym h6
      refine ⟨(c ^ k, k • d), ?_, ?_, ?_⟩
      · rcases vp_cases s k with ⟨h1, e⟩ | ⟨h1, e⟩
        · rw [e, h6, h1]; simp
        · rw [e, subsE, hsym, ok_bind]
          have : subsE O (n + 5) (single s (mono O c d)) (rat (k : ℚ)) = .ok (rat k) := rfl
          rw [this, ok_bind, pow_mono]
      · intro t ht
        exact hd t (fun h => ht (by simp [h]))
      · intro ρ
        rw [den_vp, upd, mval_smul]
        simp [mul_pow]
    · simp only [if_neg hs] at hsym h6
      refine ⟨(1, Finsupp.single s k), ?_, ?_, ?_⟩
      · rw [← vp_mono s hk]
        rcases vp_cases s k with ⟨h1, e⟩ | ⟨h1, e⟩
        · rw [e, h6]
        · rw [e, subsE, hsym, ok_bind]
          have : subsE O (n + 5) (single v (mono O c d)) (rat (k : ℚ)) = .ok (rat k) := rfl
          have hpw := pow_mono (O := O) n 1 (Finsupp.single s 1) k
          rw [one_pow, Finsupp.smul_single, smul_eq_mul, mul_one, ← hx, ← vp_mono s hk] at hpw
          rw [this, ok_bind, hpw, e]
      · rw [lx_vp] at hg; exact hg
      · intro ρ
        rw [den_vp, mval_single, upd, Function.update_of_ne hs]
        simp

theorem map_monos {f : Expr → R Expr} {ρ' : (Str → ℝ) → Str → ℝ} : ∀ {l : List Expr}, (∀ t ∈ l, ∃ q : ℚ × (Str →₀ ℕ), f t = .ok (mono O q.1 q.2) ∧ GoodD q.2 ∧
    ∀ ρ, q.1 * mval ρ q.2 = den (ρ' ρ) t) → ∃ k : List (ℚ × (Str →₀ ℕ)), mapR f l = .ok (monos O k) ∧ (∀ q ∈ k, GoodD q.2) ∧
      ∀ ρ, k.map (fun q => (q.1 : ℝ) * mval ρ q.2) = l.map (den (ρ' ρ))
  | [], _ => ⟨[], rfl, by simp, by simp⟩
  | t :: r, h => by
    obtain ⟨q, h1, h2, h3⟩ := h t (by simp)
    obtain ⟨k, k1, k2, k3⟩ := map_monos (l := r) fun u hu => h u (by simp [hu])
    refine ⟨q :: k, ?_, List.forall_mem_cons.2 ⟨h2, k2⟩, fun ρ => by simp [h3, k3]⟩
    simp only [mapR, h1, ok_bind, k1]; rfl

theorem mval_list (ρ : Str → ℝ) : ∀ (k : List (ℚ × (Str →₀ ℕ))), ((k.map Prod.fst).prod : ℚ) * mval ρ (k.map Prod.snd).sum =
    (k.map fun q => (q.1 : ℝ) * mval ρ q.2).prod
  | [] => by simp [mval]
  | q :: k => by
    have := mval_list ρ k
    simp only [List.map_cons, List.prod_cons, List.sum_cons, mval_add, Rat.cast_mul] at this ⊢
    rw [← this]; ring

theorem subs_mono (hd : GoodD d) {a : ℚ} {m : Str →₀ ℕ} (hm : GoodD m) (n : Nat) : ∃ q : ℚ × (Str →₀ ℕ), subsE O (n + 7) (single v (mono O c d)) (mono O a m) = .ok (mono O q.1 q.2) ∧
    GoodD q.2 ∧ ∀ ρ, q.1 * mval ρ q.2 = den (upd ρ v c d) (mono O a m) := by
  have hl := mono_leaves (O := O) (c := a) (d := m)
  rcases mono_split (O := O) (c := a) (d := m) with h | ⟨h0, m0, e, _⟩
  · refine subs_leaf hd h ?_ (n + 1)
    by_cases h0 : a = 0
    · subst h0; rw [mono_zero, lx_rat]; intro s hs; simp at hs
    · have := mono_lx (O := O) a m
      rw [dg, if_neg h0] at this
      have hf : flatP (mono O a m) = [mono O a m] := by
        clear this
        generalize mono O a m = g at *
        cases h with
        | num q => simp [flatP]
        | pow s k _ => exact flat_vp s k
      rw [hf] at this
      simp at this
      rw [this]; exact hm
  · have hx := mono_lx (O := O) a m
    rw [dg, if_neg h0] at hx
    rw [e]
    generalize flatP (mono O a m) = L at *
    have hgl : ∀ f ∈ L, GoodD (lx f) := fun f hf s hs => hm s (by
      rw [← hx]
      intro hz
      have : lx f ≤ (L.map lx).sum := List.single_le_sum (by simp) _ (List.mem_map.2 ⟨f, hf, rfl⟩)
      have := this s
      rw [hz] at this
      omega)
    obtain ⟨k, k1, k2, k3⟩ := map_monos (O := O) (f := subsE O (n + 6) (single v (mono O c d))) (ρ' := fun ρ => upd ρ v c d) (l := L) fun t ht => subs_leaf hd (hl t ht) (hgl t ht) n
    refine ⟨((k.map Prod.fst).prod, (k.map Prod.snd).sum), ?_, ?_, fun ρ => ?_⟩
    · rw [subsE, k1, ok_bind, prod_monos (n + 3)]
    · intro s hs
      by_contra hbad
      refine hs ?_
      dsimp only
      clear k1 k3 hs
      induction k with
      | nil => simp
      | cons q k ih =>
        have h1 : q.2 s = 0 := by
          by_contra h; exact hbad (k2 q (by simp) s h)
        simp only [List.map_cons, List.sum_cons, Finsupp.add_apply, h1, ih fun p hp => k2 p (by simp [hp])] <;> simp
    · rw [mval_list, k3, den_prod]

theorem ev_pol (ρ : Str → ℝ) : ∀ (k : List (ℚ × (Str →₀ ℕ))), ev ρ (pol k) = (k.map fun q => (q.1 : ℝ) * mval ρ q.2).sum := by
  intro k
  have hm : ∀ (q : ℚ × (Str →₀ ℕ)), ev ρ (mon q) = q.1 * mval ρ q.2 := by
    intro q
    rw [mon, ev, MvPolynomial.eval₂_monomial, mval]; simp
  rw [pol_mon]
  induction k with
  | nil => simp [ev]
  | cons q k ih =>
    simp only [List.map_cons, List.sum_cons] at ih ⊢
    rw [← hm, ← ih]
    simp [ev]

/-- A monomial in the place of the variable. -/
theorem subs_polyE (hO : O.Exact) (hd : GoodD d) {p : MvPolynomial Str ℚ} (hg : Good p) (n : Nat) : ∃ P : MvPolynomial Str ℚ,
    subsE O (n + 8) (single v (mono O c d)) (polyE O p) = .ok (polyE O P) ∧ Good P ∧ ∀ ρ, ev ρ P = ev (upd ρ v c d) p := by
  rcases polyE_cases (O := O) p with ⟨a, m, rfl⟩ | ⟨h, hlen⟩
  · rw [polyE_mono]
    by_cases h0 : a = 0
    · subst h0
      refine ⟨0, ?_, by intro x hx; simp at hx, by intro ρ; simp [ev]⟩
      rw [mono_zero, ← polyE_C 0, map_zero]
      have : polyE O 0 = rat 0 := by rw [← polyE_C 0, map_zero]
      rw [this]; rfl
    · obtain ⟨q, h1, h2, h3⟩ := subs_mono (O := O) (v := v) (c := c) hd (a := a) (hg m (by simp [h0])) (n + 1)
      refine ⟨mon q, by rw [mon, polyE_mono]; exact h1, good_mon h2, fun ρ => ?_⟩
      rw [← ev_polyE (O := O), mon, polyE_mono, den_mono, h3, ← polyE_mono, ev_polyE]
  · obtain ⟨l, h1, h2, h3, -⟩ := terms_list (O := O) p
    have gl : ∀ q ∈ l, GoodD q.2 := fun q hq => hg q.2 (by
      rw [MvPolynomial.mem_support_iff, ← (h3 q hq).1]; exact (h3 q hq).2)
    obtain ⟨k, k1, k2, k3⟩ := map_monos (O := O) (f := subsE O (n + 7) (single v (mono O c d))) (ρ' := fun ρ => upd ρ v c d) (l := monos O l) fun t ht => by
      obtain ⟨q, hq, rfl⟩ := List.mem_map.1 ht
      exact subs_mono hd (gl q hq) n
    refine ⟨pol k, ?_, ?_, fun ρ => ?_⟩
    · rw [h, h1, subsE, k1, ok_bind]
      exact sum_monos hO (n + 1) k k2 (flatSL_monos k)
    · rw [pol_mon]
      exact good_sum fun x hx => by
        obtain ⟨q, hq, rfl⟩ := List.mem_map.1 hx; exact good_mon (k2 q hq)
    · rw [ev_pol, k3, ← h2, ev_pol]
      unfold monos
      rw [List.map_map]
      congr 1
      exact List.map_congr_left fun q _ => by simp only [Function.comp]; rw [den_mono]

/-- `-1 * p`. -/
theorem negmul_polyE (hO : O.Exact) (n : Nat) {p : MvPolynomial Str ℚ} (hg : Good p) : opMul (ctors O (n + 8)) (rat (-1)) (polyE O p) = .ok (polyE O (-p)) := by
  rcases polyE_cases (O := O) p with ⟨c, d, rfl⟩ | ⟨h, hlen⟩
  · have hm := prod_mono2 (O := O) (n + 5) (-1) c 0 d
    rw [mono_const, zero_add] at hm
    rw [← map_neg, polyE_mono, polyE_mono, ← neg_one_mul c, ← hm]
    generalize mono O c d = g at *
    cases g <;> first | rfl | skip
    rename_i r
    have := prod_mono2 (O := O) (n + 5) (-1) r 0 0
    rw [mono_const, mono_const, zero_add, mono_const] at this
    rw [this]; rfl
  · obtain ⟨m, hm⟩ := nwf_poly h
    have hp := prod_rat_sum (O := O) (C := ctors O (n + 7)) (q := -1) (by norm_num) (by norm_num) hm
    have hop : opMul (ctors O (n + 8)) (rat (-1)) (polyE O p) = prodCtor O (ctors O (n + 7)) [rat (-1), sum (sorted O (terms O p)).reverse] := by
      rw [h]; rfl
    rw [hop, hp, if_pos rfl, ← h, neg_polyE hO (n + 1) hg]

theorem minus_polyE (hO : O.Exact) (n : Nat) {p q : MvPolynomial Str ℚ} (hp : Good p) (hq : Good q) :
    opSub (ctors O (n + 8)) (polyE O p) (polyE O q) = .ok (polyE O (p - q)) := by
  have hadd := sum_polys hO (n + 2) [p, -q] (by
    intro r hr
    simp at hr
    rcases hr with rfl | rfl
    · exact hp
    · exact good_neg hq)
  have hn := negmul_polyE hO n hq
  simp only [List.map_cons, List.map_nil, List.sum_cons, List.sum_nil, add_zero, ← sub_eq_add_neg] at hadd
  have rats : ∀ {r : MvPolynomial Str ℚ} {a : ℚ}, polyE O r = rat a → Good r → r = MvPolynomial.C a := by
    intro r a h hr
    have := toMv_polyE hO hr
    rw [h, toMv_rat] at this
    exact this.symm
  have key : ∀ {a b : Expr}, (∀ x y, ¬ (a = rat x ∧ b = rat y)) → opSub (ctors O (n + 8)) a b = (do
      let m ← opMul (ctors O (n + 8)) (rat (-1)) b
      opAdd (ctors O (n + 8)) a m) := by
    intro a b h
    unfold opSub
    split
    · exact absurd ⟨rfl, rfl⟩ (h _ _)
    · rfl
  by_cases hr : ∃ x y, polyE O p = rat x ∧ polyE O q = rat y
  · obtain ⟨x, y, hx, hy⟩ := hr
    rw [rats hx hp, rats hy hq, ← map_sub, polyE_C, polyE_C, polyE_C]; rfl
  · rw [key (fun x y h => hr ⟨x, y, h⟩), hn, ok_bind]
    have hno : ∀ x y, ¬ (polyE O p = rat x ∧ polyE O (-q) = rat y) := by
      rintro x y ⟨h1, h2⟩
      refine hr ⟨x, -y, h1, ?_⟩
      have := rats h2 (good_neg hq)
      rw [neg_eq_iff_eq_neg.1 this, ← map_neg, polyE_C]
    rw [← hadd]
    unfold opAdd
    split
    · exact absurd ⟨‹_›, ‹_›⟩ (hno _ _)
    · rfl

theorem simplify_polyE (hO : O.Exact) {p : MvPolynomial Str ℚ} (hp : Good p) {n : Nat} (hn : 11 ≤ n) : simplifyE O n (polyE O p) = .ok (polyE O p) := by
  rw [simplify_poly hO (polyExpr_polyE hO hp) (by have := height_polyE (O := O) p; omega), toMv_polyE hO hp]
  simp

end NF
end Simpy
