import Verif.Proofs.NFPoly
import Verif.Props.Comb
import Mathlib.Algebra.MvPolynomial.Supported

/-! # Lemmas: products and powers of polynomials in normal form, multiplied out -/

namespace Simpy
namespace NF
open Expr Lin Mono1

variable {O : Oracle}

/-! ## Names -/

theorem good_iff {p : MvPolynomial Str ℚ} : Good p ↔ p ∈ MvPolynomial.supported ℚ {s | goodName s = true} := by
  rw [MvPolynomial.mem_supported]
  constructor
  · intro h s hs
    obtain ⟨d, hd, hs⟩ := (MvPolynomial.mem_vars s).1 hs
    exact h d hd s (Finsupp.mem_support_iff.1 hs)
  · intro h d hd s hs
    exact h ((MvPolynomial.mem_vars s).2 ⟨d, hd, Finsupp.mem_support_iff.2 hs⟩)

theorem good_C (q : ℚ) : Good (MvPolynomial.C q) := good_iff.2 (Subalgebra.algebraMap_mem _ q)
theorem good_X {s : Str} (h : goodName s = true) : Good (MvPolynomial.X s) :=
  good_iff.2 (MvPolynomial.X_mem_supported.2 h)
theorem good_mul {p q : MvPolynomial Str ℚ} (hp : Good p) (hq : Good q) : Good (p * q) := good_iff.2 (mul_mem (good_iff.1 hp) (good_iff.1 hq))
theorem good_pow {p : MvPolynomial Str ℚ} (hp : Good p) (k : ℕ) : Good (p ^ k) := good_iff.2 (pow_mem (good_iff.1 hp) k)
theorem good_sum {l : List (MvPolynomial Str ℚ)} (h : ∀ p ∈ l, Good p) : Good l.sum :=
  good_iff.2 (list_sum_mem fun p hp => good_iff.1 (h p hp))
theorem good_prod {l : List (MvPolynomial Str ℚ)} (h : ∀ p ∈ l, Good p) : Good l.prod :=
  good_iff.2 (list_prod_mem fun p hp => good_iff.1 (h p hp))

/-! ## Products -/

/-- `itertools.product`. -/
def cart {α : Type} : List (List α) → List (List α)
  | [] => [[]]
  | l :: r => l.flatMap (fun a => (cart r).map (fun as => a :: as))

theorem cartesian_map {α : Type} (f : α → Expr) (ls : List (List α)) : cartesian (ls.map (List.map f)) = (cart ls).map (List.map f) := by
  induction ls with
  | nil => rfl
  | cons l r ih =>
    simp only [List.map_cons, cartesian, cart, ih, List.flatMap_map, List.map_flatMap, List.map_map]
    rfl

theorem mem_cart {α : Type} {ls : List (List α)} {c : List α} (h : c ∈ cart ls) {a : α} (ha : a ∈ c) : ∃ l ∈ ls, a ∈ l := by
  induction ls generalizing c with
  | nil => simp [cart] at h; subst h; simp at ha
  | cons l r ih =>
    simp only [cart, List.mem_flatMap, List.mem_map] at h
    obtain ⟨x, hx, as, has, rfl⟩ := h
    rcases List.mem_cons.1 ha with rfl | ha
    · exact ⟨l, by simp, hx⟩
    · obtain ⟨l', h1, h2⟩ := ih has ha; exact ⟨l', by simp [h1], h2⟩

theorem cart_sum {α K : Type} [CommSemiring K] (f : α → K) (ls : List (List α)) :
    ((cart ls).map fun c => (c.map f).prod).sum = (ls.map fun l => (l.map f).sum).prod := by
  induction ls with
  | nil => simp [cart]
  | cons l r ih =>
    simp only [cart, List.map_cons, List.prod_cons]
    rw [← ih, List.map_flatMap, List.flatMap, List.sum_flatten, List.map_map, ← List.sum_map_mul_right]
    congr 1
    refine List.map_congr_left fun a _ => ?_
    simp only [Function.comp, List.map_map, List.map_cons, List.prod_cons]
    rw [← List.sum_map_mul_left]
    rfl

/-- The monomial. -/
noncomputable def mon (q : ℚ × (Str →₀ ℕ)) : MvPolynomial Str ℚ := MvPolynomial.monomial q.2 q.1

theorem pol_mon (l : List (ℚ × (Str →₀ ℕ))) : pol l = (l.map mon).sum := rfl

theorem mon_prod (l : List (ℚ × (Str →₀ ℕ))) : (l.map mon).prod = MvPolynomial.monomial (l.map Prod.snd).sum (l.map Prod.fst).prod := by
  induction l with
  | nil => simp
  | cons p r ih => rw [List.map_cons, List.prod_cons, ih, mon, MvPolynomial.monomial_mul]; simp

theorem prod_mons (n : Nat) (l : List (ℚ × (Str →₀ ℕ))) : (ctors O (n + 3)).prod (monos O l) = .ok (polyE O (l.map mon).prod) := by
  rw [prod_monos, mon_prod, polyE_mono]

/-- The factors that are sums and those that are not. -/
theorem split_polys (ps : List (MvPolynomial Str ℚ)) (hg : ∀ p ∈ ps, Good p) : ∃ (lo : List (ℚ × (Str →₀ ℕ))) (ls : List (List (ℚ × (Str →₀ ℕ)))),
    (ps.map (polyE O)).filter (fun t => !t.isSum) = monos O lo ∧ (ps.map (polyE O)).filterMap sumTerms = ls.map (monos O) ∧
    (lo.map mon).prod * (ls.map pol).prod = ps.prod ∧ (∀ q ∈ lo, Good (mon q)) ∧ ∀ l ∈ ls, ∀ q ∈ l, Good (mon q) := by
  induction ps with
  | nil => exact ⟨[], [], rfl, rfl, by simp, by simp, by simp⟩
  | cons p r ih =>
    obtain ⟨lo, ls, h1, h2, h3, h4, h5⟩ := ih fun q hq => hg q (by simp [hq])
    rcases polyE_cases (O := O) p with ⟨c, d, rfl⟩ | ⟨h, _⟩
    · have hs := sum_mono (O := O) c d
      have ht : sumTerms (mono O c d) = none := by
        generalize mono O c d = e at *
        cases e <;> simp_all [isSum, sumTerms]
      refine ⟨(c, d) :: lo, ls, ?_, ?_, ?_, List.forall_mem_cons.2 ⟨hg (MvPolynomial.monomial d c) (by simp), h4⟩, h5⟩
      · rw [List.map_cons, polyE_mono, List.filter_cons, hs, h1]; rfl
      · rw [List.map_cons, polyE_mono, List.filterMap_cons, ht, h2]
      · rw [List.map_cons, List.prod_cons, List.prod_cons, ← h3, mon, mul_assoc]
    · obtain ⟨l, g1, g2, g3, _⟩ := terms_list (O := O) p
      have g4 : ∀ q ∈ l, Good (mon q) := fun q hq => good_mono (hg p (by simp) q.2 (by
        rw [MvPolynomial.mem_support_iff, ← (g3 q hq).1]; exact (g3 q hq).2))
      refine ⟨lo, l :: ls, ?_, ?_, ?_, h4, List.forall_mem_cons.2 ⟨g4, h5⟩⟩
      · rw [List.map_cons, h, List.filter_cons, h1]; rfl
      · rw [List.map_cons, h, List.filterMap_cons, h2, g1]; rfl
      · rw [List.map_cons, List.prod_cons, List.prod_cons, ← h3, g2]; ring

theorem monos_append (a b : List (ℚ × (Str →₀ ℕ))) : monos O (a ++ b) = monos O a ++ monos O b := by simp [monos]

/-- The factors are multiplied out. -/
theorem mult_out (hO : O.Exact) (n : Nat) (ps : List (MvPolynomial Str ℚ)) (hg : ∀ p ∈ ps, Good p) (r : ℚ) :
    (if ((ps.map (polyE O)).filterMap sumTerms).isEmpty then (ctors O (n + 6)).prod ((ps.map (polyE O)).filter (fun t => !t.isSum) ++ [rat r])
      else do
        let qs ← mapR (fun c => (ctors O (n + 6)).prod ((ps.map (polyE O)).filter (fun t => !t.isSum) ++ c ++ [rat r]))
          (cartesian ((ps.map (polyE O)).filterMap sumTerms))
        (ctors O (n + 6)).sum qs) = .ok (polyE O (MvPolynomial.C r * ps.prod)) := by
  obtain ⟨lo, ls, h1, h2, h3, h4, h5⟩ := split_polys (O := O) ps hg
  rw [h1, h2]
  have hr : [rat r] = monos O [(r, 0)] := by simp [monos, mono_const]
  have hone : ∀ c, (ctors O (n + 6)).prod (monos O lo ++ monos O c ++ [rat r]) = .ok (polyE O ((lo.map mon).prod * (c.map mon).prod * MvPolynomial.C r)) := by
    intro c
    rw [hr, ← monos_append, ← monos_append, prod_mons (n + 3)]
    simp [mon, mul_assoc]
  by_cases he : ls = []
  · subst he
    have := hone []
    simp only [List.map_nil, List.isEmpty_nil, if_true]
    rw [show monos O lo ++ [rat r] = monos O lo ++ monos O [] ++ [rat r] by simp [monos], this, ← h3]
    simp [mul_comm]
  · have he' : (ls.map (monos O)).isEmpty = false := by cases ls <;> simp_all
    rw [he']
    simp only [Bool.false_eq_true, if_false]
    have hm : ls.map (monos O) = ls.map (List.map fun q => mono O q.1 q.2) := rfl
    rw [hm, cartesian_map]
    have hmap : mapR (fun c => (ctors O (n + 6)).prod (monos O lo ++ c ++ [rat r])) ((cart ls).map (List.map fun q => mono O q.1 q.2)) =
        .ok (((cart ls).map fun c => (lo.map mon).prod * (c.map mon).prod * MvPolynomial.C r).map (polyE O)) := by
      generalize cart ls = cs
      induction cs with
      | nil => rfl
      | cons c cs ih =>
        rw [List.map_cons, mapR]
        have := hone c
        rw [show monos O c = c.map fun q => mono O q.1 q.2 from rfl] at this
        rw [this, ih]; rfl
    rw [hmap, ok_bind]
    have hsum : ((cart ls).map fun c => (lo.map mon).prod * (c.map mon).prod * MvPolynomial.C r).sum = MvPolynomial.C r * ps.prod := by
      rw [List.sum_map_mul_right, List.sum_map_mul_left, cart_sum, ← h3]
      have : (ls.map fun l => (l.map mon).sum) = ls.map pol := rfl
      rw [this]; ring
    rw [← hsum]
    refine sum_polys hO n _ fun q hq => ?_
    obtain ⟨c, hc, rfl⟩ := List.mem_map.1 hq
    refine good_mul (good_mul (good_prod fun p hp => ?_) (good_prod fun p hp => ?_)) (good_C r)
    · obtain ⟨q, hq, rfl⟩ := List.mem_map.1 hp; exact h4 q hq
    · obtain ⟨q, hq, rfl⟩ := List.mem_map.1 hp
      obtain ⟨l, hl, hq⟩ := mem_cart hc hq
      exact h5 l hl q hq

/-! ## Powers -/

theorem mon_pow (q : ℚ × (Str →₀ ℕ)) (k : ℕ) : mon q ^ k = mon (q.1 ^ k, k • q.2) := by
  rw [mon, mon, MvPolynomial.monomial_pow]

theorem zip_pows (n : Nat) : ∀ (l : List (ℚ × (Str →₀ ℕ))) (perm : List ℕ), l.length = perm.length → ∃ m : List (ℚ × (Str →₀ ℕ)),
    mapR (fun tp : Expr × Nat => (ctors O (n + 5)).pow tp.1 (rat tp.2)) ((monos O l).zip perm) = .ok (monos O m) ∧
    (m.map mon).prod = Simpy.monomial (l.map mon) perm
  | [], perm, h => ⟨[], by simp [monos, mapR], by simp [Simpy.monomial]⟩
  | q :: r, [], h => by simp at h
  | q :: r, k :: perm, h => by
    obtain ⟨m, h1, h2⟩ := zip_pows n r perm (by simpa using h)
    refine ⟨(q.1 ^ k, k • q.2) :: m, ?_, ?_⟩
    · show mapR _ ((mono O q.1 q.2, k) :: (monos O r).zip perm) = _
      rw [mapR, h1, pow_mono]; rfl
    · rw [List.map_cons, List.prod_cons, h2, ← mon_pow]; rfl

theorem multinomial_term (n : Nat) {l : List (ℚ × (Str →₀ ℕ))} {k : ℕ} {perm : List ℕ} (hne : l ≠ []) (h1 : perm.length = l.length) (h2 : perm.sum = k) :
    multinomialTerm (ctors O (n + 5)) (monos O l) k perm = .ok (polyE O ((coeffVal perm k : MvPolynomial Str ℚ) * Simpy.monomial (l.map mon) perm)) := by
  have hp : perm ≠ [] := by
    intro h; rw [h] at h1; exact hne (List.length_eq_zero_iff.1 h1.symm)
  obtain ⟨c, hc, -⟩ := multinomial_coefficient_spec perm k hp (by omega)
  obtain ⟨m, g1, g2⟩ := zip_pows (O := O) n l perm h1.symm
  have hv : coeffVal perm k = c := by simp [coeffVal, hc]
  unfold multinomialTerm
  rw [hc, ok_bind, g1, ok_bind, hv, ← g2]
  have hr : rat (c : ℚ) :: monos O m = monos O (((c : ℚ), 0) :: m) := by simp [monos, mono_const]
  dsimp only
  rw [hr, prod_mons (n + 2)]
  simp [mon]

/-- A power is multiplied out. -/
theorem pow_out (hO : O.Exact) (n : Nat) {l : List (ℚ × (Str →₀ ℕ))} (hne : l ≠ []) (hg : ∀ q ∈ l, Good (mon q)) (k : ℕ) :
    (do
      let ps ← mapR (multinomialTerm (ctors O (n + 6)) (monos O l) k) (generatePermutations (monos O l).length k)
      (ctors O (n + 6)).sum ps) = .ok (polyE O (pol l ^ k)) := by
  have hlen : (monos O l).length = l.length := by simp [monos]
  have hmap : mapR (multinomialTerm (ctors O (n + 6)) (monos O l) k) (generatePermutations (monos O l).length k) =
      .ok ((generatePermutations l.length k).map fun perm => polyE O ((coeffVal perm k : MvPolynomial Str ℚ) * Simpy.monomial (l.map mon) perm)) := by
    rw [hlen]
    refine mapR_ok_of fun perm hp => ?_
    obtain ⟨a, b⟩ := ((generate_permutations_spec l.length k).2 perm).1 hp
    exact multinomial_term (n + 1) hne a (by exact_mod_cast b)
  rw [hmap, ok_bind]
  have hml := multinomial_theorem (l.map mon) k (by simpa using hne)
  rw [List.length_map] at hml
  rw [pol_mon, hml]
  have := sum_polys hO n ((generatePermutations l.length k).map fun perm => (coeffVal perm k : MvPolynomial Str ℚ) * Simpy.monomial (l.map mon) perm) ?_
  · rw [List.map_map] at this; exact this
  · intro p hp
    obtain ⟨perm, -, rfl⟩ := List.mem_map.1 hp
    have hm : ∀ (l : List (ℚ × (Str →₀ ℕ))), (∀ q ∈ l, Good (mon q)) → ∀ perm : List ℕ, Good (Simpy.monomial (l.map mon) perm) := by
      intro l
      induction l with
      | nil => intro _ perm; exact good_C 1
      | cons q r ih =>
        intro hg perm
        cases perm with
        | nil => exact good_C 1
        | cons k perm => exact good_mul (good_pow (hg q (by simp)) k) (ih (fun q hq => hg q (by simp [hq])) perm)
    refine good_mul ?_ (hm l hg perm)
    have := good_C ((coeffVal perm k : ℕ) : ℚ)
    rwa [map_natCast] at this

/-- Powers of sums that are not subtractions are kept. -/
theorem pow_sum_keep (n : Nat) {ws : List Expr} (hs : (sum ws).isSubtraction = false) {k : ℕ} (hk : 2 ≤ k) :
    (ctors O (n + 1)).pow (sum ws) (rat k) = .ok (pow (sum ws) (rat k)) := by
  have k0 : ¬ ((k : ℚ) = 0) := by exact_mod_cast (by omega : k ≠ 0)
  have k1 : ¬ ((k : ℚ) = 1) := by exact_mod_cast (by omega : k ≠ 1)
  show powCtor O (ctors O n) (sum ws) (rat k) = _
  have hb : beq O (sum ws) (rat 1) = false := rfl
  have hx0 : beq O (rat (k : ℚ)) (rat 0) = false := by simpa [beq] using k0
  have hx1 : beq O (rat (k : ℚ)) (rat 1) = false := by simpa [beq] using k1
  have ha : (sum ws).isAcc = false := rfl
  have hi1 : beq O (rat (k : ℚ)) inf = false := rfl
  have hi2 : beq O (rat (k : ℚ)) neginf = false := rfl
  unfold powCtor
  simp only [hx0, hx1, hb, ha, hs, Bool.false_and, Bool.false_eq_true, if_false, powLog, powTail, powInf, hi1, hi2, ite_self]

theorem pow_sum_even (n : Nat) {ws : List Expr} (hs : (sum ws).isSubtraction = true) {k : ℕ} (hk : 2 ≤ k) (he : Even k) {nb : Expr}
    (hn : opNeg (ctors O n) (sum ws) = .ok nb) : (ctors O (n + 1)).pow (sum ws) (rat k) = (ctors O n).pow nb (rat k) := by
  have k0 : ¬ ((k : ℚ) = 0) := by exact_mod_cast (by omega : k ≠ 0)
  have k1 : ¬ ((k : ℚ) = 1) := by exact_mod_cast (by omega : k ≠ 1)
  show powCtor O (ctors O n) (sum ws) (rat k) = _
  have hb : beq O (sum ws) (rat 1) = false := rfl
  have hx0 : beq O (rat (k : ℚ)) (rat 0) = false := by simpa [beq] using k0
  have hx1 : beq O (rat (k : ℚ)) (rat 1) = false := by simpa [beq] using k1
  have ha : (sum ws).isAcc = false := rfl
  have hden : ((k : ℚ).den == 1) = true := by simp
  have hm : (k : ℚ).num % 2 = 0 := by
    obtain ⟨j, rfl⟩ := he
    have : ((j + j : ℕ) : ℚ).num = ((j + j : ℕ) : ℤ) := Rat.num_natCast _
    rw [this]; omega
  unfold powCtor
  simp only [hx0, hx1, hb, ha, hs, Bool.false_and, Bool.false_eq_true, if_false, powLog, powTail, hden, Bool.and_self, if_true]
  rw [hn, ok_bind, if_pos hm]

end NF
end Simpy
