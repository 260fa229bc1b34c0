import Verif.Proofs.NFMono

/-! # Lemmas: powers of monomials -/

namespace Simpy
namespace NF
open Expr Lin Mono1

variable {O : Oracle}

theorem pow_zero' (n : Nat) (b : Expr) : (ctors O (n + 1)).pow b (rat 0) = .ok (rat 1) := by
  show powCtor O (ctors O n) b (rat 0) = _
  simp [powCtor, beq]

theorem pow_one' (n : Nat) (b : Expr) : (ctors O (n + 1)).pow b (rat 1) = .ok b := by
  show powCtor O (ctors O n) b (rat 1) = _
  simp [powCtor, beq]

theorem pow_num (n : Nat) (q : ℚ) (k : ℕ) : (ctors O (n + 1)).pow (rat q) (rat k) = .ok (rat (q ^ k)) := by
  have := rational_power_exact O n q k (.inr (by positivity))
  simpa using this

theorem pow_vp (n : Nat) (s : Str) {j : ℕ} (hj : 1 ≤ j) (k : ℕ) : (ctors O (n + 2)).pow (vp s j) (rat k) =
    .ok (mono O 1 (Finsupp.single s (j * k))) := by
  by_cases k0 : k = 0
  · subst k0
    rw [mul_zero, Finsupp.single_zero, mono_const]
    simpa using pow_zero' (O := O) (n + 1) (vp s j)
  by_cases k1 : k = 1
  · subst k1
    rw [mul_one, ← vp_mono s hj]
    simpa using pow_one' (O := O) (n + 1) (vp s j)
  rw [← vp_mono s (Nat.mul_pos hj (by omega))]
  have hk0 : ¬ ((k : ℚ) = 0) := by exact_mod_cast k0
  have hk1 : ¬ ((k : ℚ) = 1) := by exact_mod_cast k1
  rcases vp_cases s j with ⟨h1, h⟩ | ⟨h1, h⟩
  · rw [h, h1, one_mul]
    exact pow_var' (n + 1) hk0
  · rw [h]
    show powCtor O (ctors O (n + 1)) (pow (sym s) (rat j)) (rat k) = _
    have hp : (ctors O (n + 1)).pow (sym s) (rat (j * k)) = .ok (vp s (j * k)) := by
      have := pow_var' (O := O) (v := s) n (q := ((j * k : ℕ) : ℚ)) (vp_ne (Nat.mul_pos hj (by omega)))
      rw [vp, ← this]; push_cast; rfl
    have hne : ¬ ((j : ℚ) = 1 / k) := by
      have h2 : (2 : ℚ) ≤ j := by exact_mod_cast (by omega : 2 ≤ j)
      have h3 : (1 : ℚ) / k ≤ 1 := by
        rw [div_le_one (by exact_mod_cast (by omega : 0 < k))]
        exact_mod_cast (by omega : 1 ≤ k)
      intro h; linarith
    have hne' : ¬ ((j : ℚ) = (k : ℚ)⁻¹) := by rwa [one_div] at hne
    simp [powCtor, beq, hk0, k1, isAcc, multiplyExponents, hne', opMul, opPow, hp, bind, Except.bind]

theorem lift_pow {n m : Nat} (h : n ≤ m) {a b r : Expr} (e : (ctors O n).pow a b = .ok r) : (ctors O m).pow a b = .ok r :=
  (ctors_le O h).pow a b r e
theorem lift_prod {n m : Nat} (h : n ≤ m) {ts : List Expr} {r : Expr} (e : (ctors O n).prod ts = .ok r) : (ctors O m).prod ts = .ok r :=
  (ctors_le O h).prod ts r e
theorem lift_sum {n m : Nat} (h : n ≤ m) {ts : List Expr} {r : Expr} (e : (ctors O n).sum ts = .ok r) : (ctors O m).sum ts = .ok r :=
  (ctors_le O h).sum ts r e

theorem pow_leaf (n : Nat) {f : Expr} (hf : Leaf f) (k : ℕ) : (ctors O (n + 2)).pow f (rat k) = .ok (mono O (lc f ^ k) (k • lx f)) := by
  cases hf with
  | num q => rw [lc_rat, lx_rat, smul_zero, mono_const]; exact pow_num _ q k
  | pow s j hj => rw [lc_vp, lx_vp, one_pow, pow_vp n s hj, Finsupp.smul_single, smul_eq_mul, mul_comm]

theorem mapR_ok_of {α β : Type} {f : α → R β} {g : α → β} {l : List α} (h : ∀ a ∈ l, f a = .ok (g a)) : mapR f l = .ok (l.map g) := by
  induction l with
  | nil => rfl
  | cons a r ih => simp [mapR, h a (by simp), ih fun b hb => h b (by simp [hb])]

theorem pow_each (n : Nat) {l : List Expr} (hl : ∀ f ∈ l, Leaf f) (k : ℕ) : powEach (ctors O (n + 2)) (rat k) l =
    .ok (monos O (l.map fun f => (lc f ^ k, k • lx f))) := by
  unfold powEach
  rw [mapR_ok_of fun f hf => pow_leaf n (hl f hf) k, monos, List.map_map]
  rfl

theorem prod_pow_map (l : List Expr) (k : ℕ) : ((l.map fun f => (lc f ^ k, k • lx f)).map Prod.fst).prod = (l.map lc).prod ^ k := by
  induction l with
  | nil => simp
  | cons a r ih => simp only [List.map_cons, List.prod_cons, mul_pow, ih]
theorem sum_smul_map (l : List Expr) (k : ℕ) : ((l.map fun f => (lc f ^ k, k • lx f)).map Prod.snd).sum = k • (l.map lx).sum := by
  induction l with
  | nil => simp
  | cons a r ih => simp only [List.map_cons, List.sum_cons, smul_add, ih]

/-- Powers of a product that is not a subtraction. -/
theorem pow_prod_leaves (n : Nat) {l : List Expr} (hl : ∀ f ∈ l, Leaf f) (hs : (prod l).isSubtraction = false) {k : ℕ} (hk : 2 ≤ k) :
    (ctors O (n + 4)).pow (prod l) (rat k) = .ok (mono O ((l.map lc).prod ^ k) (k • (l.map lx).sum)) := by
  have k0 : ¬ ((k : ℚ) = 0) := by exact_mod_cast (by omega : k ≠ 0)
  have k1 : ¬ ((k : ℚ) = 1) := by exact_mod_cast (by omega : k ≠ 1)
  show powCtor O (ctors O (n + 3)) (prod l) (rat k) = _
  have he := pow_each (O := O) (n + 1) hl k
  have hp := prod_monos (O := O) n (l.map fun f => (lc f ^ k, k • lx f))
  rw [prod_pow_map, sum_smul_map] at hp
  have hb : beq O (prod l) (rat 1) = false := rfl
  have hx0 : beq O (rat (k : ℚ)) (rat 0) = false := by simpa [beq] using k0
  have hx1 : beq O (rat (k : ℚ)) (rat 1) = false := by simpa [beq] using k1
  have ha : (prod l).isAcc = false := rfl
  unfold powCtor
  simp only [hx0, hx1, hb, ha, hs, Bool.false_and, Bool.false_eq_true, if_false, Bool.not_false, if_true]
  rw [he, ok_bind]
  exact hp

theorem mono_form {c : ℚ} {d : Str →₀ ℕ} (h0 : c ≠ 0) (hd : d ≠ 0) : (∃ s k, 1 ≤ k ∧ c = 1 ∧ mono O c d = vp s k) ∨
    (mono O c d = prod (flatP (mono O c d)) ∧ ((mono O c d).isSubtraction = decide (c < 0))) := by
  have hf := flat_mono (O := O) (d := d) h0
  have hm : mono O c d = if c = 1 then one (fs O d) else prod (rat c :: fs O d) := by rw [mono, if_neg h0, if_neg hd]
  by_cases h1 : c = 1
  · rw [if_pos h1] at hm
    match hl : fs O d, fs_ne (O := O) hd with
    | [f], _ =>
      obtain ⟨s, hs, rfl⟩ := mem_fs.1 (show f ∈ fs O d by simp [hl])
      exact .inl ⟨s, d s, hs, h1, by rw [hm, hl]; rfl⟩
    | a :: b :: r, _ =>
      right
      rw [if_pos ⟨h1, hd⟩, List.nil_append] at hf
      rw [hf, hm, hl]
      refine ⟨rfl, ?_⟩
      obtain ⟨s, _, rfl⟩ := mem_fs.1 (show a ∈ fs O d by simp [hl])
      have : ¬ (c < 0) := by rw [h1]; norm_num
      simp only [one, this, decide_false]
      rcases vp_cases s (d s) with ⟨_, h⟩ | ⟨_, h⟩ <;> rw [h] <;> rfl
  · right
    rw [if_neg h1] at hm
    rw [if_neg (by tauto)] at hf
    rw [hf, hm]
    exact ⟨rfl, rfl⟩

/-- Powers of monomials. -/
theorem pow_mono (n : Nat) (c : ℚ) (d : Str →₀ ℕ) (k : ℕ) : (ctors O (n + 5)).pow (mono O c d) (rat k) = .ok (mono O (c ^ k) (k • d)) := by
  by_cases k0 : k = 0
  · subst k0
    rw [pow_zero, zero_smul, mono_const]
    simpa using pow_zero' (O := O) (n + 4) (mono O c d)
  by_cases k1 : k = 1
  · subst k1
    rw [pow_one, one_smul]
    simpa using pow_one' (O := O) (n + 4) (mono O c d)
  by_cases h0 : c = 0
  · subst h0
    rw [mono_zero, pow_num, zero_pow k0, mono_zero]
  by_cases hd : d = 0
  · subst hd
    rw [mono_const, pow_num, smul_zero, mono_const]
  have hpos : ∀ m, ∀ c : ℚ, c ≠ 0 → ¬ c < 0 → (ctors O (m + 4)).pow (mono O c d) (rat k) = .ok (mono O (c ^ k) (k • d)) := by
    intro m c h0 hc
    rcases mono_form (O := O) h0 hd with ⟨s, j, hj, h1, h⟩ | ⟨h, hs⟩
    · rw [h, h1]
      have e : mono O 1 d = mono O 1 (Finsupp.single s j) := by rw [← vp_mono s hj, ← h, h1]
      have hdd : d = Finsupp.single s j := by
        have a := mono_lx (O := O) 1 d
        have b := mono_lx (O := O) 1 (Finsupp.single s j)
        rw [e, b] at a
        simpa [dg] using a.symm
      rw [pow_vp (m + 2) s hj, one_pow, hdd, Finsupp.smul_single, smul_eq_mul, mul_comm]
    · have hk := pow_prod_leaves (O := O) m (mono_leaves (O := O) (c := c) (d := d)) (by rw [← h, hs]; simpa using hc) (k := k) (by omega)
      rw [← h, mono_lc, mono_lx, dg, if_neg h0] at hk
      exact hk
  by_cases hc : c < 0
  · rcases mono_form (O := O) h0 hd with ⟨s, j, hj, h1, h⟩ | ⟨h, hs⟩
    · rw [h1] at hc; norm_num at hc
    · have hk0 : ¬ ((k : ℚ) = 0) := by exact_mod_cast k0
      have hk1 : ¬ ((k : ℚ) = 1) := by exact_mod_cast k1
      have hneg := neg_monoE (O := O) (n + 1) c d
      have hp := hpos n (-c) (by simpa using h0) (by linarith)
      rw [decide_eq_true hc] at hs
      generalize hl : flatP (mono O c d) = l at *
      rw [h] at hs hneg ⊢
      show powCtor O (ctors O (n + 4)) (prod l) (rat k) = _
      have hb : beq O (prod l) (rat 1) = false := rfl
      have hx0 : beq O (rat (k : ℚ)) (rat 0) = false := by simpa [beq] using hk0
      have hx1 : beq O (rat (k : ℚ)) (rat 1) = false := by simpa [beq] using hk1
      have ha : (prod l).isAcc = false := rfl
      unfold powCtor
      simp only [hx0, hx1, hb, ha, hs, Bool.false_and, Bool.false_eq_true, if_false, Bool.not_true, powLog, powTail]
      have hden : ((k : ℚ).den == 1) = true := by simp
      simp only [hden, Bool.and_self, if_true]
      rw [hneg, ok_bind, hp]
      rcases Nat.even_or_odd k with he | ho
      · have hm : (k : ℚ).num % 2 = 0 := by
          obtain ⟨j, rfl⟩ := he
          have : ((j + j : ℕ) : ℚ).num = ((j + j : ℕ) : ℤ) := Rat.num_natCast _
          rw [this]; omega
        rw [if_pos hm, he.neg_pow]
      · have hm : ¬ ((k : ℚ).num % 2 = 0) := by
          obtain ⟨j, rfl⟩ := ho
          have : ((2 * j + 1 : ℕ) : ℚ).num = 2 * j + 1 := by
            have : ((2 * j + 1 : ℕ) : ℚ).num = ((2 * j + 1 : ℕ) : ℤ) := Rat.num_natCast _
            rw [this]; push_cast; ring
          rw [this]; omega
        rw [if_neg hm, ok_bind, neg_monoE (n + 1), ho.neg_pow, neg_neg]
  · exact lift_pow (Nat.le_succ _) (hpos n c h0 hc)

end NF
end Simpy
