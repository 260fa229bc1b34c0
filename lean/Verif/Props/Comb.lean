import Verif.Model.Comb
import Mathlib.Data.Nat.Choose.Multinomial
import Mathlib.Data.Finset.Sym
import Mathlib.Algebra.BigOperators.Ring.List

/-!
# C17, C18: combinatorics.py
-/

namespace Simpy

theorem genPerms_mem (n : ℤ) : ∀ (k : Nat) (cur : List Nat) (s : ℤ) (l : List Nat), 0 ≤ s →
    (l ∈ genPerms n k cur s ↔ ∃ t : List Nat, l = cur ++ t ∧ t.length = k ∧ s + (t.sum : ℤ) = n)
  | 0, cur, s, l, hs => by
    simp only [genPerms]
    constructor
    · intro h
      split at h
      · exact ⟨[], by simpa using h, rfl, by simpa⟩
      · simp at h
    · rintro ⟨t, rfl, ht, hsum⟩
      obtain rfl := List.length_eq_zero_iff.1 ht
      simp at hsum
      simp [hsum]
  | k + 1, cur, s, l, hs => by
    simp only [genPerms, List.mem_flatMap, List.mem_range]
    constructor
    · rintro ⟨v, hv, h⟩
      obtain ⟨t, rfl, ht, hsum⟩ := (genPerms_mem n k (cur ++ [v]) (s + v) l (by omega)).1 h
      exact ⟨v :: t, by simp, by simp [ht], by simp only [List.sum_cons, Nat.cast_add]; omega⟩
    · rintro ⟨t, rfl, ht, hsum⟩
      cases t with
      | nil => simp at ht
      | cons v t =>
        refine ⟨v, ?_, (genPerms_mem n k _ _ _ (by omega)).2 ⟨t, by simp, by simpa using ht, ?_⟩⟩
        · simp only [List.sum_cons, Nat.cast_add] at hsum
          have : (0 : ℤ) ≤ (t.sum : ℤ) := by positivity
          omega
        · simp only [List.sum_cons, Nat.cast_add] at hsum; omega

theorem genPerms_nodup (n : ℤ) : ∀ (k : Nat) (cur : List Nat) (s : ℤ), 0 ≤ s → (genPerms n k cur s).Nodup
  | 0, cur, s, _ => by simp only [genPerms]; split <;> simp
  | k + 1, cur, s, hs => by
    simp only [genPerms]
    rw [List.nodup_flatMap]
    refine ⟨fun v _ => genPerms_nodup n k _ _ (by omega), ?_⟩
    refine List.Pairwise.imp_of_mem ?_ List.nodup_range
    intro a b _ _ hab l ha hb
    obtain ⟨t, rfl, -, -⟩ := (genPerms_mem n k _ _ _ (by omega)).1 ha
    obtain ⟨u, hu, -, -⟩ := (genPerms_mem n k _ _ _ (by omega)).1 hb
    simp [List.append_assoc] at hu
    exact hab hu.1

/-- **C17** `generate_permutations(i, n)` returns exactly the lists of `i` naturals with sum `n`, each once. -/
theorem generate_permutations_spec (i : Nat) (n : ℤ) :
    (generatePermutations i n).Nodup ∧
    ∀ l : List Nat, l ∈ generatePermutations i n ↔ l.length = i ∧ (l.sum : ℤ) = n := by
  refine ⟨genPerms_nodup n i [] 0 le_rfl, fun l => ?_⟩
  rw [generatePermutations, genPerms_mem n i [] 0 l le_rfl]
  constructor
  · rintro ⟨t, rfl, h1, h2⟩; exact ⟨by simpa using h1, by simpa using h2⟩
  · rintro ⟨h1, h2⟩; exact ⟨l, by simp, h1, by simpa using h2⟩

/-- the hypotheses-free statement on a concrete case -/
example : generatePermutations 2 2 = [[0, 2], [1, 1], [2, 0]] := by decide

theorem foldl_mul_eq_prod : ∀ (l : List Nat) (a : Nat), l.foldl (· * ·) a = a * l.prod
  | [], a => by simp
  | b :: l, a => by simp [foldl_mul_eq_prod l, mul_assoc]

theorem prod_factorial_dvd : ∀ xs : List Nat, (xs.map Nat.factorial).prod ∣ xs.sum.factorial
  | [] => by simp
  | a :: xs => by
    simp only [List.map_cons, List.prod_cons, List.sum_cons]
    exact (mul_dvd_mul_left _ (prod_factorial_dvd xs)).trans (Nat.factorial_mul_factorial_dvd_factorial_add _ _)

/-- **C18** for a non-empty list with sum at most `n` the result `k` satisfies `k * (n - Σ xs)! * Π xᵢ! = n!`: the integer
division is exact. With `Σ xs = n` this is the multinomial coefficient `n! / (x₁! ⋯ xₖ!)`. -/
theorem multinomial_coefficient_spec (xs : List Nat) (n : Nat) (hne : xs ≠ []) (hs : xs.sum ≤ n) :
    ∃ k, multinomialCoefficient xs n = .ok (.int k) ∧
      k * ((n - xs.sum).factorial * (xs.map Nat.factorial).prod) = n.factorial := by
  unfold multinomialCoefficient
  rw [if_neg (by omega)]
  cases xs with
  | nil => exact absurd rfl hne
  | cons a xs =>
    simp only [List.map_cons]
    refine ⟨_, rfl, ?_⟩
    rw [foldl_mul_eq_prod, List.prod_cons]
    apply Nat.div_mul_cancel
    have h1 := prod_factorial_dvd (a :: xs)
    simp only [List.map_cons, List.prod_cons] at h1
    have h2 := Nat.factorial_mul_factorial_dvd_factorial_add (n - (a :: xs).sum) (a :: xs).sum
    rw [Nat.sub_add_cancel hs] at h2
    exact (mul_dvd_mul_left _ h1).trans h2

/-- a sum above `n` is answered with a message, an empty list with an exception: never with a number -/
theorem multinomial_coefficient_rejects (xs : List Nat) (n k : Nat) (h : multinomialCoefficient xs n = .ok (.int k)) :
    xs ≠ [] ∧ xs.sum ≤ n := by
  unfold multinomialCoefficient at h
  split at h
  · simp at h
  · cases xs with
    | nil => simp at h
    | cons a xs => exact ⟨by simp, by omega⟩

example : multinomialCoefficient [2, 1, 1] 4 = .ok (.int 12) := by decide

/-- The `i`-th coefficient used by `expand`. -/
theorem multinomialCoefficient_cons (a : Nat) (xs : List Nat) (hne : xs ≠ []) :
    ∃ k k', multinomialCoefficient (a :: xs) (a + xs.sum) = .ok (.int k) ∧
      multinomialCoefficient xs xs.sum = .ok (.int k') ∧ k = (a + xs.sum).choose a * k' := by
  obtain ⟨k, hk, ek⟩ := multinomial_coefficient_spec (a :: xs) (a + xs.sum) (by simp) (by simp)
  obtain ⟨k', hk', ek'⟩ := multinomial_coefficient_spec xs xs.sum hne le_rfl
  refine ⟨k, k', hk, hk', ?_⟩
  simp only [List.sum_cons, Nat.sub_self, Nat.factorial_zero, one_mul, List.map_cons, List.prod_cons] at ek ek'
  have h1 := Nat.add_choose_mul_factorial_mul_factorial a xs.sum
  rw [← Nat.choose_symm_add] at h1
  have hpos : 0 < a.factorial * (xs.map Nat.factorial).prod :=
    Nat.mul_pos (Nat.factorial_pos _) (List.prod_pos (by simp [Nat.factorial_pos]))
  apply Nat.eq_of_mul_eq_mul_right hpos
  rw [ek, ← h1, ← ek']; ring

/-- value of one summand of the multinomial expansion -/
def monomial {K : Type} [Semiring K] : List K → List Nat → K
  | a :: as, p :: ps => a ^ p * monomial as ps
  | _, _ => 1

/-- the coefficient as a number (0 if it is not one) -/
def coeffVal (xs : List Nat) (n : Nat) : ℕ :=
  match multinomialCoefficient xs n with
  | .ok (.int k) => k
  | _ => 0

theorem genPerms_prefix (n : ℤ) : ∀ (k : Nat) (cur : List Nat) (s : ℤ), 0 ≤ s → s ≤ n →
    genPerms n k cur s = (genPerms (n - s) k [] 0).map (cur ++ ·)
  | 0, cur, s, hs, hn => by
    simp only [genPerms]
    by_cases h : s = n
    · subst h; simp
    · rw [if_neg h, if_neg (by omega)]; simp
  | k + 1, cur, s, hs, hn => by
    simp only [genPerms, List.map_flatMap]
    have e : (min n (n - s) + 1).toNat = (min (n - s) (n - s - 0) + 1).toNat := by
      congr 2; omega
    rw [e]
    refine List.flatMap_congr ?_
    intro v hv
    rw [List.mem_range] at hv
    have hv' : (v : ℤ) ≤ n - s := by omega
    rw [genPerms_prefix n k _ _ (by omega) (by omega), genPerms_prefix (n - s) k _ _ (by omega) (by omega)]
    simp only [List.nil_append, List.map_map, zero_add]
    rw [show n - s - (v : ℤ) = n - (s + v) by ring]
    congr 1
    funext l; simp

theorem generatePermutations_succ (i : Nat) (n : Nat) :
    generatePermutations (i + 1) n =
      (List.range (n + 1)).flatMap (fun v => (generatePermutations i ((n - v : ℕ) : ℤ)).map (fun l => v :: l)) := by
  have e : (min (n : ℤ) ((n : ℤ) - 0) + 1).toNat = n + 1 := by omega
  simp only [generatePermutations, genPerms, e]
  refine List.flatMap_congr ?_
  intro v hv
  rw [List.mem_range] at hv
  rw [genPerms_prefix n i _ _ (by omega) (by omega)]
  simp only [zero_add, List.nil_append]
  rw [show ((n : ℤ) - (v : ℤ)) = ((n - v : ℕ) : ℤ) by omega]
  congr 1

theorem coeffVal_cons {a : Nat} {xs : List Nat} (hne : xs ≠ []) :
    coeffVal (a :: xs) (a + xs.sum) = (a + xs.sum).choose a * coeffVal xs xs.sum := by
  obtain ⟨k, k', h1, h2, h3⟩ := multinomialCoefficient_cons a xs hne
  simp [coeffVal, h1, h2, h3]

theorem coeffVal_single (a : Nat) : coeffVal [a] a = 1 := by
  obtain ⟨k, hk, ek⟩ := multinomial_coefficient_spec [a] a (by simp) (by simp)
  simp only [List.sum_cons, List.sum_nil, add_zero, Nat.sub_self, Nat.factorial_zero, one_mul, List.map_cons,
    List.map_nil, List.prod_cons, List.prod_nil, mul_one] at ek
  have : k = 1 := Nat.eq_of_mul_eq_mul_right (Nat.factorial_pos a) (by rw [ek, one_mul])
  simp [coeffVal, hk, this]

theorem sum_range_list {K : Type} [AddCommMonoid K] (f : ℕ → K) : ∀ n, (∑ i ∈ Finset.range n, f i) = ((List.range n).map f).sum
  | 0 => by simp
  | n + 1 => by rw [Finset.sum_range_succ, sum_range_list f n, List.range_succ]; simp

/-- **C18** together, the two functions give the multinomial theorem in every commutative semiring:
`(a₁ + ⋯ + aₖ)^n` is the sum over `generate_permutations(k, n)` of `multinomial_coefficient(p, n) * a₁^p₁ ⋯ aₖ^pₖ`. -/
theorem multinomial_theorem {K : Type} [CommSemiring K] : ∀ (as : List K) (n : Nat), as ≠ [] →
    as.sum ^ n = ((generatePermutations as.length n).map
      (fun p => (coeffVal p n : K) * monomial as p)).sum
  | [], _, h => absurd rfl h
  | [a], n, _ => by
    have hp : generatePermutations 1 n = [[n]] := by
      rw [show (1 : Nat) = 0 + 1 from rfl, generatePermutations_succ]
      have h0 : ∀ m : ℕ, generatePermutations 0 (m : ℤ) = if m = 0 then [[]] else [] := by
        intro m; simp [generatePermutations, genPerms, eq_comm]
      simp only [h0, List.range_succ, List.flatMap_append, List.flatMap_cons, List.flatMap_nil]
      rw [List.flatMap_eq_nil_iff.2]
      · simp
      · intro v hv; rw [List.mem_range] at hv; rw [if_neg (by omega)]; rfl
    simp [hp, coeffVal_single, monomial]
  | a :: b :: as, n, _ => by
    have ih := multinomial_theorem (b :: as)
    rw [List.sum_cons, List.length_cons, generatePermutations_succ, add_pow]
    simp only [List.map_flatMap]
    rw [show ∀ l : List Nat, ∀ g : Nat → List K, (l.flatMap g).sum = (l.map (fun v => (g v).sum)).sum from
      fun l g => by rw [List.flatMap, List.sum_flatten, List.map_map]; rfl]
    rw [sum_range_list]
    congr 1
    refine List.map_congr_left ?_
    intro m hm
    rw [List.mem_range] at hm
    rw [ih (n - m) (by simp), List.map_map, mul_assoc, mul_comm, ← List.sum_map_mul_right, ← List.sum_map_mul_right]
    congr 1
    refine List.map_congr_left ?_
    intro p hp
    have hps := ((generate_permutations_spec _ _).2 p).1 hp
    have hsum : p.sum = n - m := by exact_mod_cast hps.2
    have hpne : p ≠ [] := by
      intro h; have := hps.1; simp [h] at this
    have hc := coeffVal_cons (a := m) hpne
    rw [hsum, show m + (n - m) = n by omega] at hc
    simp only [Function.comp, hc, monomial]
    push_cast; ring

example : ((2 : ℕ) + 3) ^ 2 = 25 ∧ ((generatePermutations 2 2).map
    (fun p => coeffVal p 2 * monomial [2, 3] p)) = [9, 12, 4] := by decide

end Simpy
