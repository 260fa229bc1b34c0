import Verif.Spec.Evalf
import Verif.Proofs.PowSound2
import Verif.Props.Rationals
import Mathlib.Analysis.SpecialFunctions.Pow.Continuity

/-! Proofs about `evalf`. -/

namespace Simpy
open Expr

/-- A finite Python number: a float, or a natural number kept as a Fraction. -/
def NumP (v : PyNum) (q : ℚ) : Prop := v = .fin q ∨ ∃ k : ℕ, v = .frac k ∧ q = k

/-- The same for expressions. -/
def NumR (r : Expr) (q : ℚ) : Prop := r = flt (.fin q) ∨ ∃ k : ℕ, r = rat k ∧ q = k

def ApproxP (η : ℝ) (v : PyNum) (x : ℝ) : Prop := ∃ q, NumP v q ∧ |(q : ℝ) - x| ≤ η
def Approx (η : ℝ) (r : Expr) (x : ℝ) : Prop := ∃ q, NumR r q ∧ |(q : ℝ) - x| ≤ η

theorem NumP.num {v : PyNum} {q : ℚ} (h : NumP v q) : v.num = some q := by
  rcases h with rfl | ⟨k, rfl, rfl⟩ <;> rfl

theorem NumR.value {r : Expr} {q : ℚ} (h : NumR r q) : NumP (value r) q := by
  rcases h with rfl | ⟨k, rfl, rfl⟩
  · exact .inl rfl
  · exact .inr ⟨k, rfl, rfl⟩

theorem NumP.const {v : PyNum} {q : ℚ} (h : NumP v q) : NumR (const v) q := by
  rcases h with rfl | ⟨k, rfl, rfl⟩
  · exact .inl rfl
  · exact .inr ⟨k, rfl, rfl⟩

theorem NumR.isAcc {r : Expr} {q : ℚ} (h : NumR r q) : r.isAcc = true := by rcases h with rfl | ⟨k, rfl, rfl⟩ <;> rfl
theorem NumR.isNum {r : Expr} {q : ℚ} (h : NumR r q) : r.isNum = true := by rcases h with rfl | ⟨k, rfl, rfl⟩ <;> rfl
theorem NumR.numValue {O : Oracle} {r : Expr} {q : ℚ} (h : NumR r q) : numValue O r = Expr.value r := by
  rcases h with rfl | ⟨k, rfl, rfl⟩ <;> rfl
theorem NumR.beq {O : Oracle} {r s : Expr} {q p : ℚ} (h : NumR r q) (h' : NumR s p) : Expr.beq O r s = true ↔ q = p := by
  rcases h with rfl | ⟨k, rfl, rfl⟩ <;> rcases h' with rfl | ⟨l, rfl, rfl⟩ <;> simp [Expr.beq]
theorem NumR.nat (k : ℕ) : NumR (rat (k : ℚ)) k := .inr ⟨k, rfl, rfl⟩
theorem NumR.zero : NumR (rat 0) 0 := by simpa using NumR.nat 0
theorem NumR.one : NumR (rat 1) 1 := by simpa using NumR.nat 1
theorem NumR.deconPow {r : Expr} {q : ℚ} (h : NumR r q) : deconPow r = (r, rat 1) := by
  rcases h with rfl | ⟨k, rfl, rfl⟩ <;> rfl
theorem NumR.flat {r : Expr} {q : ℚ} (h : NumR r q) : flatS r = [r] ∧ flatP r = [r] := by
  rcases h with rfl | ⟨k, rfl, rfl⟩ <;> simp [flatS, flatP]

theorem ApproxP.mono {η ε : ℝ} {v : PyNum} {x : ℝ} (h : ApproxP η v x) (he : η ≤ ε) : ApproxP ε v x := by
  obtain ⟨q, a, b⟩ := h; exact ⟨q, a, b.trans he⟩
theorem Approx.mono {η ε : ℝ} {v : Expr} {x : ℝ} (h : Approx η v x) (he : η ≤ ε) : Approx ε v x := by
  obtain ⟨q, a, b⟩ := h; exact ⟨q, a, b.trans he⟩
theorem Approx.value {η : ℝ} {r : Expr} {x : ℝ} (h : Approx η r x) : ApproxP η (value r) x := by
  obtain ⟨q, a, b⟩ := h; exact ⟨q, a.value, b⟩
theorem ApproxP.const {η : ℝ} {v : PyNum} {x : ℝ} (h : ApproxP η v x) : Approx η (const v) x := by
  obtain ⟨q, a, b⟩ := h; exact ⟨q, a.const, b⟩

theorem Within.approx {δ : ℝ} {v : PyNum} {x : ℝ} (h : Within δ v x) (hf : ∀ p, v ≠ .frac p) : ApproxP δ v x := by
  obtain ⟨q, hq, hd⟩ := h
  refine ⟨q, ?_, hd⟩
  cases v <;> simp [PyNum.num] at hq
  · exact absurd rfl (hf _)
  · subst hq; exact .inl rfl

theorem inv_le {η δ : ℝ} (h0 : 0 < η) (h : η ≤ δ) : 1 / δ ≤ 1 / η := one_div_le_one_div_of_le h0 h

theorem Within.mono {η δ : ℝ} {v : PyNum} {x : ℝ} (h : Within η v x) (hd : η ≤ δ) : Within δ v x := by
  obtain ⟨q, a, b⟩ := h; exact ⟨q, a, b.trans hd⟩

theorem Accurate.mono {η δ : ℝ} {O : Oracle} (h : Accurate η O) (h0 : 0 < η) (hd : η ≤ δ) : Accurate δ O where
  add ha hb hp hq h1 := (h.add ha hb (hp.trans (inv_le h0 hd)) (hq.trans (inv_le h0 hd)) h1).mono hd
  mul ha hb hp hq h1 := (h.mul ha hb (hp.trans (inv_le h0 hd)) (hq.trans (inv_le h0 hd)) h1).mono hd
  pow ha hb hp hq hc hw h1 := (h.pow ha hb (hp.trans (inv_le h0 hd)) (hq.trans (inv_le h0 hd)) hc (hw.trans (inv_le h0 hd)) h1).mono hd
  powReal := h.powReal
  toFloat hp h1 := ⟨(h.toFloat (hp.trans (inv_le h0 hd)) h1).1.mono hd, (h.toFloat (hp.trans (inv_le h0 hd)) h1).2⟩
  pi := h.pi.trans hd
  e := h.e.trans hd
  log ha hp hw h1 := have := h.log ha (hp.trans (inv_le h0 hd)) (hw.trans (inv_le h0 hd)) h1; ⟨this.1, this.2.mono hd⟩
  trig ha hp hw h1 := have := h.trig ha (hp.trans (inv_le h0 hd)) (hw.trans (inv_le h0 hd)) h1; ⟨this.1, this.2.mono hd⟩
  floats := h.floats

/-! ## Sums and products -/

/-- A binary operation whose floating-point version is uniformly accurate on bounded sets. -/
structure OpU (op : Oracle → PyNum → PyNum → R PyNum) (g : ℝ → ℝ → ℝ) : Prop where
  u : ∀ B : ℝ, 1 ≤ B → ∀ ε : ℝ, 0 < ε → ∃ η : ℝ, 0 < η ∧ ∀ {O : Oracle}, Accurate η O → ∀ {a b v : PyNum} {x y : ℝ}, |x| ≤ B → |y| ≤ B →
    ApproxP η a x → ApproxP η b y → op O a b = .ok v → ApproxP ε v (g x y)
  bd : ∀ B : ℝ, 1 ≤ B → ∃ B' : ℝ, B ≤ B' ∧ ∀ x y, |x| ≤ B → |y| ≤ B → |g x y| ≤ B'

theorem near_bound {p x B η : ℝ} (hx : |x| ≤ B) (h : |p - x| ≤ η) (hη : η ≤ 1) : |p| ≤ B + 1 := by
  have : |p| ≤ |p - x| + |x| := by simpa using abs_add_le (p - x) x
  linarith

theorem opU_add : OpU numAdd (fun x y => x + y) where
  u := by
    intro B hB ε hε
    have h0 : 0 < min (min 1 (1 / (B + 1))) (ε / 3) := by positivity
    refine ⟨_, h0, ?_⟩
    generalize hη : min (min 1 (1 / (B + 1))) (ε / 3) = η at h0
    have e1 : η ≤ 1 := by rw [← hη]; exact (min_le_left _ _).trans (min_le_left _ _)
    have e2 : η ≤ 1 / (B + 1) := by rw [← hη]; exact (min_le_left _ _).trans (min_le_right _ _)
    have e3 : η ≤ ε / 3 := by rw [← hη]; exact min_le_right _ _
    have e4 : B + 1 ≤ 1 / η := by rw [le_div_iff₀ h0, ← le_div_iff₀' (by linarith)]; exact e2
    rintro O hO a b v x y hx hy ⟨p, hp, hpx⟩ ⟨q, hq, hqy⟩ h
    have fl : O.add a b = .ok v → ApproxP ε v (x + y) := by
      intro h
      have w := (hO.add hp.num hq.num ((near_bound hx hpx e1).trans e4) ((near_bound hy hqy e1).trans e4) h).approx
        (fun p => hO.floats.1 a b v p h)
      obtain ⟨r, hr, hd⟩ := w
      refine ⟨r, hr, ?_⟩
      have : (r : ℝ) - (x + y) = (r - (p + q)) + (p - x) + (q - y) := by ring
      rw [this]
      exact (abs_add_three _ _ _).trans (by linarith)
    unfold numAdd at h
    split at h
    · rename_i s t
      cases h
      rcases hp with hp | ⟨k, hp, rfl⟩ <;> cases hp
      rcases hq with hq | ⟨l, hq, rfl⟩ <;> cases hq
      refine ⟨((k + l : ℕ) : ℚ), .inr ⟨k + l, by push_cast; rfl, rfl⟩, ?_⟩
      have : (((k + l : ℕ) : ℚ) : ℝ) - (x + y) = (((k : ℚ) : ℝ) - x) + (((l : ℚ) : ℝ) - y) := by push_cast; ring
      rw [this]
      exact (abs_add_le _ _).trans (by linarith)
    · exact fl h
  bd := fun B hB => ⟨2 * B, by linarith, fun x y hx hy => (abs_add_le x y).trans (by linarith)⟩

theorem mul_near {p q x y B η : ℝ} (hx : |x| ≤ B) (hy : |y| ≤ B) (hp : |p - x| ≤ η) (hq : |q - y| ≤ η) (h1 : η ≤ 1) :
    |p * q - x * y| ≤ (2 * B + 1) * η := by
  have : p * q - x * y = p * (q - y) + (p - x) * y := by ring
  rw [this]
  have a := abs_add_le (p * (q - y)) ((p - x) * y)
  rw [abs_mul, abs_mul] at a
  have b : |p| * |q - y| ≤ (B + 1) * η := mul_le_mul (near_bound hx hp h1) hq (abs_nonneg _) (by linarith [abs_nonneg x])
  have c : |p - x| * |y| ≤ η * B := mul_le_mul hp hy (abs_nonneg _) ((abs_nonneg _).trans hp)
  linarith

theorem opU_mul : OpU numMul (fun x y => x * y) where
  u := by
    intro B hB ε hε
    have h0 : 0 < min (min 1 (1 / (B + 1))) (ε / (2 * B + 2)) := by positivity
    refine ⟨_, h0, ?_⟩
    generalize hη : min (min 1 (1 / (B + 1))) (ε / (2 * B + 2)) = η at h0
    have e1 : η ≤ 1 := by rw [← hη]; exact (min_le_left _ _).trans (min_le_left _ _)
    have e2 : η ≤ 1 / (B + 1) := by rw [← hη]; exact (min_le_left _ _).trans (min_le_right _ _)
    have e3 : η * (2 * B + 2) ≤ ε := by
      rw [← le_div_iff₀ (by linarith)]; rw [← hη]; exact min_le_right _ _
    have e4 : B + 1 ≤ 1 / η := by rw [le_div_iff₀ h0, ← le_div_iff₀' (by linarith)]; exact e2
    rintro O hO a b v x y hx hy ⟨p, hp, hpx⟩ ⟨q, hq, hqy⟩ h
    have m := mul_near hx hy hpx hqy e1
    have fl : O.mul a b = .ok v → ApproxP ε v (x * y) := by
      intro h
      have w := (hO.mul hp.num hq.num ((near_bound hx hpx e1).trans e4) ((near_bound hy hqy e1).trans e4) h).approx
        (fun p => hO.floats.2.1 a b v p h)
      obtain ⟨r, hr, hd⟩ := w
      refine ⟨r, hr, ?_⟩
      have : (r : ℝ) - x * y = (r - p * q) + (p * q - x * y) := by ring
      rw [this]
      exact (abs_add_le _ _).trans (by linarith)
    unfold numMul at h
    split at h
    · rename_i s t
      cases h
      rcases hp with hp | ⟨k, hp, rfl⟩ <;> cases hp
      rcases hq with hq | ⟨l, hq, rfl⟩ <;> cases hq
      refine ⟨((k * l : ℕ) : ℚ), .inr ⟨k * l, by push_cast; rfl, rfl⟩, ?_⟩
      have : (((k * l : ℕ) : ℚ) : ℝ) = ((k : ℚ) : ℝ) * ((l : ℚ) : ℝ) := by push_cast; ring
      rw [this]
      linarith
    · exact fl h
  bd := fun B hB => ⟨B * B, by nlinarith, fun x y hx hy => by
    rw [abs_mul]; exact mul_le_mul hx hy (abs_nonneg _) (by linarith)⟩

theorem fold_U {op : Oracle → PyNum → PyNum → R PyNum} {g : ℝ → ℝ → ℝ} (hg : OpU op g) : ∀ (N : ℕ) (B : ℝ), 1 ≤ B → ∀ ε : ℝ, 0 < ε →
    ∃ η : ℝ, 0 < η ∧ ∀ {O : Oracle}, Accurate η O → ∀ {acc : PyNum} {vs : List PyNum} {v : PyNum} {x : ℝ} {xs : List ℝ},
      xs.length ≤ N → |x| ≤ B → (∀ y ∈ xs, |y| ≤ B) → ApproxP η acc x → List.Forall₂ (ApproxP η) vs xs →
      foldNum (op O) acc vs = .ok v → ApproxP ε v (xs.foldl g x)
  | 0, B, hB, ε, hε => by
    refine ⟨ε, hε, fun {O} _ {acc vs v x xs} hl _ _ ha hf h => ?_⟩
    have : xs = [] := List.length_eq_zero_iff.1 (Nat.le_zero.1 hl)
    subst this
    cases hf
    cases h
    exact ha
  | N + 1, B, hB, ε, hε => by
    obtain ⟨B', hB', hb⟩ := hg.bd B hB
    obtain ⟨η1, h1, ih⟩ := fold_U hg N B' (hB.trans hB') ε hε
    obtain ⟨η2, h2, hu⟩ := hg.u B hB η1 h1
    have h0 : 0 < min (min η1 η2) ε := by positivity
    have l1 : min (min η1 η2) ε ≤ η1 := (min_le_left _ _).trans (min_le_left _ _)
    have l2 : min (min η1 η2) ε ≤ η2 := (min_le_left _ _).trans (min_le_right _ _)
    refine ⟨min (min η1 η2) ε, h0, fun {O} hO {acc vs v x xs} hl hx hxs ha hf h => ?_⟩
    cases hf with
    | nil => cases h; exact ha.mono (min_le_right _ _)
    | cons hv hf =>
      rename_i w y vs' ys
      unfold foldNum at h
      split at h
      · cases h
      · rename_i acc' hacc
        have hacc' := hu (hO.mono h0 l2) hx (hxs y (by simp)) (ha.mono l2) (hv.mono l2) hacc
        have hf' : List.Forall₂ (ApproxP η1) vs' ys := hf.imp fun a b (hab : ApproxP _ a b) => hab.mono l1
        exact ih (hO.mono h0 l1) (x := g x y) (by simpa using hl) (hb x y hx (hxs y (by simp)))
          (fun z hz => (hxs z (by simp [hz])).trans hB') hacc' hf' h

theorem foldl_add_sum (xs : List ℝ) (x : ℝ) : xs.foldl (fun x y => x + y) x = x + xs.sum := by
  induction xs generalizing x with
  | nil => simp
  | cons a r ih => simp [ih, add_assoc]

theorem foldl_mul_prod (xs : List ℝ) (x : ℝ) : xs.foldl (fun x y => x * y) x = x * xs.prod := by
  induction xs generalizing x with
  | nil => simp
  | cons a r ih => simp [ih, mul_assoc]

theorem accumulateSum_U (N : ℕ) (B : ℝ) (hB : 1 ≤ B) (ε : ℝ) (hε : 0 < ε) : ∃ η : ℝ, 0 < η ∧ ∀ {O : Oracle}, Accurate η O →
    ∀ {cs : List Expr} {c : Expr} {xs : List ℝ}, xs.length ≤ N → (∀ y ∈ xs, |y| ≤ B) → List.Forall₂ (Approx η) cs xs →
      accumulateSum O cs = .ok c → Approx ε c xs.sum := by
  obtain ⟨η, h0, hu⟩ := fold_U opU_add N B hB ε hε
  refine ⟨min η ε, by positivity, fun {O} hO {cs c xs} hl hx hf h => ?_⟩
  have gen : ∀ {v}, foldNum (numAdd O) (.frac 0) (cs.map value) = .ok v → ApproxP ε v xs.sum := by
    intro v hv
    have := hu (hO.mono (by positivity) (min_le_left _ _)) (x := 0) hl (by simp; linarith) hx
      ⟨0, .inr ⟨0, rfl, rfl⟩, by simp; exact h0.le⟩ (vs := cs.map value) (xs := xs) ?_ hv
    · simpa [foldl_add_sum] using this
    · rw [List.forall₂_map_left_iff]
      exact hf.imp fun a b (hab : Approx _ a b) => hab.value.mono (min_le_left _ _)
  unfold accumulateSum at h
  split at h
  · cases h
    cases hf with
    | cons h1 h2 => cases h2; simpa using h1.mono (min_le_right _ _)
  · split at h
    · cases h
    · cases h
      exact (gen (by assumption)).const

theorem accumulateProd_U (N : ℕ) (B : ℝ) (hB : 1 ≤ B) (ε : ℝ) (hε : 0 < ε) : ∃ η : ℝ, 0 < η ∧ ∀ {O : Oracle}, Accurate η O →
    ∀ {cs : List Expr} {c : Expr} {xs : List ℝ}, xs.length ≤ N → (∀ y ∈ xs, |y| ≤ B) → List.Forall₂ (Approx η) cs xs →
      accumulateProd O cs = .ok c → Approx ε c xs.prod := by
  obtain ⟨η, h0, hu⟩ := fold_U opU_mul N B hB ε hε
  refine ⟨min η ε, by positivity, fun {O} hO {cs c xs} hl hx hf h => ?_⟩
  have gen : ∀ {v}, foldNum (numMul O) (.frac 1) (cs.map value) = .ok v → ApproxP ε v xs.prod := by
    intro v hv
    have := hu (hO.mono (by positivity) (min_le_left _ _)) (x := 1) hl (by simp; linarith) hx
      ⟨1, .inr ⟨1, by simp, by simp⟩, by simp; exact h0.le⟩ (vs := cs.map value) (xs := xs) ?_ hv
    · simpa [foldl_mul_prod] using this
    · rw [List.forall₂_map_left_iff]
      exact hf.imp fun a b (hab : Approx _ a b) => hab.value.mono (min_le_left _ _)
  unfold accumulateProd at h
  split at h
  · cases h
    cases hf with
    | cons h1 h2 => cases h2; simpa using h1.mono (min_le_right _ _)
  · split at h
    · cases h
    · cases h
      exact (gen (by assumption)).const

theorem flatSL_num {us : List Expr} {η : ℝ} {xs : List ℝ} (h : List.Forall₂ (Approx η) us xs) : flatSL us = us := by
  induction h with
  | nil => simp [flatSL]
  | cons h1 _ ih => obtain ⟨q, hq, -⟩ := h1; simp [flatSL, hq.flat.1, ih]

theorem flatPL_num {us : List Expr} {η : ℝ} {xs : List ℝ} (h : List.Forall₂ (Approx η) us xs) : flatPL us = us := by
  induction h with
  | nil => simp [flatPL]
  | cons h1 _ ih => obtain ⟨q, hq, -⟩ := h1; simp [flatPL, hq.flat.2, ih]

theorem combineSumLoop_num {O : Oracle} {η : ℝ} : ∀ (m : ℕ) {us : List Expr} {xs : List ℝ}, us.length ≤ m →
    List.Forall₂ (Approx η) us xs → combineSumLoop O m us = .ok ([], us)
  | 0, us, _, hl, _ => by
    have : us = [] := List.length_eq_zero_iff.1 (Nat.le_zero.1 hl)
    subst this; rfl
  | m + 1, [], _, _, _ => rfl
  | m + 1, t :: r, xs, hl, hf => by
    cases hf with
    | cons h1 h2 =>
      obtain ⟨q, hq, -⟩ := h1
      rw [combineSumLoop, if_pos hq.isAcc, combineSumLoop_num m (by simpa using hl) h2]
      rfl

/-- A bound for the numbers in a list. -/
theorem exists_bound (xs : List ℝ) : ∃ B : ℝ, 1 ≤ B ∧ ∀ x ∈ xs, |x| ≤ B := by
  induction xs with
  | nil => exact ⟨1, le_rfl, by simp⟩
  | cons a r ih =>
    obtain ⟨B, h1, h2⟩ := ih
    refine ⟨max B |a|, h1.trans (le_max_left _ _), fun x hx => ?_⟩
    rcases List.mem_cons.1 hx with rfl | hx
    · exact le_max_right _ _
    · exact (h2 x hx).trans (le_max_left _ _)

theorem sum_U (xs : List ℝ) (ε : ℝ) (hε : 0 < ε) : ∃ η : ℝ, 0 < η ∧ ∀ {O : Oracle}, Accurate η O → ∀ {m : ℕ} {us : List Expr} {r : Expr},
    List.Forall₂ (Approx η) us xs → (ctors O m).sum us = .ok r → Approx ε r xs.sum := by
  obtain ⟨B, hB, hx⟩ := exists_bound xs
  obtain ⟨η, h0, hu⟩ := accumulateSum_U xs.length B hB ε hε
  refine ⟨η, h0, fun {O} hO {m us r} hf h => ?_⟩
  cases m with
  | zero => cases h
  | succ m =>
    change sumCtor O (ctors O m) us = .ok r at h
    unfold sumCtor at h
    obtain ⟨fs, h1, h⟩ := bind_ok.1 h
    rw [flatSL_num hf] at h1
    unfold combineSum at h1
    rw [combineSumLoop_num us.length le_rfl hf] at h1
    change (if us.isEmpty = true then pure [] else _) = Except.ok fs at h1
    split at h1
    · rename_i he
      cases h1
      cases h
      cases us with
      | nil => cases hf; exact ⟨0, NumR.zero, by simpa using hε.le⟩
      | cons a b => simp at he
    · obtain ⟨c, hc, h1⟩ := bind_ok.1 h1
      have ac := hu hO le_rfl hx hf hc
      obtain ⟨q, hq, hd⟩ := ac
      split at h1
      · rename_i hz
        cases h1
        cases h
        rw [hq.beq NumR.zero] at hz
        subst hz
        exact ⟨0, NumR.zero, hd⟩
      · cases h1
        cases h
        exact ⟨q, hq, hd⟩

/-! ## Products -/

theorem prod_near : ∀ (N : ℕ) (B : ℝ), 1 ≤ B → ∀ ε : ℝ, 0 < ε → ∃ η : ℝ, 0 < η ∧ η ≤ 1 ∧ ∀ {ps xs : List ℝ}, xs.length ≤ N →
    (∀ x ∈ xs, |x| ≤ B) → List.Forall₂ (fun p x => |p - x| ≤ η) ps xs → |ps.prod - xs.prod| ≤ ε ∧ |xs.prod| ≤ B ^ N
  | 0, B, hB, ε, hε => by
    refine ⟨1, one_pos, le_rfl, fun {ps xs} hl _ hf => ?_⟩
    have : xs = [] := List.length_eq_zero_iff.1 (Nat.le_zero.1 hl)
    subst this
    cases hf
    simpa using hε.le
  | N + 1, B, hB, ε, hε => by
    have hBN : 1 ≤ B ^ (N + 1) := one_le_pow₀ hB
    have hBN' : 1 ≤ B ^ N := one_le_pow₀ hB
    have hle : B ≤ B ^ (N + 1) := by simpa using pow_le_pow_right₀ hB (Nat.le_add_left 1 N)
    have hle' : B ^ N ≤ B ^ (N + 1) := pow_le_pow_right₀ hB (Nat.le_succ N)
    have h3 : 0 < min 1 (ε / (2 * B ^ (N + 1) + 1)) := by positivity
    obtain ⟨η, h0, h1, ih⟩ := prod_near N B hB _ h3
    refine ⟨min η (min 1 (ε / (2 * B ^ (N + 1) + 1))), by positivity, (min_le_left _ _).trans h1, fun {ps xs} hl hx hf => ?_⟩
    cases hf with
    | nil => simp; exact ⟨hε.le, hBN⟩
    | cons hp hf =>
      rename_i p x ps xs
      obtain ⟨k1, k2⟩ := ih (by simpa using hl) (fun y hy => hx y (by simp [hy]))
        (hf.imp fun a b (hab : |a - b| ≤ _) => hab.trans (min_le_left _ _))
      have hxB := hx x (by simp)
      rw [List.prod_cons, List.prod_cons]
      constructor
      · refine (mul_near (B := B ^ (N + 1)) (η := min 1 (ε / (2 * B ^ (N + 1) + 1))) (hxB.trans hle) (k2.trans hle')
          (hp.trans (min_le_right _ _)) k1 (min_le_left _ _)).trans ?_
        have : min 1 (ε / (2 * B ^ (N + 1) + 1)) ≤ ε / (2 * B ^ (N + 1) + 1) := min_le_right _ _
        rw [le_div_iff₀ (by positivity)] at this
        linarith
      · rw [abs_mul, pow_succ, mul_comm]
        exact mul_le_mul k2 hxB (abs_nonneg _) (by positivity)

theorem pw_nat (p : ℝ) (k : ℕ) : pw p k = p ^ k := by
  have := pw_int p (k : ℤ)
  simpa using this

theorem natpow (N : ℕ) (B : ℝ) (hB : 1 ≤ B) (ε : ℝ) (hε : 0 < ε) : ∃ η : ℝ, 0 < η ∧ ∀ {O : Oracle}, Accurate η O →
    ∀ {m : ℕ} {t r : Expr} {p : ℚ} {k : ℕ}, 2 ≤ k → k ≤ N → NumR t p → |(p : ℝ)| ≤ B → (ctors O m).pow t (rat k) = .ok r →
      Approx ε r ((p : ℝ) ^ k) := by
  have hBN : 1 ≤ B ^ (N + 1) := one_le_pow₀ hB
  have hle : B ≤ B ^ (N + 1) := by simpa using pow_le_pow_right₀ hB (Nat.le_add_left 1 N)
  have h0 : 0 < min ε (1 / (B ^ (N + 1) + N)) := by positivity
  refine ⟨_, h0, fun {O} hO {m t r p k} hk2 hk hp hpB h => ?_⟩
  generalize hη : min ε (1 / (B ^ (N + 1) + N)) = η at h0 hO
  have e2 : η ≤ 1 / (B ^ (N + 1) + N) := by rw [← hη]; exact min_le_right _ _
  have e3 : η ≤ ε := by rw [← hη]; exact min_le_left _ _
  have e4 : B ^ (N + 1) + N ≤ 1 / η := by rw [le_div_iff₀ h0, ← le_div_iff₀' (by positivity)]; exact e2
  have hN : (0 : ℝ) ≤ N := by positivity
  cases m with
  | zero => cases h
  | succ m =>
    rcases hp with rfl | ⟨l, rfl, rfl⟩
    · change powCtor O (ctors O m) _ _ = _ at h
      unfold powCtor at h
      have k0 : (k : ℚ) ≠ 0 := by positivity
      have k1 : (k : ℚ) ≠ 1 := by exact_mod_cast (by omega : k ≠ 1)
      have b1 : Expr.beq O (rat (k : ℚ)) (rat 0) = false := by simpa [Expr.beq] using k0
      have b2 : Expr.beq O (rat (k : ℚ)) (rat 1) = false := by simpa [Expr.beq] using k1
      rw [b1, b2] at h
      simp only [Bool.false_eq_true, if_false] at h
      split at h
      · rename_i hb
        cases h
        have : p = 1 := ((NumR.beq (.inl rfl) NumR.one).1 hb)
        subst this
        exact ⟨1, NumR.one, by simpa using hε.le⟩
      · simp only [isAcc, Bool.and_self, if_true, accumulatePower] at h
        split at h
        · cases h
        · rename_i heq
          split at heq
          · cases heq
          · cases heq
        · rename_i heq
          split at heq
          · cases heq
          · rename_i v hv
            cases heq
            cases h
            have hpk : |pw (p : ℝ) ((k : ℚ) : ℝ)| ≤ 1 / η := by
              have : ((k : ℚ) : ℝ) = (k : ℝ) := by norm_cast
              rw [this, pw_nat, abs_pow]
              calc |(p : ℝ)| ^ k ≤ B ^ k := pow_le_pow_left₀ (abs_nonneg _) hpB k
                _ ≤ B ^ (N + 1) := pow_le_pow_right₀ hB (by omega)
                _ ≤ 1 / η := by linarith
            have hkN : (k : ℝ) ≤ N := by exact_mod_cast hk
            have w := (hO.pow (a := (flt (.fin p)).value) (b := (rat (k : ℚ)).value) (p := p) (q := k) rfl rfl (by linarith)
              (by rw [abs_of_nonneg (by positivity)]; push_cast; linarith) (.inr (by positivity)) hpk hv).approx
              (fun q => hO.floats.2.2.1 _ _ v q hv)
            have : ((k : ℚ) : ℝ) = (k : ℝ) := by norm_cast
            rw [this, pw_nat] at w
            exact (w.mono e3).const
    · have := rational_power_exact O m (l : ℚ) (k : ℤ) (.inr (by positivity))
      rw [show ((k : ℤ) : ℚ) = (k : ℚ) by norm_cast, h] at this
      cases this
      refine ⟨((l ^ k : ℕ) : ℚ), .inr ⟨l ^ k, by push_cast; rfl, rfl⟩, ?_⟩
      push_cast
      simpa using hε.le

/-- Numbers paired with what they approximate. -/
theorem pairs_of_forall₂ {R : Expr → ℝ → Prop} : ∀ {us : List Expr} {xs : List ℝ}, List.Forall₂ R us xs →
    ∃ zs : List (Expr × ℝ), us = zs.map Prod.fst ∧ xs = zs.map Prod.snd ∧ ∀ z ∈ zs, R z.1 z.2
  | _, _, .nil => ⟨[], rfl, rfl, by simp⟩
  | _, _, .cons (a := a) (b := b) h1 h2 => by
    obtain ⟨zs, e1, e2, h⟩ := pairs_of_forall₂ h2
    exact ⟨(a, b) :: zs, by simp [e1], by simp [e2], by simpa using ⟨h1, fun x y => h (x, y)⟩⟩

theorem prod_split_pairs (q : Expr × ℝ → Bool) (zs : List (Expr × ℝ)) :
    (zs.map Prod.snd).prod = ((zs.filter q).map Prod.snd).prod * ((zs.filter (fun t => !q t)).map Prod.snd).prod := by
  induction zs with
  | nil => simp
  | cons a l ih =>
    simp only [List.map_cons, List.prod_cons, ih]
    cases hv : q a <;> simp [List.filter_cons, hv] <;> ring

theorem combineProdLoop_U (N : ℕ) (B : ℝ) (hB : 1 ≤ B) (ε : ℝ) (hε : 0 < ε) : ∃ η : ℝ, 0 < η ∧ ∀ {O : Oracle}, Accurate η O →
    ∀ (m n : ℕ) (zs : List (Expr × ℝ)) {nc cs : List Expr}, zs.length ≤ n → zs.length ≤ N → (∀ z ∈ zs, |z.2| ≤ B) →
      (∀ z ∈ zs, Approx η z.1 z.2) → combineProdLoop O (ctors O m) n (zs.map Prod.fst) = .ok (nc, cs) →
      nc = [] ∧ ∃ ys : List ℝ, List.Forall₂ (Approx ε) cs ys ∧ ys.prod = (zs.map Prod.snd).prod ∧ ys.length ≤ zs.length ∧
        ∀ y ∈ ys, |y| ≤ B ^ (N + 1) := by
  obtain ⟨η1, h1, hp⟩ := natpow N (B + 1) (by linarith) (ε / 2) (by positivity)
  obtain ⟨η2, h2, h2', hq⟩ := prod_near N B hB (ε / 2) (by positivity)
  have hBN' : B ^ N ≤ B ^ (N + 1) := pow_le_pow_right₀ hB (Nat.le_succ N)
  have hle : B ≤ B ^ (N + 1) := by simpa using pow_le_pow_right₀ hB (Nat.le_add_left 1 N)
  have h0 : 0 < min (min η1 η2) ε := by positivity
  have l1 : min (min η1 η2) ε ≤ η1 := (min_le_left _ _).trans (min_le_left _ _)
  have l2 : min (min η1 η2) ε ≤ η2 := (min_le_left _ _).trans (min_le_right _ _)
  have l3 : min (min η1 η2) ε ≤ ε := min_le_right _ _
  refine ⟨_, h0, fun {O} hO m => ?_⟩
  generalize min (min η1 η2) ε = η at h0 l1 l2 l3 hO
  intro n
  induction n with
  | zero =>
    intro zs nc cs hl _ _ _ h
    have : zs = [] := List.length_eq_zero_iff.1 (Nat.le_zero.1 hl)
    subst this
    cases h
    exact ⟨rfl, [], .nil, rfl, by simp, by simp⟩
  | succ n ih =>
    intro zs nc cs hl hN hx ha h
    cases zs with
    | nil => cases h; exact ⟨rfl, [], .nil, rfl, by simp, by simp⟩
    | cons z zs =>
      obtain ⟨p, hpz, hpd⟩ := ha z (by simp)
      have hz : ∀ w ∈ zs, ∃ q, NumR w.1 q ∧ |(q : ℝ) - w.2| ≤ η := fun w hw => ha w (by simp [hw])
      rw [List.map_cons, combineProdLoop] at h
      simp only [hpz.deconPow] at h
      have ef : (zs.map Prod.fst).filter (fun u => Expr.beq O (deconPow u).1 z.1) =
          (zs.filter (fun w => Expr.beq O (deconPow w.1).1 z.1)).map Prod.fst := by rw [List.filter_map]; rfl
      have eg : (zs.map Prod.fst).filter (fun u => !Expr.beq O (deconPow u).1 z.1) =
          (zs.filter (fun w => !Expr.beq O (deconPow w.1).1 z.1)).map Prod.fst := by rw [List.filter_map]; rfl
      rw [ef, eg] at h
      have sp := prod_split_pairs (fun w => Expr.beq O (deconPow w.1).1 z.1) zs
      have lh := List.length_filter_le (fun w => Expr.beq O (deconPow w.1).1 z.1) zs
      have lr := List.length_filter_le (fun w => !Expr.beq O (deconPow w.1).1 z.1) zs
      have lsum : (zs.filter (fun w => Expr.beq O (deconPow w.1).1 z.1)).length +
          (zs.filter (fun w => !Expr.beq O (deconPow w.1).1 z.1)).length = zs.length := by
        have := List.length_eq_length_filter_add (l := zs) (fun w => Expr.beq O (deconPow w.1).1 z.1)
        omega
      have mh : ∀ w ∈ zs.filter (fun w => Expr.beq O (deconPow w.1).1 z.1), |(p : ℝ) - w.2| ≤ η ∧ |w.2| ≤ B ∧ (deconPow w.1).2 = rat 1 := by
        intro w hw
        obtain ⟨w1, w2⟩ := List.mem_filter.1 hw
        obtain ⟨q, hq, hd⟩ := hz w w1
        rw [hq.deconPow] at w2
        have := (hq.beq hpz).1 w2
        subst this
        exact ⟨hd, hx w (by simp [w1]), by rw [hq.deconPow]⟩
      have mr : ∀ w ∈ zs.filter (fun w => !Expr.beq O (deconPow w.1).1 z.1), w ∈ zs := fun w hw => (List.mem_filter.1 hw).1
      generalize zs.filter (fun w => Expr.beq O (deconPow w.1).1 z.1) = hs at *
      generalize zs.filter (fun w => !Expr.beq O (deconPow w.1).1 z.1) = rs at *
      simp only [List.length_cons] at hl hN
      have rec' := fun nc cs => @ih rs nc cs (by omega) (by omega) (fun w hw => hx w (by simp [mr w hw])) (fun w hw => ha w (by simp [mr w hw]))
      split at h
      · rename_i he
        obtain ⟨⟨nc', cs'⟩, h3, h⟩ := bind_ok.1 h
        obtain ⟨rfl, ys, f1, f2, f3, f4⟩ := rec' _ _ h3
        dsimp only at h
        rw [if_pos hpz.isAcc] at h
        cases h
        have : hs = [] := by simpa using he
        subst this
        refine ⟨rfl, z.2 :: ys, .cons ⟨p, hpz, hpd.trans l3⟩ f1, by simp [sp, f2], by simp; omega, ?_⟩
        intro y hy
        rcases List.mem_cons.1 hy with rfl | hy
        · exact (hx z (by simp)).trans hle
        · exact f4 y hy
      · rename_i he
        have he' : hs ≠ [] := by simpa using he
        have hpos : 1 ≤ hs.length := List.length_pos_iff.2 he'
        obtain ⟨expo, h4, h⟩ := bind_ok.1 h
        obtain ⟨o, h5, h⟩ := bind_ok.1 h
        obtain ⟨⟨nc', cs'⟩, h3, h⟩ := bind_ok.1 h
        obtain ⟨rfl, ys, f1, f2, f3, f4⟩ := rec' _ _ h3
        have er : (hs.map Prod.fst).map (fun u => (deconPow u).2) = List.replicate hs.length (rat 1) := by
          rw [List.eq_replicate_iff]
          refine ⟨by simp, fun b hb => ?_⟩
          obtain ⟨u, hu, rfl⟩ := List.mem_map.1 hb
          obtain ⟨w, hw, rfl⟩ := List.mem_map.1 hu
          exact (mh w hw).2.2
        rw [er, foldAdd_ones] at h4
        cases h4
        have ek : rat (1 + (hs.length : ℚ)) = rat ((1 + hs.length : ℕ) : ℚ) := by push_cast; rfl
        rw [ek] at h5
        have b1 : Expr.beq O (rat ((1 + hs.length : ℕ) : ℚ)) (rat 0) = false := by
          have : ((1 + hs.length : ℕ) : ℚ) ≠ 0 := by positivity
          simpa [Expr.beq] using this
        have b2 : Expr.beq O (rat ((1 + hs.length : ℕ) : ℚ)) (rat 1) = false := by
          have : ((1 + hs.length : ℕ) : ℚ) ≠ 1 := by exact_mod_cast (by omega : 1 + hs.length ≠ 1)
          simpa [Expr.beq] using this
        rw [likeFactor, b1, b2] at h5
        simp only [Bool.false_eq_true, if_false] at h5
        split at h5
        · cases h5
        · rename_i t' ht
          cases h5
          have np := hp (hO.mono h0 l1) (by omega) (by omega) hpz (near_bound (hx z (by simp)) hpd (l2.trans h2')) ht
          obtain ⟨q1, q2⟩ := @hq (List.replicate (1 + hs.length) (p : ℝ)) ((z :: hs).map Prod.snd) (by simp; omega)
            (fun y hy => by
              obtain ⟨w, hw, rfl⟩ := List.mem_map.1 hy
              rcases List.mem_cons.1 hw with rfl | hw
              · exact hx w (by simp)
              · exact (mh w hw).2.1) (by
              rw [add_comm, List.replicate_succ, List.map_cons]
              refine .cons (hpd.trans l2) ?_
              rw [List.forall₂_map_right_iff]
              have : ∀ l : List (Expr × ℝ), (∀ w ∈ l, |(p : ℝ) - w.2| ≤ η2) →
                  List.Forall₂ (fun (a : ℝ) (c : Expr × ℝ) => |a - c.2| ≤ η2) (List.replicate l.length (p : ℝ)) l := by
                intro l hl
                induction l with
                | nil => exact .nil
                | cons a l ih =>
                  rw [List.length_cons, List.replicate_succ]
                  exact .cons (hl a (by simp)) (ih (fun w hw => hl w (by simp [hw])))
              exact this hs (fun w hw => (mh w hw).1.trans l2))
          rw [List.prod_replicate] at q1
          obtain ⟨r, hr, hrd⟩ := np
          have happ : Approx ε t' ((z :: hs).map Prod.snd).prod := ⟨r, hr, by
            have : (r : ℝ) - ((z :: hs).map Prod.snd).prod = (r - (p : ℝ) ^ (1 + hs.length)) +
              ((p : ℝ) ^ (1 + hs.length) - ((z :: hs).map Prod.snd).prod) := by ring
            rw [this]
            exact (abs_add_le _ _).trans (by linarith)⟩
          dsimp only at h
          rw [if_pos hr.isAcc] at h
          cases h
          refine ⟨rfl, _ :: ys, .cons happ f1, ?_, by simp; omega, ?_⟩
          · rw [List.prod_cons, f2, List.map_cons, List.map_cons, List.prod_cons, List.prod_cons, sp]; ring
          · intro y hy
            rcases List.mem_cons.1 hy with rfl | hy
            · exact q2.trans hBN'
            · exact f4 y hy

theorem prod_U (xs : List ℝ) (ε : ℝ) (hε : 0 < ε) : ∃ η : ℝ, 0 < η ∧ ∀ {O : Oracle}, Accurate η O → ∀ {m : ℕ} {us : List Expr} {r : Expr},
    List.Forall₂ (Approx η) us xs → (ctors O m).prod us = .ok r → Approx ε r xs.prod := by
  obtain ⟨B, hB, hx⟩ := exists_bound xs
  have hB' : 1 ≤ B ^ (xs.length + 1) := one_le_pow₀ hB
  obtain ⟨η1, h1, hu⟩ := accumulateProd_U xs.length (B ^ (xs.length + 1)) hB' ε hε
  obtain ⟨η2, h2, hv⟩ := combineProdLoop_U xs.length B hB η1 h1
  refine ⟨min η1 η2, by positivity, fun {O} hO {m us r} hf h => ?_⟩
  cases m with
  | zero => cases h
  | succ m =>
    change prodCtor O (ctors O m) us = .ok r at h
    unfold prodCtor at h
    obtain ⟨fs, h3, h⟩ := bind_ok.1 h
    rw [flatPL_num hf] at h3
    unfold combineProd at h3
    obtain ⟨⟨nc, cs⟩, h4, h3⟩ := bind_ok.1 h3
    obtain ⟨zs, rfl, rfl, hz⟩ := pairs_of_forall₂ hf
    obtain ⟨rfl, ys, f1, f2, f3, f4⟩ := hv (hO.mono (by positivity) (min_le_right _ _)) m _ zs (by simp) (by simp)
      (fun z hz => hx z.2 (List.mem_map.2 ⟨z, hz, rfl⟩)) (fun z h => (hz z h).mono (min_le_right _ _)) h4
    dsimp only at h3
    rw [← f2]
    split at h3
    · rename_i he
      cases h3
      cases h
      cases f1 with
      | nil => exact ⟨1, NumR.one, by simpa using hε.le⟩
      | cons a b => simp at he
    · obtain ⟨c, hc, h3⟩ := bind_ok.1 h3
      have ac := hu (hO.mono (by positivity) (min_le_left _ _)) (by simpa using f3) f4 f1 hc
      obtain ⟨q, hq, hd⟩ := ac
      split at h3
      · cases h3
        cases h
        exact ⟨q, hq, hd⟩
      · split at h3
        · rename_i hz
          cases h3
          cases h
          rw [hq.beq NumR.one] at hz
          subst hz
          exact ⟨1, NumR.one, hd⟩
        · cases h3
          cases h
          exact ⟨q, hq, hd⟩

/-! ## Powers -/

/-- Powers of numbers near `x` and `y` are near `x ^ y`, for those powers that Python computes as real numbers. -/
theorem pw_near {x y : ℝ} (h : x ≠ 0 ∨ 0 < y) (ε : ℝ) (hε : 0 < ε) : ∃ η : ℝ, 0 < η ∧ ∀ {p q : ℚ}, |(p : ℝ) - x| ≤ η → |(q : ℝ) - y| ≤ η →
    (p < 0 → q.den = 1) → (p ≠ 0 ∨ 0 < q) ∧ |pw (p : ℝ) (q : ℝ) - pw x y| ≤ ε := by
  have near : ∀ {f : ℝ × ℝ → ℝ}, ContinuousAt f (x, y) → ∃ η : ℝ, 0 < η ∧ ∀ a b : ℝ, |a - x| ≤ η → |b - y| ≤ η → |f (a, b) - f (x, y)| ≤ ε := by
    intro f hf
    obtain ⟨d, hd, h⟩ := Metric.continuousAt_iff.1 hf ε hε
    refine ⟨d / 2, by positivity, fun a b ha hb => ?_⟩
    have := @h (a, b) (by
      rw [Prod.dist_eq, Real.dist_eq, Real.dist_eq]
      exact max_lt (by dsimp only; linarith) (by dsimp only; linarith))
    rw [Real.dist_eq] at this
    exact this.le
  rcases lt_trichotomy x 0 with hx | hx | hx
  · -- negative base
    by_cases hy : ∃ k : ℤ, (k : ℝ) = y
    · obtain ⟨k, rfl⟩ := hy
      obtain ⟨d, hd, hf⟩ := near (f := fun z => z.1 ^ k) ((continuousAt_fst).zpow₀ k (.inl hx.ne))
      refine ⟨min d (min (-x / 2) (1 / 2)), by have : 0 < -x / 2 := by linarith
                                               positivity, fun {p q} hp hq hpq => ?_⟩
      have p1 := hp.trans (min_le_left _ _)
      have p2 := hp.trans ((min_le_right _ _).trans (min_le_left _ _))
      have q2 := hq.trans ((min_le_right _ _).trans (min_le_right _ _))
      have q1 := hq.trans (min_le_left _ _)
      have pn : (p : ℝ) < 0 := by have := (abs_le.1 p2).2; linarith
      have pn' : p < 0 := by exact_mod_cast pn
      have hd1 := hpq pn'
      have eq : ((q.num : ℚ)) = q := Rat.coe_int_num_of_den_eq_one hd1
      have eq' : (q : ℝ) = (q.num : ℝ) := by rw [← eq]; push_cast; simp
      have : q.num = k := by
        rw [eq'] at q2
        have h1 : |((q.num - k : ℤ) : ℝ)| < 1 := by push_cast; linarith
        have h2 : |q.num - k| < 1 := by exact_mod_cast h1
        have := Int.abs_lt_one_iff.1 h2
        omega
      refine ⟨.inl pn'.ne, ?_⟩
      rw [eq', this, pw_int, pw_int]
      exact hf _ (k : ℝ) p1 (by simpa using hd.le)
    · -- no integers near `y`
      have hfl : (⌊y⌋ : ℝ) < y := lt_of_le_of_ne (Int.floor_le y) (fun e => hy ⟨_, e⟩)
      have hfl' : y < ⌊y⌋ + 1 := Int.lt_floor_add_one y
      refine ⟨min (-x / 2) (min ((y - ⌊y⌋) / 2) ((⌊y⌋ + 1 - y) / 2)), by
        have : 0 < -x / 2 := by linarith
        have : 0 < (y - ⌊y⌋) / 2 := by linarith
        have : 0 < (⌊y⌋ + 1 - y) / 2 := by linarith
        positivity, fun {p q} hp hq hpq => ?_⟩
      have p2 := hp.trans (min_le_left _ _)
      have q1 := hq.trans ((min_le_right _ _).trans (min_le_left _ _))
      have q2 := hq.trans ((min_le_right _ _).trans (min_le_right _ _))
      have pn : (p : ℝ) < 0 := by have := (abs_le.1 p2).2; linarith
      have pn' : p < 0 := by exact_mod_cast pn
      have eq : ((q.num : ℚ)) = q := Rat.coe_int_num_of_den_eq_one (hpq pn')
      have eq' : (q : ℝ) = (q.num : ℝ) := by rw [← eq]; push_cast; simp
      rw [eq'] at q1 q2
      exfalso
      have a1 : ((⌊y⌋ : ℤ) : ℝ) < q.num := by have := (abs_le.1 q1).1; linarith
      have a2 : (q.num : ℝ) < ((⌊y⌋ + 1 : ℤ) : ℝ) := by have := (abs_le.1 q2).2; push_cast; linarith
      have a1' : ⌊y⌋ < q.num := by exact_mod_cast a1
      have a2' : q.num < ⌊y⌋ + 1 := by exact_mod_cast a2
      omega
  · -- base zero
    subst hx
    have hy : 0 < y := h.resolve_left (by simp)
    have hc : ContinuousAt (fun z : ℝ × ℝ => |z.1| ^ z.2) (0, y) := by
      have : ContinuousAt (fun z : ℝ × ℝ => z.1 ^ z.2) (|(0 : ℝ)|, y) := Real.continuousAt_rpow_of_pos _ hy
      exact ContinuousAt.comp (f := fun z : ℝ × ℝ => (|z.1|, z.2)) (x := ((0 : ℝ), y)) this
        ((continuous_abs.comp continuous_fst).prodMk continuous_snd).continuousAt
    obtain ⟨d, hd, hf⟩ := near hc
    refine ⟨min d (y / 2), by positivity, fun {p q} hp hq hpq => ?_⟩
    have p1 := hp.trans (min_le_left _ _)
    have q1 := hq.trans (min_le_left _ _)
    have q2 := hq.trans (min_le_right _ _)
    have q0 : (0 : ℝ) < q := by have := (abs_le.1 q2).1; linarith
    have := hf _ _ p1 q1
    simp only [abs_zero, Real.zero_rpow hy.ne', sub_zero] at this
    rw [abs_of_nonneg (Real.rpow_nonneg (abs_nonneg _) _)] at this
    refine ⟨.inr (by exact_mod_cast q0), ?_⟩
    rw [pw_of_nonneg le_rfl y, Real.zero_rpow hy.ne', sub_zero]
    rcases le_or_gt 0 (p : ℝ) with pn | pn
    · rw [pw_of_nonneg pn, abs_of_nonneg (Real.rpow_nonneg pn _)]
      rwa [abs_of_nonneg pn] at this
    · have pn' : p < 0 := by exact_mod_cast pn
      have eq : ((q.num : ℚ)) = q := Rat.coe_int_num_of_den_eq_one (hpq pn')
      have eq' : (q : ℝ) = (q.num : ℝ) := by rw [← eq]; push_cast; simp
      rw [eq'] at this ⊢
      rw [pw_int, abs_zpow]
      rwa [Real.rpow_intCast] at this
  · obtain ⟨d, hd, hf⟩ := near (f := fun z => z.1 ^ z.2) (Real.continuousAt_rpow (x, y) (.inl hx.ne'))
    refine ⟨min d (x / 2), by positivity, fun {p q} hp hq _ => ?_⟩
    have p1 := hp.trans (min_le_left _ _)
    have p2 := hp.trans (min_le_right _ _)
    have q1 := hq.trans (min_le_left _ _)
    have pn : 0 < (p : ℝ) := by have := (abs_le.1 p2).1; linarith
    refine ⟨.inl (by have : 0 < p := by exact_mod_cast pn
                     exact this.ne'), ?_⟩
    rw [pw_of_nonneg pn.le, pw_of_nonneg hx.le]
    exact hf _ _ p1 q1

theorem pow_U {x y : ℝ} (hxy : x ≠ 0 ∨ 0 < y) (ε : ℝ) (hε : 0 < ε) : ∃ η : ℝ, 0 < η ∧ ∀ {O : Oracle}, Accurate η O → ∀ {m : ℕ} {b e r : Expr},
    Approx η b x → Approx η e y → (ctors O m).pow b e = .ok r → Approx ε r (pw x y) := by
  obtain ⟨d, hd, hn⟩ := pw_near hxy (min (ε / 2) 1) (by positivity)
  have h0 : 0 < min (min d 1) (min (ε / 2) (1 / (|x| + |y| + |pw x y| + 1))) := by positivity
  refine ⟨_, h0, ?_⟩
  generalize hη : min (min d 1) (min (ε / 2) (1 / (|x| + |y| + |pw x y| + 1))) = η at h0
  have e1 : η ≤ d := by rw [← hη]; exact (min_le_left _ _).trans (min_le_left _ _)
  have e2 : η ≤ 1 := by rw [← hη]; exact (min_le_left _ _).trans (min_le_right _ _)
  have e3 : η ≤ ε / 2 := by rw [← hη]; exact (min_le_right _ _).trans (min_le_left _ _)
  have e4 : |x| + |y| + |pw x y| + 1 ≤ 1 / η := by
    have : η ≤ 1 / (|x| + |y| + |pw x y| + 1) := by rw [← hη]; exact (min_le_right _ _).trans (min_le_right _ _)
    rw [le_div_iff₀ h0, ← le_div_iff₀' (by positivity)]; exact this
  have ax := abs_nonneg x
  have ay := abs_nonneg y
  have aw := abs_nonneg (pw x y)
  rintro O hO m b e r ⟨p, hp, hpx⟩ ⟨q, hq, hqy⟩ h
  have key : (p < 0 → q.den = 1) → (p ≠ 0 ∨ 0 < q) ∧ |pw (p : ℝ) (q : ℝ) - pw x y| ≤ min (ε / 2) 1 :=
    hn (hpx.trans e1) (hqy.trans e1)
  have fin : ∀ {r : Expr} {s : ℚ}, NumR r s → (s : ℝ) = pw p q → (p < 0 → q.den = 1) → Approx ε r (pw x y) := by
    intro r s hr hs hpq
    exact ⟨s, hr, by rw [hs]; exact ((key hpq).2.trans (min_le_left _ _)).trans (by linarith)⟩
  cases m with
  | zero => cases h
  | succ m =>
    change powCtor O (ctors O m) _ _ = _ at h
    unfold powCtor at h
    split at h
    · rename_i hz
      cases h
      have := (hq.beq NumR.zero).1 hz
      subst this
      exact fin NumR.one (by simp [pw_zero]) (by simp)
    split at h
    · rename_i hz
      cases h
      have := (hq.beq NumR.one).1 hz
      subst this
      exact fin hp (by simp [pw_one]) (by simp)
    split at h
    · rename_i hz
      cases h
      have := (hp.beq NumR.one).1 hz
      subst this
      exact fin NumR.one (by simp [one_pw]) (by norm_num)
    rw [hp.isAcc, hq.isAcc] at h
    simp only [Bool.and_self, if_true] at h
    have fl : ∀ {v}, O.pow b.value e.value = .ok v → Approx ε (const v) (pw x y) := by
      intro v hv
      have hpq := hO.powReal hp.value.num hq.value.num hv
      obtain ⟨k1, k2⟩ := key hpq
      have k3 := near_bound (le_refl |pw x y|) (k2.trans (min_le_right _ _)) le_rfl
      have w := (hO.pow hp.value.num hq.value.num ((near_bound le_rfl hpx e2).trans (by linarith)) ((near_bound le_rfl hqy e2).trans (by linarith))
        k1 (k3.trans (by linarith)) hv).approx (fun p => hO.floats.2.2.1 _ _ v p hv)
      obtain ⟨s, hs, hd⟩ := w
      refine ApproxP.const ⟨s, hs, ?_⟩
      have : (s : ℝ) - pw x y = (s - pw p q) + (pw p q - pw x y) := by ring
      rw [this]
      have := k2.trans (min_le_left _ _)
      exact (abs_add_le _ _).trans (by linarith)
    rcases hp with rfl | ⟨k, rfl, rfl⟩
    · rw [accumulatePower] at h
      · split at h
        · cases h
        · rename_i heq
          split at heq <;> cases heq
        · rename_i heq
          split at heq
          · cases heq
          · rename_i v hv
            cases heq
            cases h
            exact fl hv
      · intro p q h; cases h
    · rcases hq with rfl | ⟨l, rfl, rfl⟩
      · rw [accumulatePower] at h
        · split at h
          · cases h
          · rename_i heq
            split at heq <;> cases heq
          · rename_i heq
            split at heq
            · cases heq
            · rename_i v hv
              cases heq
              cases h
              exact fl hv
        · intro p q _ h; cases h
      · have h2 : (ctors O (m + 1)).pow (rat (k : ℚ)) (rat ((l : ℤ) : ℚ)) = .ok r := by
          change powCtor O (ctors O m) _ _ = _
          unfold powCtor
          rw [show ((l : ℤ) : ℚ) = (l : ℚ) by norm_cast]
          rename_i g1 g2 g3
          rw [if_neg g1, if_neg g2, if_neg g3]
          simpa only [isAcc, Bool.and_self, if_true] using h
        rw [rational_power_exact O m (k : ℚ) (l : ℤ) (.inr (by positivity))] at h2
        cases h2
        refine fin (.inr ⟨k ^ l, by push_cast; simp, rfl⟩) ?_ (by simp)
        have : (((l : ℚ) : ℚ) : ℝ) = (l : ℝ) := by norm_cast
        rw [this, pw_nat]; push_cast; rfl

/-! ## Functions of one number -/

theorem cont_near {g : ℝ → ℝ} {x : ℝ} (hg : ContinuousAt g x) (ε : ℝ) (hε : 0 < ε) : ∃ η : ℝ, 0 < η ∧ ∀ a, |a - x| ≤ η → |g a - g x| ≤ ε := by
  obtain ⟨d, hd, h⟩ := Metric.continuousAt_iff.1 hg ε hε
  refine ⟨d / 2, by positivity, fun a ha => ?_⟩
  have := @h a (by rw [Real.dist_eq]; linarith)
  rw [Real.dist_eq] at this
  exact this.le

theorem TrigFn.cont {f : TrigFn} {x : ℝ} (h : f.ok x) : ContinuousAt f.real x := by
  cases f with
  | sin => exact Real.continuous_sin.continuousAt
  | cos => exact Real.continuous_cos.continuousAt
  | tan => exact Real.continuous_sin.continuousAt.div Real.continuous_cos.continuousAt h
  | csc => exact continuousAt_const.div Real.continuous_sin.continuousAt h
  | sec => exact continuousAt_const.div Real.continuous_cos.continuousAt h
  | cot => exact Real.continuous_cos.continuousAt.div Real.continuous_sin.continuousAt h
  | asin => exact Real.continuous_arcsin.continuousAt
  | acos => exact Real.continuous_arccos.continuousAt
  | atan => exact Real.continuous_arctan.continuousAt

/-- A function that is computed accurately wherever it is continuous. -/
theorem fun_U {g : ℝ → ℝ} {x : ℝ} (hg : ContinuousAt g x) (ε : ℝ) (hε : 0 < ε) : ∃ η : ℝ, 0 < η ∧ ∀ {p : ℚ} {v : PyNum} {δ : ℝ},
    0 < δ → δ ≤ η → |(p : ℝ) - x| ≤ η → (|(p : ℝ)| ≤ 1 / δ → |g p| ≤ 1 / δ → Within δ v (g p)) → (∀ q, v ≠ .frac q) →
      ApproxP ε v (g x) := by
  obtain ⟨d, hd, hn⟩ := cont_near hg (min (ε / 2) 1) (by positivity)
  have h0 : 0 < min (min d 1) (min (ε / 2) (1 / (|x| + |g x| + 1))) := by positivity
  refine ⟨_, h0, ?_⟩
  generalize hη : min (min d 1) (min (ε / 2) (1 / (|x| + |g x| + 1))) = η at h0
  have e1 : η ≤ d := by rw [← hη]; exact (min_le_left _ _).trans (min_le_left _ _)
  have e2 : η ≤ 1 := by rw [← hη]; exact (min_le_left _ _).trans (min_le_right _ _)
  have e3 : η ≤ ε / 2 := by rw [← hη]; exact (min_le_right _ _).trans (min_le_left _ _)
  have e4 : |x| + |g x| + 1 ≤ 1 / η := by
    have : η ≤ 1 / (|x| + |g x| + 1) := by rw [← hη]; exact (min_le_right _ _).trans (min_le_right _ _)
    rw [le_div_iff₀ h0, ← le_div_iff₀' (by positivity)]; exact this
  intro p v δ hδ hle hp hw hf
  have e5 := inv_le hδ hle
  have k := hn p (hp.trans e1)
  have ax := abs_nonneg x
  have ag := abs_nonneg (g x)
  have w := (hw ((near_bound le_rfl hp e2).trans (by linarith))
    ((near_bound (le_refl |g x|) (k.trans (min_le_right _ _)) le_rfl).trans (by linarith))).approx hf
  obtain ⟨s, hs, hd⟩ := w
  refine ⟨s, hs, ?_⟩
  have : (s : ℝ) - g x = (s - g p) + (g p - g x) := by ring
  rw [this]
  have := k.trans (min_le_left _ _)
  exact (abs_add_le _ _).trans (by linarith)

/-! ## All expressions -/

mutual
theorem evalf_U (ρ : Str → ℝ) : ∀ e : Expr, DomE ρ e → ∀ ε : ℝ, 0 < ε → ∃ δ : ℝ, 0 < δ ∧ ∀ {O : Oracle}, Accurate δ O →
    ∀ {n : ℕ} {r : Expr}, evalfE O n e = .ok r → Approx ε r (den ρ e)
  | rat q, _, ε, hε => by
    refine ⟨min ε (1 / (|(q : ℝ)| + 1)), by positivity, fun {O} hO {n r} h => ?_⟩
    generalize hδ : min ε (1 / (|(q : ℝ)| + 1)) = δ at hO
    have h0 : 0 < δ := by rw [← hδ]; positivity
    have e1 : δ ≤ ε := by rw [← hδ]; exact min_le_left _ _
    have e2 : |(q : ℝ)| + 1 ≤ 1 / δ := by
      have : δ ≤ 1 / (|(q : ℝ)| + 1) := by rw [← hδ]; exact min_le_right _ _
      rw [le_div_iff₀ h0, ← le_div_iff₀' (by positivity)]; exact this
    cases n with
    | zero => cases h
    | succ n =>
      obtain ⟨v, hv, h⟩ := bind_ok.1 h
      cases h
      obtain ⟨w1, w2⟩ := hO.toFloat (by linarith) hv
      rw [den]
      exact ((w1.approx w2).mono e1).const
  | pi, _, ε, hε => by
    refine ⟨ε, hε, fun {O} hO {n r} h => ?_⟩
    cases n with
    | zero => cases h
    | succ n => cases h; rw [den]; exact ⟨_, .inl rfl, hO.pi⟩
  | euler, _, ε, hε => by
    refine ⟨ε, hε, fun {O} hO {n r} h => ?_⟩
    cases n with
    | zero => cases h
    | succ n => cases h; rw [den]; exact ⟨_, .inl rfl, hO.e⟩
  | sym s, _, ε, hε => by
    refine ⟨ε, hε, fun {O} hO {n r} h => ?_⟩
    cases n <;> cases h
  | flt _, h, _, _ => h.elim
  | inf, h, _, _ => h.elim
  | neginf, h, _, _ => h.elim
  | any _, h, _, _ => h.elim
  | sum ts, hd, ε, hε => by
    obtain ⟨η, h0, hs⟩ := sum_U (ts.map (den ρ)) ε hε
    obtain ⟨δ, h1, hl⟩ := evalfL_U ρ ts hd η h0
    refine ⟨min η δ, by positivity, fun {O} hO {n r} h => ?_⟩
    cases n with
    | zero => cases h
    | succ n =>
      obtain ⟨us, hu, h⟩ := bind_ok.1 h
      rw [den, denS_eq]
      exact hs (hO.mono (by positivity) (min_le_left _ _)) (hl (hO.mono (by positivity) (min_le_right _ _)) hu) h
  | prod ts, hd, ε, hε => by
    obtain ⟨η, h0, hs⟩ := prod_U (ts.map (den ρ)) ε hε
    obtain ⟨δ, h1, hl⟩ := evalfL_U ρ ts hd η h0
    refine ⟨min η δ, by positivity, fun {O} hO {n r} h => ?_⟩
    cases n with
    | zero => cases h
    | succ n =>
      obtain ⟨us, hu, h⟩ := bind_ok.1 h
      rw [den, denP_eq]
      exact hs (hO.mono (by positivity) (min_le_left _ _)) (hl (hO.mono (by positivity) (min_le_right _ _)) hu) h
  | pow b x, hd, ε, hε => by
    obtain ⟨hb, hx, hbx⟩ := hd
    obtain ⟨η, h0, hs⟩ := pow_U hbx ε hε
    obtain ⟨δ1, h1, hl1⟩ := evalf_U ρ b hb η h0
    obtain ⟨δ2, h2, hl2⟩ := evalf_U ρ x hx η h0
    refine ⟨min η (min δ1 δ2), by positivity, fun {O} hO {n r} h => ?_⟩
    cases n with
    | zero => cases h
    | succ n =>
      obtain ⟨b', hb', h⟩ := bind_ok.1 h
      obtain ⟨x', hx', h⟩ := bind_ok.1 h
      rw [den]
      exact hs (hO.mono (by positivity) (min_le_left _ _))
        (hl1 (hO.mono (by positivity) ((min_le_right _ _).trans (min_le_left _ _))) hb')
        (hl2 (hO.mono (by positivity) ((min_le_right _ _).trans (min_le_right _ _))) hx') h
  | log i b, hd, ε, hε => by
    obtain ⟨hi, rfl, hpos⟩ := hd
    obtain ⟨η, h0, hs⟩ := fun_U (Real.continuousAt_log hpos.ne') ε hε
    obtain ⟨δ1, h1, hl1⟩ := evalf_U ρ i hi η h0
    have hm : 0 < min η δ1 := by positivity
    refine ⟨min η δ1, hm, fun {O} hO {n r} h => ?_⟩
    cases n with
    | zero => cases h
    | succ n =>
      obtain ⟨i', hi', h⟩ := bind_ok.1 h
      obtain ⟨b', hb', h⟩ := bind_ok.1 h
      obtain ⟨p, hp, hpd⟩ := hl1 (hO.mono hm (min_le_right _ _)) hi'
      have hbn : b'.isNum = true := by
        cases n with
        | zero => cases hb'
        | succ n => cases hb'; rfl
      rw [hp.isNum, hbn, hp.numValue] at h
      simp only [Bool.and_self, if_true] at h
      obtain ⟨v, hv, h⟩ := bind_ok.1 h
      cases h
      have hd : den ρ (log i euler) = Real.log (den ρ i) := by simp [den]
      rw [hd]
      exact (hs hm (min_le_left _ _) hpd (fun a1 a2 => (hO.log hp.value.num a1 a2 hv).2) (fun q => hO.floats.2.2.2.1 _ v q hv)).const
  | trig f i, hd, ε, hε => by
    obtain ⟨hi, hok⟩ := hd
    obtain ⟨η, h0, hs⟩ := fun_U (TrigFn.cont hok) ε hε
    obtain ⟨δ1, h1, hl1⟩ := evalf_U ρ i hi η h0
    have hm : 0 < min η δ1 := by positivity
    refine ⟨min η δ1, hm, fun {O} hO {n r} h => ?_⟩
    cases n with
    | zero => cases h
    | succ n =>
      obtain ⟨i', hi', h⟩ := bind_ok.1 h
      obtain ⟨p, hp, hpd⟩ := hl1 (hO.mono hm (min_le_right _ _)) hi'
      rw [if_pos hp.isNum, hp.numValue] at h
      obtain ⟨v, hv, h⟩ := bind_ok.1 h
      cases h
      rw [den]
      exact (hs hm (min_le_left _ _) hpd (fun a1 a2 => (hO.trig hp.value.num a1 a2 hv).2) (fun q => hO.floats.2.2.2.2 f _ v q hv)).const
  | absv i, hd, ε, hε => by
    obtain ⟨δ1, h1, hl1⟩ := evalf_U ρ i hd ε hε
    refine ⟨δ1, h1, fun {O} hO {n r} h => ?_⟩
    cases n with
    | zero => cases h
    | succ n =>
      obtain ⟨i', hi', h⟩ := bind_ok.1 h
      obtain ⟨p, hp, hpd⟩ := hl1 hO hi'
      rw [den]
      have hab : abs (|(p : ℝ)| - |den ρ i|) ≤ ε := (abs_abs_sub_abs_le_abs_sub _ _).trans hpd
      cases n with
      | zero => cases h
      | succ n =>
        rcases hp with rfl | ⟨k, rfl, rfl⟩
        · cases h
          exact ⟨|p|, .inl rfl, by rw [Rat.cast_abs]; exact hab⟩
        · cases h
          refine ⟨k, ?_, ?_⟩
          · have : |(k : ℚ)| = k := abs_of_nonneg (by positivity)
            rw [this]; exact NumR.nat k
          · have : |((k : ℚ) : ℝ)| = ((k : ℚ) : ℝ) := abs_of_nonneg (by positivity)
            rw [this] at hab; exact hab
theorem evalfL_U (ρ : Str → ℝ) : ∀ ts : List Expr, DomEL ρ ts → ∀ ε : ℝ, 0 < ε → ∃ δ : ℝ, 0 < δ ∧ ∀ {O : Oracle}, Accurate δ O →
    ∀ {n : ℕ} {us : List Expr}, mapR (evalfE O n) ts = .ok us → List.Forall₂ (Approx ε) us (ts.map (den ρ))
  | [], _, ε, hε => ⟨ε, hε, fun {O} _ {n us} h => by cases h; exact .nil⟩
  | t :: ts, hd, ε, hε => by
    obtain ⟨δ1, h1, hl1⟩ := evalf_U ρ t hd.1 ε hε
    obtain ⟨δ2, h2, hl2⟩ := evalfL_U ρ ts hd.2 ε hε
    refine ⟨min δ1 δ2, by positivity, fun {O} hO {n us} h => ?_⟩
    have hf := mapR_ok.1 h
    cases hf with
    | cons hu hus =>
      exact .cons (hl1 (hO.mono (by positivity) (min_le_left _ _)) hu)
        (hl2 (hO.mono (by positivity) (min_le_right _ _)) (mapR_ok.2 hus))
end

/-! ## Symbols -/

theorem evalf_symsL {O : Oracle} {n : ℕ} (ih : ∀ e r, evalfE O n e = .ok r → syms e = []) : ∀ {ts us : List Expr},
    List.Forall₂ (fun a b => evalfE O n a = .ok b) ts us → symsL ts = []
  | _, _, .nil => rfl
  | _, _, .cons h1 h2 => by rw [symsL, ih _ _ h1, evalf_symsL ih h2]; rfl

theorem evalf_syms (O : Oracle) : ∀ (n : ℕ) (e r : Expr), evalfE O n e = .ok r → syms e = []
  | 0, _, _, h => by cases h
  | n + 1, e, r, h => by
    have ih := evalf_syms O n
    cases e with
    | sym s => cases h
    | sum ts =>
      obtain ⟨us, hu, h⟩ := bind_ok.1 h
      exact evalf_symsL ih (mapR_ok.1 hu)
    | prod ts =>
      obtain ⟨us, hu, h⟩ := bind_ok.1 h
      exact evalf_symsL ih (mapR_ok.1 hu)
    | pow b x =>
      obtain ⟨b', hb, h⟩ := bind_ok.1 h
      obtain ⟨x', hx, h⟩ := bind_ok.1 h
      rw [syms, ih _ _ hb, ih _ _ hx]; rfl
    | log b x =>
      obtain ⟨b', hb, h⟩ := bind_ok.1 h
      obtain ⟨x', hx, h⟩ := bind_ok.1 h
      rw [syms, ih _ _ hb, ih _ _ hx]; rfl
    | trig f i =>
      obtain ⟨b', hb, h⟩ := bind_ok.1 h
      rw [syms]
      exact ih _ _ hb
    | absv i =>
      obtain ⟨b', hb, h⟩ := bind_ok.1 h
      rw [syms]
      exact ih _ _ hb
    | _ => rfl

end Simpy
