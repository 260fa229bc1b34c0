import Verif.Proofs.NFPow
import Verif.Spec.Read

/-! # Lemmas: products of powers of symbols, with rational exponents -/

namespace Simpy
namespace MQ
open Expr Lin Mono1
open NF (key text_eq lim Le Fine sort_is sorted sorted_perm sorted_le fine_rat key_rat inPow inPow_inj decon_rat ok_bind prod_split
  lc lc_rat like_num final_prod one)

variable {O : Oracle}

/-! ## Powers of symbols -/

/-- `s ** k`. -/
def vp (s : Str) (k : ℚ) : Expr := varPow s k

theorem vp_cases (s : Str) (k : ℚ) : (k = 1 ∧ vp s k = sym s) ∨ (k ≠ 1 ∧ vp s k = pow (sym s) (rat k)) := by
  by_cases h : k = 1
  · exact .inl ⟨h, by simp [vp, varPow, h]⟩
  · exact .inr ⟨h, by simp [vp, varPow, h]⟩

theorem decon_vp (s : Str) (k : ℚ) : deconPow (vp s k) = (sym s, rat k) := decon_varPow _
theorem acc_vp (s : Str) (k : ℚ) : (vp s k).isAcc = false := acc_varPow _
theorem flat_vp (s : Str) (k : ℚ) : flatP (vp s k) = [vp s k] := flat_varPow _
theorem prod_vp (s : Str) (k : ℚ) : (vp s k).isProd = false := by rcases vp_cases s k with ⟨_, h⟩ | ⟨_, h⟩ <;> rw [h] <;> rfl
theorem sum_vp (s : Str) (k : ℚ) : (vp s k).isSum = false := by rcases vp_cases s k with ⟨_, h⟩ | ⟨_, h⟩ <;> rw [h] <;> rfl
theorem sub_vp (s : Str) (k : ℚ) : (vp s k).isSubtraction = false := by
  rcases vp_cases s k with ⟨_, h⟩ | ⟨_, h⟩ <;> rw [h] <;> rfl
theorem syms_vp (s : Str) (k : ℚ) : syms (vp s k) = [s] := by
  rcases vp_cases s k with ⟨_, h⟩ | ⟨_, h⟩ <;> rw [h] <;> simp [syms]
theorem nwf_vp (s : Str) (k : ℚ) : nwf (vp s k) = .ok (if k = 1 then 1 else 2) := by
  rcases vp_cases s k with ⟨h1, h⟩ | ⟨h1, h⟩ <;> rw [h]
  · simp [h1, nwf]
  · simp [h1, nwf, varies, syms, bind, Except.bind, pure, Except.pure]
theorem power_vp (s : Str) (k : ℚ) : constPower (vp s k) = .ok k := by
  rcases vp_cases s k with ⟨h1, h⟩ | ⟨h1, h⟩ <;> rw [h]
  · simp [h1, constPower, removeConstFactor, bind, Except.bind, pure, Except.pure]
  · simp [constPower, removeConstFactor, bind, Except.bind, pure, Except.pure]

/-- A number as an exponent. -/
def exText (k : ℚ) : Str := if isFractionOrNeg (rat k) then parens (ratStr k) else ratStr k

/-- How `s ** k` is printed for positive `k`. -/
def vpText (s : Str) (k : ℚ) : Str :=
  if k = 1 then s else if k = 1 / 2 then ['s', 'q', 'r', 't'] ++ parens s else inPow s ++ '^' :: exText k

/-- How `s ** k` is printed. -/
def fullText (s : Str) (k : ℚ) : Str :=
  if k = -1 then '1' :: '/' :: inPow s else if k < 0 then '1' :: '/' :: vpText s (-k) else vpText s k

theorem name_shape {s : Str} (h : goodName s = true) : ∃ c r, s = c :: r ∧ c ≠ '(' := by
  simp only [goodName, Bool.and_eq_true, Bool.not_eq_true', List.isEmpty_eq_false_iff, List.all_eq_true] at h
  obtain ⟨⟨⟨h1, h2⟩, h3⟩, h4⟩ := h
  cases s with
  | nil => exact absurd rfl h1
  | cons c r =>
    refine ⟨c, r, rfl, ?_⟩
    rintro rfl
    have := h2 '(' (by simp)
    revert this; decide

theorem wrap_name {s l : Str} (h : goodName s = true) : wrapRepr s l = .ok (l ++ parens s) := by
  obtain ⟨c, r, rfl, hc⟩ := name_shape h
  simp [wrapRepr, hc]

theorem repr_pos (n : Nat) {s : Str} (hs : goodName s = true) {k : ℚ} (hk : 0 < k) : (ctors O (n + 2)).repr (vp s k) = .ok (vpText s k) := by
  unfold vpText
  rcases vp_cases s k with ⟨h1, h⟩ | ⟨h1, h⟩ <;> rw [h]
  · simp [h1]; rfl
  · show powRepr O (ctors O (n + 1)) (sym s) (rat k) = _
    have a1 : ¬ (k = -1) := by intro h; linarith
    have a2 : ¬ (k < 0) := by linarith
    have r1 : (ctors O (n + 1)).repr (sym s) = .ok s := rfl
    have r2 : (ctors O (n + 1)).repr (rat k) = .ok (ratStr k) := rfl
    by_cases h2 : k = 1 / 2
    · unfold powRepr
      simp only [beq, beq_iff_eq, a1, a2, h1, h2, if_true, if_false, negNum, decide_false, Bool.and_false, Bool.false_eq_true, r1]
      rw [if_neg (by norm_num), if_neg (by norm_num)]
      rw [ok_bind, wrap_name hs]
      norm_num
    · unfold powRepr powTermRepr
      simp only [beq, beq_iff_eq, a1, a2, h1, h2, if_false, negNum, decide_false, Bool.and_false, Bool.false_eq_true, r1, r2]
      simp only [bind, Except.bind, pure, Except.pure, Except.ok.injEq]
      simp [isSum, isProd, isFractionOrNeg, isLongSymbol, inPow, exText]

theorem repr_vp (n : Nat) {s : Str} (hs : goodName s = true) {k : ℚ} (hk : k ≠ 0) : (ctors O (n + 3)).repr (vp s k) = .ok (fullText s k) := by
  unfold fullText
  by_cases h1 : k = -1
  · subst h1
    rw [if_pos rfl]
    have : vp s (-1) = pow (sym s) (rat (-1)) := by
      rcases vp_cases s (-1) with ⟨h1, h⟩ | ⟨h1, h⟩
      · norm_num at h1
      · exact h
    rw [this]
    show powRepr O (ctors O (n + 2)) (sym s) (rat (-1)) = _
    have r1 : (ctors O (n + 2)).repr (sym s) = .ok s := rfl
    unfold powRepr powTermRepr
    simp only [beq, beq_self_eq_true, if_true, r1]
    simp [bind, Except.bind, pure, Except.pure, isSum, isProd, isFractionOrNeg, isLongSymbol, inPow]
  rw [if_neg h1]
  by_cases h2 : k < 0
  · rw [if_pos h2]
    have : vp s k = pow (sym s) (rat k) := by
      rcases vp_cases s k with ⟨h3, h⟩ | ⟨h1, h⟩
      · rw [h3] at h2; norm_num at h2
      · exact h
    rw [this]
    show powRepr O (ctors O (n + 2)) (sym s) (rat k) = _
    have hp : (ctors O (n + 2)).pow (sym s) (rat (-k)) = .ok (vp s (-k)) := pow_var' (n + 1) (by simpa using hk)
    have hr := repr_pos (O := O) n hs (show 0 < -k by linarith)
    unfold powRepr
    simp only [beq, beq_iff_eq, h1, h2, if_false, negNum, isRat, decide_true, Bool.true_or, Bool.and_self, if_true, opNeg]
    rw [ok_bind, hp, ok_bind, hr]
    rfl
  · rw [if_neg h2]
    exact repr_pos (n + 1) hs (lt_of_le_of_ne (not_lt.1 h2) (Ne.symm hk))

theorem vpText_inj {s t : Str} {k : ℚ} (h : vpText s k = vpText t k) : s = t := by
  unfold vpText at h
  split at h
  · exact h
  · split at h
    · have := List.append_cancel_left h
      simpa [parens] using this
    · exact inPow_inj (List.append_cancel_right h)

theorem fullText_inj {s t : Str} {k : ℚ} (h : fullText s k = fullText t k) : s = t := by
  unfold fullText at h
  split at h
  · exact inPow_inj (by simpa using h)
  · split at h
    · exact vpText_inj (by simpa using h)
    · exact vpText_inj h

theorem key_vp {s : Str} (hs : goodName s = true) {k : ℚ} (hk : k ≠ 0) : key O (vp s k) =
    (if k = 1 then 1 else 2, k, fullText s k) := by
  unfold key sortKey
  rw [nwf_vp, power_vp]
  have : (lim O 0).repr (vp s k) = .ok (NF.text O (vp s k)) := rfl
  rw [this, text_eq (repr_vp (O := O) 0 hs hk)]
  by_cases h : k = 1 <;> simp [R.get, h]

theorem key_vp_inj {s t : Str} (hs : goodName s = true) (ht : goodName t = true) {j k : ℚ} (hj : j ≠ 0) (hk : k ≠ 0)
    (h : key O (vp s j) = key O (vp t k)) : s = t ∧ j = k := by
  rw [key_vp hs hj, key_vp ht hk] at h
  simp only [Prod.mk.injEq] at h
  obtain ⟨-, rfl, h3⟩ := h
  exact ⟨fullText_inj h3, rfl⟩

theorem fine_vp (n : Nat) {s : Str} (hs : goodName s = true) {k : ℚ} (hk : k ≠ 0) : Fine O (n + 3) (vp s k) :=
  ⟨⟨_, nwf_vp s k⟩, ⟨_, power_vp s k⟩, ⟨_, repr_vp n hs hk⟩⟩

theorem key_vp_pos {s : Str} (hs : goodName s = true) {k : ℚ} (hk : k ≠ 0) : 1 ≤ (key O (vp s k)).1 := by
  rw [key_vp hs hk]; dsimp only; split <;> omega

/-! ## Numbers and powers of symbols -/

/-- The exponents of a factor. -/
noncomputable def lx : Expr → (Str →₀ ℚ)
  | sym s => Finsupp.single s 1
  | pow (sym s) (rat q) => Finsupp.single s q
  | _ => 0

/-- A number or a power of a symbol. -/
inductive Leaf : Expr → Prop
  | num (q : ℚ) : q ≠ 0 → Leaf (rat q)
  | pow (s : Str) (k : ℚ) : goodName s = true → k ≠ 0 → Leaf (vp s k)

@[simp] theorem lx_rat (q : ℚ) : lx (rat q) = 0 := rfl
@[simp] theorem lc_vp (s : Str) (k : ℚ) : lc (vp s k) = 1 := by
  rcases vp_cases s k with ⟨_, h⟩ | ⟨_, h⟩ <;> rw [h] <;> rfl
@[simp] theorem lx_vp (s : Str) (k : ℚ) : lx (vp s k) = Finsupp.single s k := by
  rcases vp_cases s k with ⟨h1, h⟩ | ⟨_, h⟩ <;> rw [h]
  · subst h1; rfl
  · simp [lx]

/-- The powers in `l`. -/
def vps (l : List (Str × ℚ)) : List Expr := l.map fun p => vp p.1 p.2
/-- Their exponents. -/
noncomputable def exps (l : List (Str × ℚ)) : Str →₀ ℚ := (l.map fun p => Finsupp.single p.1 p.2).sum

theorem sum_split (p : Expr → Bool) (f : Expr → (Str →₀ ℚ)) (l : List Expr) :
    (l.map f).sum = ((l.filter p).map f).sum + ((l.filter fun t => !p t).map f).sum := by
  induction l with
  | nil => simp
  | cons t r ih => by_cases h : p t = true <;> simp [h, ih, add_assoc, add_left_comm]

theorem hits_rat {q : ℚ} {r : List Expr} (hr : ∀ f ∈ r, Leaf f) :
    ∃ k, r.filter (fun u => beq O (deconPow u).1 (rat q)) = List.replicate k (rat q) := by
  refine ⟨_, List.eq_replicate_iff.2 ⟨rfl, fun b hb => ?_⟩⟩
  obtain ⟨h1, h2⟩ := List.mem_filter.1 hb
  cases hr b h1 with
  | num p hp => simp [deconPow, beq] at h2; rw [h2]
  | pow s k hs hk => rw [decon_vp] at h2; simp [beq] at h2

theorem hits_vp (s : Str) : ∀ {r : List Expr}, (∀ f ∈ r, Leaf f) →
    ∃ ks : List ℚ, r.filter (fun u => beq O (deconPow u).1 (sym s)) = ks.map (vp s)
  | [], _ => ⟨[], by simp⟩
  | t :: r, hr => by
    obtain ⟨ks, h1⟩ := hits_vp s (r := r) fun f hf => hr f (List.mem_cons_of_mem _ hf)
    cases hr t (List.mem_cons_self ..) with
    | num p hp => exact ⟨ks, by rw [List.filter_cons, decon_rat, h1]; simp [beq]⟩
    | pow s' k hs hk =>
      by_cases h : s' = s
      · subst h
        refine ⟨k :: ks, ?_⟩
        rw [List.filter_cons, decon_vp, h1]
        simp [beq]
      · refine ⟨ks, ?_⟩
        rw [List.filter_cons, decon_vp, h1]
        simp [beq, h]

theorem loop_leaves (m : Nat) : ∀ (N : Nat) (fs : List Expr), fs.length ≤ N → (∀ f ∈ fs, Leaf f) →
    ∃ (l : List (Str × ℚ)) (qs : List ℚ), combineProdLoop O (ctors O (m + 1)) N fs = .ok (vps l, qs.map rat) ∧
      qs.prod = (fs.map lc).prod ∧ exps l = (fs.map lx).sum ∧ (l.map Prod.fst).Nodup ∧ (∀ p ∈ l, p.2 ≠ 0) ∧
      ∀ p ∈ l, ∃ k, vp p.1 k ∈ fs
  | 0, fs, hN, _ => by
    have : fs = [] := List.length_eq_zero_iff.1 (by omega)
    subst this
    exact ⟨[], [], by simp [combineProdLoop, vps], by simp, by simp [exps], by simp, by simp, by simp⟩
  | N + 1, [], _, _ => ⟨[], [], by simp [combineProdLoop, vps], by simp, by simp [exps], by simp, by simp, by simp⟩
  | N + 1, t :: r, hN, hl => by
    have hr : ∀ f ∈ r, Leaf f := fun f hf => hl f (List.mem_cons_of_mem _ hf)
    have step := fun (p : Expr → Bool) => loop_leaves m N (r.filter fun u => !p u)
      (le_trans (List.length_filter_le ..) (by simpa using hN)) fun f hf => hr f (List.mem_filter.1 hf).1
    unfold combineProdLoop
    cases hl t (List.mem_cons_self ..) with
    | num q hq =>
      obtain ⟨k, hk⟩ := hits_rat (O := O) (q := q) hr
      obtain ⟨l, qs, h1, h2, h3, h4, h5, h6⟩ := step fun u => beq O (deconPow u).1 (rat q)
      have h6' : ∀ p ∈ l, ∃ k, vp p.1 k ∈ rat q :: r := fun p hp => by
        obtain ⟨k, h⟩ := h6 p hp; exact ⟨k, List.mem_cons_of_mem _ (List.mem_filter.1 h).1⟩
      have e2 := prod_split (fun u => beq O (deconPow u).1 (rat q)) lc r
      have e3 := sum_split (fun u => beq O (deconPow u).1 (rat q)) lx r
      rw [hk, ← h2] at e2
      rw [hk, ← h3] at e3
      rw [decon_rat]
      simp only []
      rw [h1, hk]
      by_cases h0 : k = 0
      · subst h0
        refine ⟨l, q :: qs, by simp [isAcc, bind, Except.bind, pure, Except.pure], ?_, ?_, h4, h5, h6'⟩
        · simp [e2]
        · simp [e3]
      · have hne : (List.replicate k (rat q)).isEmpty = false := by cases k <;> simp_all [List.replicate]
        have hf : foldAdd (ctors O (m + 1)) (rat 1) ((List.replicate k (rat q)).map fun u => (deconPow u).2) = .ok (rat ((k + 1 : ℕ) : ℚ)) := by
          have := foldAdd_rat (C := ctors O (m + 1)) (List.replicate k 1) 1
          simp only [List.map_replicate, decon_rat, List.sum_replicate, nsmul_eq_mul, mul_one] at this ⊢
          rw [this]; push_cast; rw [add_comm]
        refine ⟨l, q ^ (k + 1) :: qs, ?_, ?_, ?_, h4, h5, h6'⟩
        · simp only [hne, Bool.false_eq_true, if_false]
          rw [hf, ok_bind, like_num m q (by omega)]
          simp [isAcc, bind, Except.bind, pure, Except.pure]
        · simp [e2, pow_succ]; ring
        · simp [e3]
    | pow s k hs hk0 =>
      obtain ⟨ks, hk⟩ := hits_vp (O := O) s hr
      obtain ⟨l, qs, h1, h2, h3, h4, h5, h6⟩ := step fun u => beq O (deconPow u).1 (sym s)
      have hsl : s ∉ l.map Prod.fst := by
        intro h
        obtain ⟨p, hp, rfl⟩ := List.mem_map.1 h
        obtain ⟨j, hj⟩ := h6 p hp
        have := (List.mem_filter.1 hj).2
        rw [decon_vp] at this
        simp [beq] at this
      have h6l : ∀ p ∈ l, ∃ k', vp p.1 k' ∈ vp s k :: r := fun p hp => by
        obtain ⟨k, h⟩ := h6 p hp; exact ⟨k, List.mem_cons_of_mem _ (List.mem_filter.1 h).1⟩
      have h6' : ∀ j, ∀ p ∈ (s, j) :: l, ∃ k', vp p.1 k' ∈ vp s k :: r := fun j p hp => by
        rcases List.mem_cons.1 hp with rfl | hp
        · exact ⟨k, List.mem_cons_self ..⟩
        · exact h6l p hp
      have e2 := prod_split (fun u => beq O (deconPow u).1 (sym s)) lc r
      have e3 := sum_split (fun u => beq O (deconPow u).1 (sym s)) lx r
      rw [hk, ← h2] at e2
      rw [hk, ← h3] at e3
      rw [decon_vp]
      simp only []
      rw [h1, hk]
      have f2 : (((ks.map (vp s)).map lc).prod : ℚ) = 1 := by
        rw [List.map_map]
        exact List.prod_eq_one fun x hx => by
          obtain ⟨j, -, rfl⟩ := List.mem_map.1 hx; simp
      have f3 : ((ks.map (vp s)).map lx).sum = Finsupp.single s ks.sum := by
        clear hk e2 e3 f2
        induction ks with
        | nil => simp
        | cons a b ih => rw [List.map_cons, List.map_cons, List.sum_cons, List.sum_cons, ih, lx_vp, Finsupp.single_add]
      by_cases h0 : ks = []
      · subst h0
        refine ⟨(s, k) :: l, qs, by simp [acc_vp, vps, bind, Except.bind, pure, Except.pure], ?_, ?_, ?_, ?_, h6' k⟩
        · rw [List.map_cons, List.prod_cons, e2, f2]; simp
        · rw [List.map_cons, List.sum_cons, e3, f3]; simp [exps]
        · simpa using ⟨by simpa using hsl, h4⟩
        · exact List.forall_mem_cons.2 ⟨hk0, h5⟩
      · have hne : (ks.map (vp s)).isEmpty = false := by cases ks <;> simp_all
        have hf : foldAdd (ctors O (m + 1)) (rat k) ((ks.map (vp s)).map fun u => (deconPow u).2) = .ok (rat (k + ks.sum)) := by
          have := foldAdd_rat (C := ctors O (m + 1)) ks k
          rw [List.map_map]
          rw [show ((fun u => (deconPow u).2) ∘ vp s) = rat from funext fun j => by simp [decon_vp], this]
        by_cases hz : k + ks.sum = 0
        · refine ⟨l, qs, ?_, ?_, ?_, h4, h5, h6l⟩
          · simp only [hne, Bool.false_eq_true, if_false]
            rw [hf, ok_bind, like_var m, if_pos hz]
            simp [bind, Except.bind, pure, Except.pure]
          · rw [List.map_cons, List.prod_cons, e2, f2]; simp
          · rw [List.map_cons, List.sum_cons, e3, f3, lx_vp, ← add_assoc, ← Finsupp.single_add, hz]; simp
        · refine ⟨(s, k + ks.sum) :: l, qs, ?_, ?_, ?_, ?_, ?_, h6' _⟩
          · simp only [hne, Bool.false_eq_true, if_false]
            rw [hf, ok_bind, like_var m, if_neg hz]
            have : (varPow s (k + ks.sum)).isAcc = false := acc_varPow _
            simp only [bind, Except.bind, pure, Except.pure, this, Bool.false_eq_true, if_false]
            simp [vps, vp]
          · rw [List.map_cons, List.prod_cons, e2, f2]; simp
          · rw [List.map_cons, List.sum_cons, e3, f3]; simp [exps, Finsupp.single_add, add_assoc]
          · simpa using ⟨by simpa using hsl, h4⟩
          · exact List.forall_mem_cons.2 ⟨hz, h5⟩

end MQ
end Simpy
