import Verif.Proofs.MonoArith
import Verif.Proofs.Comm
import Verif.Proofs.Mono
import Mathlib.Data.Finsupp.Single
import Mathlib.Algebra.BigOperators.Finsupp.Basic
import Mathlib.Data.List.Sort
import Mathlib.Algebra.BigOperators.Group.List.Lemmas

/-! # Lemmas: sorting by the printed form, and products of powers of symbols -/

namespace Simpy
namespace NF
open Expr Lin Mono1

variable {O : Oracle}

/-! ## What an expression is printed as, with enough stack -/

open Classical in
noncomputable def text (O : Oracle) (e : Expr) : Str :=
  if h : ∃ p : Nat × Str, (ctors O p.1).repr e = .ok p.2 then h.choose.2 else []

theorem text_eq {n : Nat} {e : Expr} {s : Str} (h : (ctors O n).repr e = .ok s) : text O e = s := by
  have hx : ∃ p : Nat × Str, (ctors O p.1).repr e = .ok p.2 := ⟨(n, s), h⟩
  unfold text
  rw [dif_pos hx]
  have h1 := hx.choose_spec
  have a := (ctors_le O (Nat.le_max_left n hx.choose.1)).repr e _ h
  have b := (ctors_le O (Nat.le_max_right n hx.choose.1)).repr e _ h1
  rw [a] at b
  exact (Except.ok.inj b).symm

/-- The entry points with unlimited stack for printing. -/
noncomputable def lim (O : Oracle) (n : Nat) : Ctors := { ctors O n with repr := fun e => .ok (text O e) }

theorem lim_le (n : Nat) : CLe (ctors O n) (lim O n) where
  sum _ := .refl _
  prod _ := .refl _
  pow _ _ := .refl _
  abs _ := .refl _
  repr e := fun s h => by rw [← text_eq h]; rfl

/-- The sort key. -/
noncomputable def key (O : Oracle) (a : Expr) : Nat × ℚ × Str := sortKey (lim O 0) a

/-- The order of the terms. -/
def Le (O : Oracle) (a b : Expr) : Prop := keyLe (key O a) (key O b)

theorem lim_key (n : Nat) (a : Expr) : sortKey (lim O n) a = key O a := rfl

/-- Everything that the comparison may ask for can be computed. -/
structure Fine (O : Oracle) (n : Nat) (a : Expr) : Prop where
  nwf : Ok (Simpy.nwf a)
  power : Ok (constPower a)
  repr : Ok ((ctors O n).repr a)

theorem cmp_ok {n : Nat} {a b : Expr} (ha : Fine O n a) (hb : Fine O n b) : Ok (cmpLt (ctors O n) a b) := by
  unfold cmpLt
  refine Ok.bind ha.nwf fun na _ => Ok.bind hb.nwf fun nb _ => Ok.ite (Ok.ite (Ok.ok _) ?_) (Ok.ite (Ok.ok _) ?_)
  · exact Ok.bind ha.repr fun _ _ => Ok.bind hb.repr fun _ _ => Ok.ok _
  · exact Ok.bind ha.power fun _ _ => Ok.bind hb.power fun _ _ => Ok.ite (Ok.ok _)
      (Ok.bind ha.repr fun _ _ => Ok.bind hb.repr fun _ _ => Ok.ok _)

/-- Terms with different keys have only one sorted order. -/
theorem sort_is {n : Nat} {l s : List Expr} (hf : ∀ a ∈ l, Fine O n a) (hi : ∀ a ∈ l, ∀ b ∈ l, key O a = key O b → a = b)
    (hp : s.Perm l) (hs : s.Pairwise (Le O)) : sortTerms (ctors O n) l = .ok s := by
  obtain ⟨s', h⟩ : Ok (sortTerms (ctors O n) l) := pySorted_total fun a ha b hb => cmp_ok (hf a ha) (hf b hb)
  have h' : sortTerms (lim O n) l = .ok s' := sortTerms_le (lim_le n) l s' h
  have hs' : s'.Pairwise (Le O) := pySorted_sorted (cmpLt_agrees (lim O n)) h'
  have hp' := sortTerms_perm h
  rw [h]
  congr 1
  refine List.Perm.eq_of_pairwise (fun a b ha hb h1 h2 => ?_) hs' hs (hp'.trans hp.symm)
  exact hi a (hp'.mem_iff.1 ha) b (hp.mem_iff.1 hb) (keyLe_antisymm h1 h2)

theorem le_total (a b : Expr) : Le O a b ∨ Le O b a := by
  unfold Le keyLe
  rcases lt_trichotomy (key O a).1 (key O b).1 with h | h | h
  · exact .inl (.inl h)
  · rcases lt_trichotomy (key O a).2.1 (key O b).2.1 with k | k | k
    · exact .inl (.inr ⟨h, .inl k⟩)
    · rw [strLe_iff, strLe_iff]
      rcases _root_.le_total ((key O a).2.2.map Char.toNat) ((key O b).2.2.map Char.toNat) with m | m
      · exact .inl (.inr ⟨h, .inr ⟨k, m⟩⟩)
      · exact .inr (.inr ⟨h.symm, .inr ⟨k.symm, m⟩⟩)
    · exact .inr (.inr ⟨h.symm, .inl k⟩)
  · exact .inr (.inl h)

open Classical in
/-- The terms in order. -/
noncomputable def sorted (O : Oracle) (l : List Expr) : List Expr := l.mergeSort fun a b => decide (Le O a b)

theorem sorted_perm (l : List Expr) : (sorted O l).Perm l := List.mergeSort_perm ..

theorem sorted_le (l : List Expr) : (sorted O l).Pairwise (Le O) := by
  have := List.pairwise_mergeSort (le := fun a b => @decide (Le O a b) (Classical.propDecidable _))
    (fun a b c h1 h2 => by
      simp only [decide_eq_true_eq] at *
      exact keyLe_trans h1 h2)
    (fun a b => by
      rcases le_total (O := O) a b with h | h <;> simp [h]) l
  simpa [sorted] using this

/-! ## Powers of symbols -/

/-- `s ** k`. -/
def vp (s : Str) (k : ℕ) : Expr := varPow s k

theorem vp_ne {k : ℕ} (h : 1 ≤ k) : (k : ℚ) ≠ 0 := by
  have : k ≠ 0 := by omega
  exact_mod_cast this

theorem vp_cases (s : Str) (k : ℕ) : (k = 1 ∧ vp s k = sym s) ∨ (k ≠ 1 ∧ vp s k = pow (sym s) (rat k)) := by
  by_cases h : k = 1
  · exact .inl ⟨h, by simp [vp, varPow, h]⟩
  · refine .inr ⟨h, ?_⟩
    simp [vp, varPow, h]

theorem decon_rat (q : ℚ) : deconPow (rat q) = (rat q, rat 1) := rfl
theorem decon_vp (s : Str) (k : ℕ) : deconPow (vp s k) = (sym s, rat k) := decon_varPow _
theorem acc_vp (s : Str) (k : ℕ) : (vp s k).isAcc = false := acc_varPow _
theorem flat_vp (s : Str) (k : ℕ) : flatP (vp s k) = [vp s k] := flat_varPow _
theorem prod_vp (s : Str) (k : ℕ) : (vp s k).isProd = false := by rcases vp_cases s k with ⟨_, h⟩ | ⟨_, h⟩ <;> rw [h] <;> rfl
theorem sum_vp (s : Str) (k : ℕ) : (vp s k).isSum = false := by rcases vp_cases s k with ⟨_, h⟩ | ⟨_, h⟩ <;> rw [h] <;> rfl
theorem sub_vp (s : Str) (k : ℕ) : (vp s k).isSubtraction = false := by
  rcases vp_cases s k with ⟨_, h⟩ | ⟨_, h⟩ <;> rw [h] <;> rfl
theorem syms_vp (s : Str) (k : ℕ) : syms (vp s k) = [s] := by
  rcases vp_cases s k with ⟨_, h⟩ | ⟨_, h⟩ <;> rw [h] <;> simp [syms]
theorem varies_vp (s : Str) (k : ℕ) : varies (vp s k) = true := by
  rcases vp_cases s k with ⟨_, h⟩ | ⟨_, h⟩ <;> rw [h] <;> simp [varies, syms]
theorem nwf_vp (s : Str) (k : ℕ) : nwf (vp s k) = .ok (if k = 1 then 1 else 2) := by
  rcases vp_cases s k with ⟨h1, h⟩ | ⟨h1, h⟩ <;> rw [h]
  · simp [h1, nwf]
  · simp [h1, nwf, varies, syms, bind, Except.bind, pure, Except.pure]
theorem power_vp (s : Str) (k : ℕ) : constPower (vp s k) = .ok (k : ℚ) := by
  rcases vp_cases s k with ⟨h1, h⟩ | ⟨h1, h⟩ <;> rw [h]
  · simp [h1, constPower, removeConstFactor, bind, Except.bind, pure, Except.pure]
  · simp [constPower, removeConstFactor, bind, Except.bind, pure, Except.pure]

/-- A symbol as the base of a power. -/
def inPow (s : Str) : Str := if s.length > 1 then parens s else s

theorem repr_vp (n : Nat) (s : Str) {k : ℕ} (hk : 1 ≤ k) : (ctors O (n + 2)).repr (vp s k) =
    .ok (if k = 1 then s else inPow s ++ '^' :: ratStr k) := by
  rcases vp_cases s k with ⟨h1, h⟩ | ⟨h1, h⟩ <;> rw [h]
  · simp [h1]; rfl
  · show powRepr O (ctors O (n + 1)) (sym s) (rat k) = _
    have a1 : ¬ ((k : ℚ) = -1) := by
      have : (0 : ℚ) ≤ k := by positivity
      intro h; linarith
    have a2 : ¬ ((k : ℚ) < 0) := by
      have : (0 : ℚ) ≤ k := by positivity
      linarith
    have a3 : ¬ ((k : ℚ) = 1 / 2) := by
      have : (2 : ℚ) ≤ k := by exact_mod_cast (by omega : 2 ≤ k)
      intro h; linarith
    have r1 : (ctors O (n + 1)).repr (sym s) = .ok s := rfl
    have r2 : (ctors O (n + 1)).repr (rat k) = .ok (ratStr k) := rfl
    unfold powRepr powTermRepr
    simp only [beq, beq_iff_eq, a1, a2, a3, if_false, negNum, decide_false, Bool.and_false, Bool.false_eq_true, r1, r2, h1]
    simp only [bind, Except.bind, pure, Except.pure, Except.ok.injEq]
    simp [isSum, isProd, isFractionOrNeg, isLongSymbol, inPow]

theorem inPow_inj {s t : Str} (h : inPow s = inPow t) : s = t := by
  unfold inPow parens at h
  split at h <;> split at h
  · simpa using h
  · rename_i a b
    have := congrArg List.length h
    simp at this; omega
  · rename_i a b
    have := congrArg List.length h
    simp at this; omega
  · exact h

theorem key_vp (s : Str) {k : ℕ} (hk : 1 ≤ k) : key O (vp s k) =
    (if k = 1 then 1 else 2, (k : ℚ), if k = 1 then s else inPow s ++ '^' :: ratStr k) := by
  unfold key sortKey
  rw [nwf_vp, power_vp]
  have : (lim O 0).repr (vp s k) = .ok (text O (vp s k)) := rfl
  rw [this, text_eq (repr_vp (O := O) 0 s hk)]
  by_cases h : k = 1 <;> simp [R.get, h]

theorem key_vp_inj {s t : Str} {j k : ℕ} (hj : 1 ≤ j) (hk : 1 ≤ k) (h : key O (vp s j) = key O (vp t k)) : s = t ∧ j = k := by
  rw [key_vp s hj, key_vp t hk] at h
  simp only [Prod.mk.injEq] at h
  obtain ⟨-, h2, h3⟩ := h
  have : j = k := by exact_mod_cast h2
  subst this
  refine ⟨?_, rfl⟩
  by_cases h1 : j = 1
  · simpa [h1] using h3
  · simp only [h1, if_false] at h3
    exact inPow_inj (List.append_cancel_right h3)

theorem fine_vp (n : Nat) (s : Str) {k : ℕ} (hk : 1 ≤ k) : Fine O (n + 2) (vp s k) :=
  ⟨⟨_, nwf_vp s k⟩, ⟨_, power_vp s k⟩, ⟨_, repr_vp n s hk⟩⟩

theorem fine_rat (n : Nat) (q : ℚ) : Fine O (n + 1) (rat q) :=
  ⟨⟨0, by simp [nwf]⟩, ⟨1, by simp [constPower, removeConstFactor, bind, Except.bind, pure, Except.pure]⟩, ⟨_, rfl⟩⟩

theorem key_rat (q : ℚ) : (key O (rat q)).1 = 0 := by simp [key, sortKey, nwf, R.get]

theorem key_vp_pos (s : Str) {k : ℕ} (hk : 1 ≤ k) : 1 ≤ (key O (vp s k)).1 := by
  rw [key_vp s hk]; dsimp only; split <;> omega

/-! ## Numbers and powers of symbols -/

/-- The coefficient of a factor. -/
def lc : Expr → ℚ
  | rat q => q
  | _ => 1

/-- The exponents of a factor. -/
noncomputable def lx : Expr → (Str →₀ ℕ)
  | sym s => Finsupp.single s 1
  | pow (sym s) (rat q) => Finsupp.single s q.num.toNat
  | _ => 0

/-- A number or a power of a symbol. -/
inductive Leaf : Expr → Prop
  | num (q : ℚ) : Leaf (rat q)
  | pow (s : Str) (k : ℕ) : 1 ≤ k → Leaf (vp s k)

@[simp] theorem lc_rat (q : ℚ) : lc (rat q) = q := rfl
@[simp] theorem lx_rat (q : ℚ) : lx (rat q) = 0 := rfl
@[simp] theorem lc_vp (s : Str) (k : ℕ) : lc (vp s k) = 1 := by
  rcases vp_cases s k with ⟨_, h⟩ | ⟨_, h⟩ <;> rw [h] <;> rfl
@[simp] theorem lx_vp (s : Str) (k : ℕ) : lx (vp s k) = Finsupp.single s k := by
  rcases vp_cases s k with ⟨h1, h⟩ | ⟨_, h⟩ <;> rw [h]
  · subst h1; rfl
  · simp [lx]

/-- The powers in `l`. -/
def vps (l : List (Str × ℕ)) : List Expr := l.map fun p => vp p.1 p.2
/-- Their exponents. -/
noncomputable def exps (l : List (Str × ℕ)) : Str →₀ ℕ := (l.map fun p => Finsupp.single p.1 p.2).sum

theorem ok_bind {α β : Type} (a : α) (f : α → R β) : ((Except.ok a : R α) >>= f) = f a := rfl

theorem prod_split (p : Expr → Bool) (f : Expr → ℚ) (l : List Expr) :
    (l.map f).prod = ((l.filter p).map f).prod * ((l.filter fun t => !p t).map f).prod := by
  induction l with
  | nil => simp
  | cons t r ih => by_cases h : p t = true <;> simp [h, ih, mul_assoc, mul_left_comm]

theorem sum_split (p : Expr → Bool) (f : Expr → (Str →₀ ℕ)) (l : List Expr) :
    (l.map f).sum = ((l.filter p).map f).sum + ((l.filter fun t => !p t).map f).sum := by
  induction l with
  | nil => simp
  | cons t r ih => by_cases h : p t = true <;> simp [h, ih, add_assoc, add_left_comm]

theorem filter_not_of_nil {p : Expr → Bool} {r : List Expr} (h : r.filter p = []) : (r.filter fun u => !p u) = r := by
  rw [List.filter_eq_self]
  intro a ha
  have := (List.filter_eq_nil_iff.1 h) a ha
  simpa using this

theorem hits_rat {q : ℚ} {r : List Expr} (hr : ∀ f ∈ r, Leaf f) :
    ∃ k, r.filter (fun u => beq O (deconPow u).1 (rat q)) = List.replicate k (rat q) := by
  refine ⟨_, List.eq_replicate_iff.2 ⟨rfl, fun b hb => ?_⟩⟩
  obtain ⟨h1, h2⟩ := List.mem_filter.1 hb
  cases hr b h1 with
  | num p => simp [deconPow, beq] at h2; rw [h2]
  | pow s k hk => rw [decon_vp] at h2; simp [beq] at h2

theorem hits_vp (s : Str) : ∀ {r : List Expr}, (∀ f ∈ r, Leaf f) →
    ∃ ks : List ℕ, r.filter (fun u => beq O (deconPow u).1 (sym s)) = ks.map (vp s) ∧ ∀ k ∈ ks, 1 ≤ k
  | [], _ => ⟨[], by simp⟩
  | t :: r, hr => by
    obtain ⟨ks, h1, h2⟩ := hits_vp s (r := r) fun f hf => hr f (List.mem_cons_of_mem _ hf)
    cases hr t (List.mem_cons_self ..) with
    | num p => exact ⟨ks, by rw [List.filter_cons, decon_rat, h1]; simp [beq], h2⟩
    | pow s' k hk =>
      by_cases h : s' = s
      · subst h
        refine ⟨k :: ks, ?_, by simpa using ⟨hk, h2⟩⟩
        rw [List.filter_cons, decon_vp, h1]
        simp [beq]
      · refine ⟨ks, ?_, h2⟩
        rw [List.filter_cons, decon_vp, h1]
        simp [beq, h]

theorem like_num (m : Nat) (q : ℚ) {k : ℕ} (hk : 2 ≤ k) : likeFactor O (ctors O (m + 1)) (rat q) (rat (k : ℚ)) = .ok (some (rat (q ^ k))) := by
  have h0 : ¬ ((k : ℚ) = 0) := by exact_mod_cast (by omega : k ≠ 0)
  have h1 : ¬ ((k : ℚ) = 1) := by exact_mod_cast (by omega : k ≠ 1)
  have := rational_power_exact O m q k (.inr (by positivity))
  unfold likeFactor
  rw [show (rat (k : ℚ)) = rat ((k : ℤ) : ℚ) by simp, this]
  simp [beq, h0]; omega

theorem loop_leaves (m : Nat) : ∀ (N : Nat) (fs : List Expr), fs.length ≤ N → (∀ f ∈ fs, Leaf f) →
    ∃ (l : List (Str × ℕ)) (qs : List ℚ), combineProdLoop O (ctors O (m + 1)) N fs = .ok (vps l, qs.map rat) ∧
      qs.prod = (fs.map lc).prod ∧ exps l = (fs.map lx).sum ∧ (l.map Prod.fst).Nodup ∧ (∀ p ∈ l, 1 ≤ p.2) ∧
      ∀ p ∈ l, vp p.1 p.2 ∈ fs ∨ ∃ k, vp p.1 k ∈ fs
  | 0, fs, hN, _ => by
    have : fs = [] := List.length_eq_zero_iff.1 (by omega)
    subst this
    exact ⟨[], [], by simp [combineProdLoop, vps], by simp, by simp [exps], by simp, by simp, by simp⟩
  | N + 1, [], _, _ => ⟨[], [], by simp [combineProdLoop, vps], by simp, by simp [exps], by simp, by simp, by simp⟩
  | N + 1, t :: r, hN, hl => by
    have hr : ∀ f ∈ r, Leaf f := fun f hf => hl f (List.mem_cons_of_mem _ hf)
    have step := fun (p : Expr → Bool) => loop_leaves m N (r.filter fun u => !p u)
      (le_trans (List.length_filter_le ..) (by simpa using hN)) fun f hf => hr f (List.mem_filter.1 hf).1
    unfold combineProdLoop
    cases hl t (List.mem_cons_self ..) with
    | num q =>
      obtain ⟨k, hk⟩ := hits_rat (O := O) (q := q) hr
      obtain ⟨l, qs, h1, h2, h3, h4, h5, h6⟩ := step fun u => beq O (deconPow u).1 (rat q)
      have h6' : ∀ p ∈ l, vp p.1 p.2 ∈ rat q :: r ∨ ∃ k, vp p.1 k ∈ rat q :: r := fun p hp =>
        (h6 p hp).imp (fun h => List.mem_cons_of_mem _ (List.mem_filter.1 h).1)
          fun ⟨k, h⟩ => ⟨k, List.mem_cons_of_mem _ (List.mem_filter.1 h).1⟩
      have e2 := prod_split (fun u => beq O (deconPow u).1 (rat q)) lc r
      have e3 := sum_split (fun u => beq O (deconPow u).1 (rat q)) lx r
      rw [hk, ← h2] at e2
      rw [hk, ← h3] at e3
      rw [decon_rat]
      simp only []
      rw [h1, hk]
      by_cases h0 : k = 0
      · subst h0
        refine ⟨l, q :: qs, by simp [isAcc, bind, Except.bind, pure, Except.pure], ?_, ?_, h4, h5, h6'⟩
        · simp [e2]
        · simp [e3]
      · have hne : (List.replicate k (rat q)).isEmpty = false := by cases k <;> simp_all [List.replicate]
        have hf : foldAdd (ctors O (m + 1)) (rat 1) ((List.replicate k (rat q)).map fun u => (deconPow u).2) = .ok (rat ((k + 1 : ℕ) : ℚ)) := by
          have := foldAdd_rat (C := ctors O (m + 1)) (List.replicate k 1) 1
          simp only [List.map_replicate, decon_rat, List.sum_replicate, nsmul_eq_mul, mul_one] at this ⊢
          rw [this]; push_cast; rw [add_comm]
        refine ⟨l, q ^ (k + 1) :: qs, ?_, ?_, ?_, h4, h5, h6'⟩
        · simp only [hne, Bool.false_eq_true, if_false]
          rw [hf, ok_bind, like_num m q (by omega)]
          simp [isAcc, bind, Except.bind, pure, Except.pure]
        · simp [e2, pow_succ]; ring
        · simp [e3]
    | pow s k hk0 =>
      obtain ⟨ks, hk, hks⟩ := hits_vp (O := O) s hr
      obtain ⟨l, qs, h1, h2, h3, h4, h5, h6⟩ := step fun u => beq O (deconPow u).1 (sym s)
      have hsl : s ∉ l.map Prod.fst := by
        intro h
        obtain ⟨p, hp, rfl⟩ := List.mem_map.1 h
        have : ∃ j, vp p.1 j ∈ r.filter fun u => !beq O (deconPow u).1 (sym p.1) := (h6 p hp).elim (fun h => ⟨_, h⟩) id
        obtain ⟨j, hj⟩ := this
        have := (List.mem_filter.1 hj).2
        rw [decon_vp] at this
        simp [beq] at this
      have h6' : ∀ j, ∀ p ∈ (s, j) :: l, vp p.1 p.2 ∈ vp s k :: r ∨ ∃ k', vp p.1 k' ∈ vp s k :: r := fun j p hp => by
        rcases List.mem_cons.1 hp with rfl | hp
        · exact .inr ⟨k, List.mem_cons_self ..⟩
        · exact (h6 p hp).imp (fun h => List.mem_cons_of_mem _ (List.mem_filter.1 h).1)
            fun ⟨k, h⟩ => ⟨k, List.mem_cons_of_mem _ (List.mem_filter.1 h).1⟩
      have e2 := prod_split (fun u => beq O (deconPow u).1 (sym s)) lc r
      have e3 := sum_split (fun u => beq O (deconPow u).1 (sym s)) lx r
      rw [hk, ← h2] at e2
      rw [hk, ← h3] at e3
      rw [decon_vp]
      simp only []
      rw [h1, hk]
      have f2 : (((ks.map (vp s)).map lc).prod : ℚ) = 1 := by
        rw [List.map_map]
        exact List.prod_eq_one fun x hx => by
          obtain ⟨j, -, rfl⟩ := List.mem_map.1 hx; simp
      have f3 : ((ks.map (vp s)).map lx).sum = Finsupp.single s ks.sum := by
        clear hk hks e2 e3 f2
        induction ks with
        | nil => simp
        | cons a b ih => rw [List.map_cons, List.map_cons, List.sum_cons, List.sum_cons, ih, lx_vp, Finsupp.single_add]
      by_cases h0 : ks = []
      · subst h0
        refine ⟨(s, k) :: l, qs, by simp [acc_vp, vps, bind, Except.bind, pure, Except.pure], ?_, ?_, ?_, ?_, h6' k⟩
        · rw [List.map_cons, List.prod_cons, e2, f2]; simp
        · rw [List.map_cons, List.sum_cons, e3, f3]; simp [exps]
        · simpa using ⟨by simpa using hsl, h4⟩
        · exact List.forall_mem_cons.2 ⟨hk0, h5⟩
      · have hne : (ks.map (vp s)).isEmpty = false := by cases ks <;> simp_all
        have hf : foldAdd (ctors O (m + 1)) (rat k) ((ks.map (vp s)).map fun u => (deconPow u).2) = .ok (rat ((k + ks.sum : ℕ) : ℚ)) := by
          have := foldAdd_rat (C := ctors O (m + 1)) (ks.map fun j : ℕ => (j : ℚ)) k
          rw [List.map_map] at this ⊢
          rw [show ((fun u => (deconPow u).2) ∘ vp s) = (rat ∘ fun j : ℕ => (j : ℚ)) from funext fun j => by simp [decon_vp], this]
          push_cast; rfl
        have hne0 : ((k + ks.sum : ℕ) : ℚ) ≠ 0 := vp_ne (by omega)
        refine ⟨(s, k + ks.sum) :: l, qs, ?_, ?_, ?_, ?_, ?_, h6' _⟩
        · simp only [hne, Bool.false_eq_true, if_false]
          rw [hf, ok_bind, like_var m, if_neg hne0]
          have : (varPow s ((k + ks.sum : ℕ) : ℚ)).isAcc = false := acc_varPow _
          simp only [bind, Except.bind, pure, Except.pure, this, Bool.false_eq_true, if_false]
          simp [vps, vp]
        · rw [List.map_cons, List.prod_cons, e2, f2]; simp
        · rw [List.map_cons, List.sum_cons, e3, f3]; simp [exps, Finsupp.single_add, add_assoc]
        · simpa using ⟨by simpa using hsl, h4⟩
        · exact List.forall_mem_cons.2 ⟨by dsimp only; omega, h5⟩

end NF
end Simpy
