import Verif.Spec.Inside
import Verif.Props.Regex
import Verif.Proofs.USubSound
import Verif.Proofs.SolSound

/-! Counting occurrences of a symbol and of an expression that contains it. -/

namespace Simpy
open Expr

variable {O : Oracle}

theorem child_lt {e t : Expr} (ht : t ∈ e.children) : sizeOf t < sizeOf e := by
  cases e <;> simp only [Expr.children, List.mem_cons, List.not_mem_nil, or_false] at ht
  · have := List.sizeOf_lt_of_mem ht; simp; omega
  · have := List.sizeOf_lt_of_mem ht; simp; omega
  · rcases ht with rfl | rfl <;> simp <;> omega
  · rcases ht with rfl | rfl <;> simp <;> omega
  · subst ht; simp
  · subst ht; simp

theorem Expr.ofChildren {P : Expr → Prop} (h : ∀ e : Expr, (∀ t ∈ e.children, P t) → P e) (e : Expr) : P e :=
  h e fun t ht => Expr.ofChildren h t
termination_by sizeOf e
decreasing_by exact child_lt ht

/-- the number of occurrences of a symbol, at a node -/
theorem count_sym (v : Str) (e : Expr) :
    count O (sym v) e = if e = sym v then 1 else (e.children.map (count O (sym v))).sum := by
  unfold count
  rw [general_count_node]
  cases e <;> simp [sameClass, beq]

theorem count_beq (v : Str) : ∀ a b : Expr, beq O a b = true → count O (sym v) a = count O (sym v) b
  | a, b, h => by
    have L : ∀ as bs : List Expr, (∀ a ∈ as, ∀ b, beq O a b = true → count O (sym v) a = count O (sym v) b) →
        beqL O as bs = true → as.map (count O (sym v)) = bs.map (count O (sym v)) := by
      intro as
      induction as with
      | nil => intro bs _ h; cases bs <;> simp_all [beqL]
      | cons x r ih =>
        intro bs hx h
        cases bs with
        | nil => simp [beqL] at h
        | cons y s =>
          simp only [beqL, Bool.and_eq_true] at h
          simp only [List.map_cons]
          rw [hx x (by simp) y h.1, ih s (fun a ha => hx a (by simp [ha])) h.2]
    induction a using Expr.ofChildren generalizing b with
    | h a ih =>
      rw [count_sym, count_sym v b]
      cases a <;> cases b <;> (try simp only [beq, Bool.and_eq_true, Bool.false_eq_true] at h) <;>
        try simp only [Expr.children, reduceCtorEq, if_false, List.map_nil, List.sum_nil, List.map_cons, List.sum_cons] at ih ⊢
      all_goals first
        | rfl
        | (have := L _ _ ih h; rw [this])
        | (rw [ih _ (by simp) _ h.1, ih _ (by simp) _ h.2])
        | (rw [ih _ (by simp) _ h])
        | (rw [ih _ (by simp) _ h.2])
        | (simp only [beq_iff_eq] at h; subst h; rfl)

theorem sum_map_le {f g : Expr → Nat} : ∀ {ts : List Expr}, (∀ t ∈ ts, f t ≤ g t) →
    (ts.map f).sum ≤ (ts.map g).sum ∧ ((ts.map f).sum = (ts.map g).sum → ∀ t ∈ ts, f t = g t)
  | [], _ => by simp
  | t :: r, h => by
    obtain ⟨i, j⟩ := sum_map_le (ts := r) fun t ht => h t (by simp [ht])
    have := h t (by simp)
    simp only [List.map_cons, List.sum_cons, List.mem_cons, forall_eq_or_imp]
    exact ⟨by omega, fun k => ⟨by omega, j (by omega)⟩⟩

theorem count_inside {v : Str} {q : Expr} (e : Expr) :
    count O q e * count O (sym v) q ≤ count O (sym v) e ∧
      (count O q e * count O (sym v) q = count O (sym v) e → Inside O v q e) := by
  induction e using Expr.ofChildren with
  | h e ih =>
    have hq : count O q e = if (sameClass e q && beq O e q) = true then 1 else (e.children.map (count O q)).sum := by
      unfold count
      rw [general_count_node]
    by_cases hb : (sameClass e q && beq O e q) = true
    · rw [if_pos hb] at hq
      have hb' := (Bool.and_eq_true_iff.1 hb).2
      rw [hq, one_mul, count_beq v e q hb']
      exact ⟨le_refl _, fun _ => .here hb'⟩
    · rw [if_neg hb] at hq
      have key := sum_map_le (f := fun t => count O q t * count O (sym v) q) (g := count O (sym v)) (ts := e.children)
        fun t ht => (ih t ht).1
      have hs : (e.children.map fun t => count O q t * count O (sym v) q).sum = (e.children.map (count O q)).sum * count O (sym v) q := by
        rw [List.sum_map_mul_right]
      rw [hs] at key
      rw [hq, count_sym v e]
      by_cases hv : e = sym v
      · subst hv
        simp [Expr.children]
      · rw [if_neg hv]
        exact ⟨key.1, fun h => .node hv fun t ht => (ih t ht).2 (key.2 h t ht)⟩

theorem pow_var_rat {n : Nat} {v : Str} {k : ℚ} {q : Expr} (h : (ctors O n).pow (sym v) (rat k) = .ok q) (h0 : k ≠ 0) (h1 : k ≠ 1) :
    q = pow (sym v) (rat k) := by
  cases n with
  | zero => cases h
  | succ m =>
    have e : powCtor O (ctors O m) (sym v) (rat k) = .ok (pow (sym v) (rat k)) := by
      simp [powCtor, beq, h0, h1, Expr.isAcc, powLog, powTail, isSubtraction, powInf]
    have h : powCtor O (ctors O m) (sym v) (rat k) = .ok q := h
    rw [e] at h
    cases h
    rfl

theorem polynomialUSub_count {n : Nat} {v u : Str} {ts : List Expr} {q g : Expr} (h : polynomialUSub O n v u (prod ts) = .ok (some (q, g))) :
    ∃ m rest, polyULoop O (ctors O n) v [] ts = .ok (some (m, rest)) ∧ beq O m (rat 0) = false ∧
      (ctors O n).pow (sym v) m = .ok q ∧ count O q (prod ts) = count O (sym v) rest := by
  simp only [polynomialUSub] at h
  obtain ⟨k, h1, h⟩ := bind_ok.1 h
  cases k with
  | none => have := pure_ok.1 h; simp at this
  | some mr =>
    obtain ⟨m, rest⟩ := mr
    simp only at h
    split at h
    · have := pure_ok.1 h; simp at this
    rename_i hm
    obtain ⟨q', h2, h⟩ := bind_ok.1 h
    split at h
    · rename_i hc
      obtain ⟨d, -, h⟩ := bind_ok.1 h
      obtain ⟨r, -, h⟩ := bind_ok.1 h
      obtain ⟨g', -, h⟩ := bind_ok.1 h
      have := pure_ok.1 h
      simp only [Option.some.injEq, Prod.mk.injEq] at this
      obtain ⟨rfl, -⟩ := this
      have hc := (Bool.and_eq_true_iff.1 hc).2
      exact ⟨m, rest, h1, by simpa using hm, h2, by simpa using hc⟩
    · have := pure_ok.1 h; simp at this

theorem polyULoop_split {n : Nat} {v : Str} {ts : List Expr}
    (hr : ∀ t ∈ ts, ∀ b x, t = pow b x → beq O b (sym v) = true → ∃ k : ℚ, x = rat k ∧ k ≠ 0 ∧ k ≠ 1) :
    ∀ (r pre : List Expr) (m rest : Expr), polyULoop O (ctors O n) v pre r = .ok (some (m, rest)) → (∀ t ∈ r, t ∈ ts) →
      ∃ (k : ℚ) (mid post : List Expr), r = mid ++ varPow v k :: post ∧ k ≠ 0 ∧ m = rat (k + 1) ∧
        (ctors O n).prod (pre ++ mid ++ post) = .ok rest
  | [], pre, m, rest, h, _ => by simp [polyULoop] at h
  | t :: r, pre, m, rest, h, hm => by
    have later : polyULoop O (ctors O n) v (pre ++ [t]) r = .ok (some (m, rest)) →
        ∃ (k : ℚ) (mid post : List Expr), t :: r = mid ++ varPow v k :: post ∧ k ≠ 0 ∧ m = rat (k + 1) ∧
          (ctors O n).prod (pre ++ mid ++ post) = .ok rest := by
      intro h
      obtain ⟨k, mid, post, hs, h1, h2, h3⟩ := polyULoop_split hr r (pre ++ [t]) m rest h fun t ht => hm t (by simp [ht])
      exact ⟨k, t :: mid, post, by simp [hs], h1, h2, by simpa using h3⟩
    rw [polyULoop.eq_def] at h
    simp only at h
    split at h
    next b x =>
      split at h
      · rename_i hb
        have hb := Bool.and_eq_true_iff.1 hb
        obtain ⟨k, rfl, hk, hk1⟩ := hr _ (hm _ (by simp)) b x rfl hb.1
        have := beq_sym_iff.1 hb.1
        subst this
        obtain ⟨m', h1, h⟩ := bind_ok.1 h
        obtain ⟨q', h2, h⟩ := bind_ok.1 h
        have := pure_ok.1 h
        simp only [Option.some.injEq, Prod.mk.injEq] at this
        obtain ⟨rfl, rfl⟩ := this
        have h1 : Except.ok (rat (k + 1)) = (Except.ok m' : R Expr) := h1
        cases h1
        exact ⟨k, [], r, by simp [varPow, hk1], hk, rfl, by simpa using h2⟩
      · exact later h
    next =>
      split at h
      · rename_i hb
        have := beq_sym_iff.1 hb
        subst this
        obtain ⟨q', h1, h⟩ := bind_ok.1 h
        have := pure_ok.1 h
        simp only [Option.some.injEq, Prod.mk.injEq] at this
        obtain ⟨rfl, rfl⟩ := this
        exact ⟨1, [], r, by simp [varPow], by norm_num, by norm_num, by simpa using h1⟩
      · exact later h

end Simpy
