import Verif.Model.Regex
import Verif.Spec.Sub
import Verif.Proofs.Sub
import Verif.Proofs.Basic
import Verif.Proofs.Closed
import Verif.Proofs.ExactOracle
import Mathlib.NumberTheory.Real.Irrational
import Mathlib.Analysis.Real.Pi.Irrational

/-!
# C20, C21, C23: equality, counting, equality up to renaming
-/

namespace Simpy
open Expr

variable {O : Oracle}

/-- **C20** On float-free expressions `a == b` is `True` exactly for identical trees (when no rational is mistaken for pi or
e); so it is an equivalence relation and equal expressions have the same value. -/
theorem eq_iff_identical_partial (hO : O.NoConfusion) {a b : Expr} (ha : floatFree a = true) (hb : floatFree b = true) :
    beq O a b = true ↔ a = b :=
  ⟨beq_eq hO.isPi hO.isE a b ((floatFree_iff a).1 ha) ((floatFree_iff b).1 hb),
    fun h => h ▸ beq_refl a ((floatFree_iff a).1 ha)⟩

/-- **C20** `a == a` in every case without floats, whatever the floating point unit does. -/
theorem eq_reflexive (O : Oracle) {a : Expr} (ha : floatFree a = true) : beq O a a = true :=
  beq_refl a ((floatFree_iff a).1 ha)

/-- **C20** equal float-free expressions have equal values -/
theorem eq_value_partial (hO : O.NoConfusion) {a b : Expr} (ha : floatFree a = true) (hb : floatFree b = true)
    (h : beq O a b = true) (ρ : Str → ℝ) : den ρ a = den ρ b := by
  rw [(eq_iff_identical_partial hO ha hb).1 h]

/-- In CPython some rational `q` compares equal to the float 3.14..., some `r` to 2.71...: then `Rat(q) == pi` although the
values differ, and `Rat(r) == e` although not `e == Rat(r)`. -/
theorem eq_fails {q r : ℚ} (hq : O.isPi q = true) (hr : O.isE r = true) (ρ : Str → ℝ) :
    (beq O (rat q) pi = true ∧ den ρ (rat q) ≠ den ρ pi) ∧ (beq O (rat r) euler = true ∧ beq O euler (rat r) = false) := by
  refine ⟨⟨by simp [beq, hq], ?_⟩, by simp [beq, hr], by simp [beq]⟩
  simp only [den]
  exact fun h => irrational_pi ⟨q, h⟩

example : beq exactOracle (sum [sym ['x'], rat 1]) (sum [sym ['x'], rat 1]) = true :=
  (eq_iff_identical_partial ⟨exactOracle_exact.isPi, exactOracle_exact.isE⟩ (by decide) (by decide)).2 rfl

/-! ## counting -/

/-- What `general_count` does at a node. -/
theorem generalCountL_eq (c : Expr → Bool) : ∀ ts : List Expr, generalCountL c ts = (ts.map (generalCount c)).sum
  | [] => by simp [generalCountL]
  | t :: r => by simp [generalCountL, generalCountL_eq c r]

/-- **C21** at a node: 1 if it satisfies the condition, otherwise the counts of the children add up -/
theorem general_count_node (c : Expr → Bool) (e : Expr) :
    generalCount c e = if c e = true then 1 else (e.children.map (generalCount c)).sum := by
  cases e <;> simp [generalCount, children, generalCountL_eq]

theorem sub_trans {a b c : Expr} (h1 : Sub a b) (h2 : Sub b c) : Sub a c := by
  induction h2 with
  | here => exact h1
  | child hm _ ih => exact .child hm ih

mutual
theorem generalCount_pos (c : Expr → Bool) : ∀ e : Expr, 0 < generalCount c e ↔ ∃ s, Sub s e ∧ c s = true := by
  intro e
  have leaf : ∀ e : Expr, e.children = [] → (0 < (if c e = true then 1 else 0) ↔ ∃ s, Sub s e ∧ c s = true) := by
    intro e he
    constructor
    · intro h; split at h
      · exact ⟨e, .here, by assumption⟩
      · simp at h
    · rintro ⟨s, hs, hc⟩
      cases hs with
      | here => simp [hc]
      | child hm _ => simp [he] at hm
  have node : ∀ (e : Expr) (k : Nat), (0 < k ↔ ∃ t ∈ e.children, ∃ s, Sub s t ∧ c s = true) →
      (0 < (if c e = true then 1 else k) ↔ ∃ s, Sub s e ∧ c s = true) := by
    intro e k hk
    constructor
    · intro h; split at h
      · exact ⟨e, .here, by assumption⟩
      · obtain ⟨t, ht, s, hs, hc⟩ := hk.1 h
        exact ⟨s, .child ht hs, hc⟩
    · rintro ⟨s, hs, hc⟩
      split
      · simp
      · next hne =>
        cases hs with
        | here => exact absurd hc hne
        | child hm h => exact hk.2 ⟨_, hm, s, h, hc⟩
  cases e with
  | sum ts => exact node (sum ts) _ (generalCountL_pos c ts)
  | prod ts => exact node (prod ts) _ (generalCountL_pos c ts)
  | pow b x => exact node (pow b x) _ (by simp [children, ← generalCount_pos c b, ← generalCount_pos c x])
  | log b x => exact node (log b x) _ (by simp [children, ← generalCount_pos c b, ← generalCount_pos c x])
  | trig f x => exact node (trig f x) _ (by simp [children, ← generalCount_pos c x])
  | absv x => exact node (absv x) _ (by simp [children, ← generalCount_pos c x])
  | _ => exact leaf _ rfl
theorem generalCountL_pos (c : Expr → Bool) : ∀ ts : List Expr,
    0 < generalCountL c ts ↔ ∃ t ∈ ts, ∃ s, Sub s t ∧ c s = true := by
  intro ts
  cases ts with
  | nil => simp [generalCountL]
  | cons t r =>
    simp only [generalCountL, List.mem_cons, exists_eq_or_imp, ← generalCount_pos c t, ← generalCountL_pos c r]
    omega
end

theorem sameClass_self (a : Expr) : sameClass a a = true := by cases a <;> simp [sameClass]

/-- **C21** `count(expr, query)` is positive exactly if `query` occurs in `expr`. -/
theorem count_pos_iff (hO : O.NoConfusion) {e q : Expr} (he : floatFree e = true) (hq : floatFree q = true) :
    0 < count O q e ↔ Sub q e := by
  rw [count, generalCount_pos]
  constructor
  · rintro ⟨s, hs, hc⟩
    simp only [Bool.and_eq_true] at hc
    rwa [← (eq_iff_identical_partial hO (floatFree_sub hs he) hq).1 hc.2]
  · intro h
    exact ⟨q, h, by simp [sameClass_self, eq_reflexive O hq]⟩

/-- **C21** `count(expr, query)` is 1 on `query` itself and otherwise adds up over the children. -/
theorem count_node (hO : O.NoConfusion) {e q : Expr} (he : floatFree e = true) (hq : floatFree q = true) :
    count O q e = if e = q then 1 else (e.children.map (count O q)).sum := by
  unfold count
  rw [general_count_node]
  by_cases h : e = q
  · subst h; simp [sameClass_self, eq_reflexive O hq]
  · rw [if_neg h, if_neg]
    simp only [Bool.and_eq_true, not_and]
    intro _ hb
    exact h ((eq_iff_identical_partial hO he hq).1 hb)

mutual
theorem containsCls_iff_sub (p : Expr → Bool) : ∀ e : Expr, containsCls p e = true ↔ ∃ s, Sub s e ∧ p s = true := by
  intro e
  have node : ∀ (e : Expr) (k : Bool), (k = true ↔ ∃ t ∈ e.children, ∃ s, Sub s t ∧ p s = true) →
      ((p e || k) = true ↔ ∃ s, Sub s e ∧ p s = true) := by
    intro e k hk
    rw [Bool.or_eq_true, hk]
    constructor
    · rintro (h | ⟨t, ht, s, hs, h⟩)
      · exact ⟨e, .here, h⟩
      · exact ⟨s, .child ht hs, h⟩
    · rintro ⟨s, hs, h⟩
      cases hs with
      | here => exact .inl h
      | child hm h' => exact .inr ⟨_, hm, s, h', h⟩
  cases e with
  | sum ts => exact node _ _ (containsClsL_iff_sub p ts)
  | prod ts => exact node _ _ (containsClsL_iff_sub p ts)
  | pow b x => exact node (pow b x) _ (by simp [children, containsCls_iff_sub p b, containsCls_iff_sub p x])
  | log b x => exact node (log b x) _ (by simp [children, containsCls_iff_sub p b, containsCls_iff_sub p x])
  | trig f x => exact node (trig f x) _ (by simp [children, containsCls_iff_sub p x])
  | absv x => exact node (absv x) _ (by simp [children, containsCls_iff_sub p x])
  | _ => simpa [containsCls] using node _ false (by simp [children])
theorem containsClsL_iff_sub (p : Expr → Bool) : ∀ ts : List Expr,
    containsClsL p ts = true ↔ ∃ t ∈ ts, ∃ s, Sub s t ∧ p s = true := by
  intro ts
  cases ts with
  | nil => simp [containsClsL]
  | cons t r =>
    simp only [containsClsL, Bool.or_eq_true, List.mem_cons, exists_eq_or_imp, containsCls_iff_sub p t,
      containsClsL_iff_sub p r]
end

/-- **C21** `expr.has(cls)` / `contains_cls(expr, cls)` / `general_contains(expr, condition)` holds exactly if some
subexpression is of the class (satisfies the condition). -/
theorem has_iff (p : Expr → Bool) (e : Expr) : generalContains p e = true ↔ ∃ s, Sub s e ∧ p s = true :=
  containsCls_iff_sub p e

section
private abbrev x : Expr := sym ['x']
private abbrev y : Expr := sym ['y']
private def e0 : Expr := sum [prod [rat 2, trig .sin x, x], pow (trig .sin x) y]

example : count exactOracle (trig .sin x) e0 = 2 := by decide +kernel
example : 0 < count exactOracle (trig .sin x) e0 ∧ Sub (trig .sin x) e0 :=
  have h := count_pos_iff (O := exactOracle) (e := e0) (q := trig .sin x)
    ⟨exactOracle_exact.isPi, exactOracle_exact.isE⟩ (by decide) (by decide)
  ⟨by decide +kernel, h.1 (by decide +kernel)⟩
end

/-! ## equality up to renaming -/

mutual
theorem eqWithVar_iff (hO : O.NoConfusion) (x y : Str) : ∀ a b : Expr, NoFlt a → NoFlt b →
    (eqWithVar O x y a b = true ↔ rename x y a = b) := by
  intro a b ha hb
  have e : ∀ {a b : Expr}, NoFlt a → NoFlt b → (beq O a b = true ↔ a = b) := fun ha hb =>
    ⟨beq_eq hO.isPi hO.isE _ _ ha hb, fun h => h ▸ beq_refl _ ha⟩
  have he := e ha hb
  cases a with
  | sym s =>
    cases b <;> simp [eqWithVar, rename, sameClass]
    by_cases h : s = x
    · simp [h, eq_comm]
    · simp [h]
  | sum ts => cases b <;> simp [eqWithVar, rename, sameClass]; exact eqWithVarL_iff hO x y _ _ ha hb
  | prod ts => cases b <;> simp [eqWithVar, rename, sameClass]; exact eqWithVarL_iff hO x y _ _ ha hb
  | pow c d =>
    cases b <;> simp [eqWithVar, rename, sameClass]
    rw [eqWithVar_iff hO x y _ _ ha.1 hb.1, eqWithVar_iff hO x y _ _ ha.2 hb.2]
  | log c d =>
    cases b <;> simp [eqWithVar, rename, sameClass]
    rw [eqWithVar_iff hO x y _ _ ha.1 hb.1, eqWithVar_iff hO x y _ _ ha.2 hb.2]
  | trig f i =>
    cases b <;> simp [eqWithVar, rename, sameClass]
    intro _; exact eqWithVar_iff hO x y i _ ha hb
  | absv i =>
    cases b <;> simp [eqWithVar, rename, sameClass]
    exact eqWithVar_iff hO x y i _ ha hb
  | flt v => simp [NoFlt] at ha
  | _ => cases b <;> simp [eqWithVar, rename, sameClass] <;> simpa using he
theorem eqWithVarL_iff (hO : O.NoConfusion) (x y : Str) : ∀ a b : List Expr, NoFltL a → NoFltL b →
    (eqWithVarL O x y a b = true ↔ renameL x y a = b) := by
  intro a b ha hb
  cases a with
  | nil => cases b <;> simp [eqWithVarL, renameL]
  | cons t r =>
    cases b with
    | nil => simp [eqWithVarL, renameL]
    | cons u s =>
      simp only [eqWithVarL, renameL, Bool.and_eq_true, List.cons.injEq]
      rw [eqWithVar_iff hO x y _ _ ha.1 hb.1, eqWithVarL_iff hO x y _ _ ha.2 hb.2]
end

/-- **C23** `eq_with_var((a, x), (b, y))` holds exactly if renaming `x` to `y` in `a`, without simplifying, gives `b`. -/
theorem eq_with_var_iff (hO : O.NoConfusion) (x y : Str) {a b : Expr} (ha : floatFree a = true) (hb : floatFree b = true) :
    eqWithVar O x y a b = true ↔ rename x y a = b :=
  eqWithVar_iff hO x y a b ((floatFree_iff a).1 ha) ((floatFree_iff b).1 hb)

mutual
theorem den_rename (x y : Str) (ρ : Str → ℝ) : ∀ a : Expr, den ρ (rename x y a) = den (Function.update ρ x (ρ y)) a := by
  intro a
  cases a with
  | sym s => simp only [rename, den, Function.update_apply]; split <;> rfl
  | sum ts => simp only [rename, den]; exact denS_rename x y ρ ts
  | prod ts => simp only [rename, den]; exact denP_rename x y ρ ts
  | pow b e => simp only [rename, den]; rw [den_rename, den_rename]
  | log b e => simp only [rename, den]; rw [den_rename, den_rename]
  | trig f e => simp only [rename, den]; rw [den_rename]
  | absv e => simp only [rename, den]; rw [den_rename]
  | _ => simp [rename, den]
theorem denS_rename (x y : Str) (ρ : Str → ℝ) : ∀ a : List Expr, denS ρ (renameL x y a) = denS (Function.update ρ x (ρ y)) a := by
  intro a
  cases a with
  | nil => simp [renameL, denS]
  | cons t r => simp only [renameL, denS]; rw [den_rename, denS_rename]
theorem denP_rename (x y : Str) (ρ : Str → ℝ) : ∀ a : List Expr, denP ρ (renameL x y a) = denP (Function.update ρ x (ρ y)) a := by
  intro a
  cases a with
  | nil => simp [renameL, denP]
  | cons t r => simp only [renameL, denP]; rw [den_rename, denP_rename]
end

/-- **C23** so `b` is `a` as a function of the other variable: `b` at `ρ` is `a` with `x` set to the value of `y`. -/
theorem eq_with_var_value (hO : O.NoConfusion) (x y : Str) {a b : Expr} (ha : floatFree a = true) (hb : floatFree b = true)
    (h : eqWithVar O x y a b = true) (ρ : Str → ℝ) : den ρ b = den (Function.update ρ x (ρ y)) a := by
  rw [← (eq_with_var_iff hO x y ha hb).1 h, den_rename]

example : eqWithVar exactOracle ['x'] ['y'] (sum [trig .sin (sym ['x']), rat 1]) (sum [trig .sin (sym ['y']), rat 1]) = true :=
  (eq_with_var_iff ⟨exactOracle_exact.isPi, exactOracle_exact.isE⟩ _ _ (by decide) (by decide)).2 (by decide)

end Simpy
