import Verif.Model.Operand
import Verif.Model.Trig
import Verif.Props.Defaults
import Verif.Props.Diff

/-!
# C75 - C77: the functions `diff` and `symbols`, and the methods of rational numbers
-/

namespace Simpy
open Expr

/-! ## C75: `diff` -/

section Diff
variable {O : Oracle} {n : Nat} {e : Expr} {v : Str}

/-- **C75** `diff(e, v)` is `e.diff(v)`. -/
theorem diff_is_method (r : Expr) : diffTop O n e (some v) = .ok (.expr r) ↔ diffE O n v e = .ok r := by
  simp only [diffTop]
  constructor
  · intro h
    obtain ⟨d, hd, h⟩ := bind_ok.1 h
    simp only [pure, Except.pure, Except.ok.injEq, DiffResult.expr.injEq] at h
    rw [hd, h]
  · intro h; rw [h]; rfl

/-- **C75** With `None` for the variable, `v` is taken if it is the only symbol. -/
theorem diff_default (h : ∀ s, s ∈ syms e ↔ s = v) : diffTop O n e none = diffTop O n e (some v) := by
  have := default_is_only_symbol h
  unfold defaultVar at this
  unfold diffTop
  split at this
  · rename_i w hw
    simp only [Except.ok.injEq] at this
    simp only [hw, this]
  · cases this

/-- Full statement: if `e` has no symbol or several, `diff(e, None)` raises ValueError. It does not: it *returns* the exception
object, as if it were the derivative. -/
theorem diff_asks_partial (h : ¬ ∃ v, ∀ s, s ∈ syms e ↔ s = v) : diffTop O n e none = .ok (.exception .value) := by
  have := no_default h
  unfold defaultVar at this
  split at this
  · cases this
  · rename_i hne
    simp only [diffTop]
    rfl

/-- **C75, negation** `diff(x*y, None)` raises nothing. -/
theorem diff_asks_fails : ¬ ∀ (O : Oracle) (n : Nat) (e : Expr), (¬ ∃ v, ∀ s, s ∈ syms e ↔ s = v) →
    diffTop O n e none = .error .value := by
  intro h
  have hne : ¬ ∃ v, ∀ s, s ∈ syms (prod [sym ['x'], sym ['y']]) ↔ s = v := by
    rintro ⟨v, hv⟩
    have h1 := (hv ['x']).1 (by decide)
    have h2 := (hv ['y']).1 (by decide)
    rw [← h2] at h1; exact absurd h1 (by decide)
  have := h exactOracle 5 _ hne
  rw [diff_asks_partial hne] at this
  cases this

example : ∀ s, s ∈ syms (prod [rat 2, sym ['x']]) ↔ s = ['x'] := by simp [syms, symsL]
end Diff

/-! ## C76: `symbols` -/

/-- Joining with single spaces: Python's `" ".join(names)`. -/
def joinSpace : List Str → Str
  | [] => []
  | [w] => w
  | w :: ws => w ++ ' ' :: joinSpace ws

/-- The string is empty, begins or ends with a space, or has two spaces in a row. -/
def BadSpaces (s : Str) : Prop :=
  s = [] ∨ (∃ t, s = ' ' :: t) ∨ (∃ t, s = t ++ [' ']) ∨ ∃ a b, s = a ++ ' ' :: ' ' :: b

theorem splitSpace_ne (s : Str) : splitSpace s ≠ [] := by
  cases s with
  | nil => simp [splitSpace]
  | cons c s =>
    rw [splitSpace]
    split
    · simp
    · split <;> simp

theorem splitSpace_cons {c : Char} (hc : c ≠ ' ') (s : Str) :
    ∃ w ws, splitSpace s = w :: ws ∧ splitSpace (c :: s) = (c :: w) :: ws := by
  cases h : splitSpace s with
  | nil => exact absurd h (splitSpace_ne s)
  | cons w ws => exact ⟨w, ws, rfl, by simp [splitSpace, hc, h]⟩

theorem splitSpace_word {w : Str} (hw : ' ' ∉ w) : splitSpace w = [w] := by
  induction w with
  | nil => rfl
  | cons c w ih =>
    simp only [List.mem_cons, not_or] at hw
    obtain ⟨u, us, h1, h2⟩ := splitSpace_cons (Ne.symm hw.1) w
    rw [ih hw.2] at h1
    rw [h2]; simp_all

theorem splitSpace_append (a b : Str) : splitSpace (a ++ ' ' :: b) = splitSpace a ++ splitSpace b := by
  induction a with
  | nil => simp [splitSpace]
  | cons c a ih =>
    by_cases hc : c = ' '
    · subst hc; simp [splitSpace, ih]
    · obtain ⟨u, us, h1, h2⟩ := splitSpace_cons hc (a ++ ' ' :: b)
      obtain ⟨w, ws, h3, h4⟩ := splitSpace_cons hc a
      rw [ih, h3] at h1
      simp only [List.cons_append, List.cons.injEq] at h1
      rw [List.cons_append, h2, h4, ← h1.1, ← h1.2]; rfl

theorem splitSpace_join : ∀ {ws : List Str}, ws ≠ [] → (∀ w ∈ ws, ' ' ∉ w) → splitSpace (joinSpace ws) = ws
  | [], h, _ => absurd rfl h
  | [w], _, h => splitSpace_word (h w (by simp))
  | w :: u :: ws, _, h => by
    have : joinSpace (w :: u :: ws) = w ++ ' ' :: joinSpace (u :: ws) := rfl
    rw [this, splitSpace_append, splitSpace_word (h w (by simp)), splitSpace_join (by simp) fun x hx => h x (by simp_all)]
    simp

theorem join_split (s : Str) : joinSpace (splitSpace s) = s ∧ ∀ w ∈ splitSpace s, ' ' ∉ w := by
  induction s with
  | nil => simp [splitSpace, joinSpace]
  | cons c s ih =>
    by_cases hc : c = ' '
    · subst hc
      cases h : splitSpace s with
      | nil => exact absurd h (splitSpace_ne s)
      | cons w ws =>
        rw [h] at ih
        simp only [splitSpace, if_true, h, joinSpace, List.nil_append]
        refine ⟨by rw [ih.1], ?_⟩
        intro u hu
        rcases List.mem_cons.1 hu with rfl | hu
        · simp
        · exact ih.2 u hu
    · obtain ⟨w, ws, h1, h2⟩ := splitSpace_cons hc s
      rw [h1] at ih
      rw [h2]
      refine ⟨?_, ?_⟩
      · cases ws with
        | nil => simpa [joinSpace] using ih.1
        | cons u us => simpa [joinSpace] using ih.1
      · intro u hu
        rcases List.mem_cons.1 hu with rfl | hu
        · simp only [List.mem_cons, not_or]; exact ⟨Ne.symm hc, ih.2 w (by simp)⟩
        · exact ih.2 u (by simp [hu])

theorem empty_piece_iff (s : Str) : [] ∈ splitSpace s ↔ BadSpaces s := by
  constructor
  · intro h
    obtain ⟨a, b, hab⟩ := List.append_of_mem h
    have hj := (join_split s).1
    rw [hab] at hj
    cases a with
    | nil =>
      cases b with
      | nil => exact .inl hj.symm
      | cons u us => exact .inr (.inl ⟨joinSpace (u :: us), by simpa [joinSpace] using hj.symm⟩)
    | cons w a =>
      have key : ∀ (a : List Str) (w : Str) (b : List Str), joinSpace (w :: a ++ [] :: b) =
          joinSpace (w :: a) ++ ' ' :: joinSpace ([] :: b) := by
        intro a
        induction a with
        | nil => intro w b; simp [joinSpace]
        | cons u a ih =>
          intro w b
          have := ih u b
          simp only [List.cons_append] at this ⊢
          simp only [joinSpace, this, List.append_assoc, List.cons_append]
      rw [key] at hj
      cases b with
      | nil => exact .inr (.inr (.inl ⟨joinSpace (w :: a), by simpa [joinSpace] using hj.symm⟩))
      | cons u us =>
        exact .inr (.inr (.inr ⟨joinSpace (w :: a), joinSpace (u :: us), by simpa [joinSpace] using hj.symm⟩))
  · rintro (rfl | ⟨t, rfl⟩ | ⟨t, rfl⟩ | ⟨a, b, rfl⟩)
    · simp [splitSpace]
    · simp [splitSpace]
    · rw [splitSpace_append]; simp [splitSpace]
    · rw [splitSpace_append]; simp [splitSpace]

theorem mapR_symbols : ∀ {ws : List Str}, (∀ w ∈ ws, w ≠ []) → mapR symbolCtor ws = .ok (ws.map sym)
  | [], _ => rfl
  | w :: ws, h => by
    have hw : w.length > 0 := List.length_pos_of_ne_nil (h w (by simp))
    have := mapR_symbols (ws := ws) fun x hx => h x (by simp [hx])
    simp [mapR, symbolCtor, hw, this, bind, Except.bind]

theorem mapR_symbols_empty : ∀ {ws : List Str}, [] ∈ ws → mapR symbolCtor ws = .error .assertion
  | w :: ws, h => by
    by_cases hw : w = []
    · subst hw; rfl
    · have hw' : w.length > 0 := List.length_pos_of_ne_nil hw
      have := mapR_symbols_empty (ws := ws) (by simpa [Ne.symm hw] using h)
      simp [mapR, symbolCtor, hw', this, bind, Except.bind]

/-- **C76** One name: `symbols(name)` is the symbol. -/
theorem symbols_one {w : Str} (h : w ≠ []) (hs : ' ' ∉ w) : symbolsOf w = .ok (.one (sym w)) := by
  rw [symbolsOf, splitSpace_word hs, mapR_symbols (by simpa using h)]; rfl

/-- **C76** Several names separated by single spaces: the list of the symbols, in that order. -/
theorem symbols_many {w u : Str} {ws : List Str} (h : ∀ x ∈ w :: u :: ws, x ≠ [] ∧ ' ' ∉ x) :
    symbolsOf (joinSpace (w :: u :: ws)) = .ok (.many ((w :: u :: ws).map sym)) := by
  rw [symbolsOf, splitSpace_join (by simp) fun x hx => (h x hx).2, mapR_symbols fun x hx => (h x hx).1]; rfl

/-- **C76** Nothing else is accepted: `symbols(s)` fails exactly if `s` is empty, begins or ends with a space or has two spaces
in a row, and then with AssertionError. -/
theorem symbols_fails_iff (s : Str) : symbolsOf s = .error .assertion ↔ BadSpaces s := by
  rw [← empty_piece_iff]
  constructor
  · intro h
    by_contra hne
    rw [symbolsOf, mapR_symbols fun w hw h0 => hne (h0 ▸ hw)] at h
    simp only [bind, Except.bind] at h
    split at h <;> cases h
  · intro h
    rw [symbolsOf, mapR_symbols_empty h]; rfl

/-- **C76** Otherwise the names are the words of `s`: joined by spaces they are `s`. -/
theorem symbols_ok {s : Str} (h : ¬ BadSpaces s) : ∃ ws, joinSpace ws = s ∧ (∀ w ∈ ws, w ≠ [] ∧ ' ' ∉ w) ∧
    (symbolsOf s = .ok (.many (ws.map sym)) ∧ 2 ≤ ws.length ∨ ∃ w, ws = [w] ∧ symbolsOf s = .ok (.one (sym w))) := by
  rw [← empty_piece_iff] at h
  have hw : ∀ w ∈ splitSpace s, w ≠ [] := fun w hw h0 => h (h0 ▸ hw)
  refine ⟨splitSpace s, (join_split s).1, fun w hm => ⟨hw w hm, (join_split s).2 w hm⟩, ?_⟩
  rw [symbolsOf, mapR_symbols hw]
  match hsp : splitSpace s with
  | [] => exact absurd hsp (splitSpace_ne s)
  | [w] => exact .inr ⟨w, rfl, rfl⟩
  | w :: u :: ws => exact .inl ⟨rfl, by simp⟩

example : symbolsOf "x y z".toList = .ok (.many [sym ['x'], sym ['y'], sym ['z']]) := by decide
example : symbolsOf "alpha".toList = .ok (.one (sym "alpha".toList)) := by decide
/-- `symbols("x, y")` is accepted, and its first symbol has a comma in its name. -/
example : symbolsOf "x, y".toList = .ok (.many [sym ['x', ','], sym ['y']]) := by decide
example : symbolsOf "x  y".toList = .error .assertion := by decide

/-! ## C77: rational numbers -/

theorem cross_div {a b : ℚ} (hb : b ≠ 0) :
    a / b = ((a.num * b.den : ℤ) : ℚ) / ((a.den * b.num : ℤ) : ℚ) := by
  have ha := a.num_div_den
  have hbb := b.num_div_den
  have h1 : (a.den : ℚ) ≠ 0 := by exact_mod_cast a.den_nz
  have h2 : (b.den : ℚ) ≠ 0 := by exact_mod_cast b.den_nz
  have h3 : (b.num : ℚ) ≠ 0 := by exact_mod_cast Rat.num_ne_zero.2 hb
  conv_lhs => rw [← ha, ← hbb]
  push_cast
  field_simp

theorem fdiv_floor (a b : ℤ) : Int.fdiv a b = ⌊(a : ℚ) / (b : ℚ)⌋ := by
  have pos : ∀ (a : ℤ) (d : ℕ), Int.fdiv a d = ⌊(a : ℚ) / (d : ℚ)⌋ := fun a d => by
    rw [Rat.floor_intCast_div_natCast, Int.fdiv_eq_ediv_of_nonneg a (by positivity)]
  rcases le_total 0 b with h | h
  · obtain ⟨d, rfl⟩ := Int.eq_ofNat_of_zero_le h
    exact_mod_cast pos a d
  · obtain ⟨d, hd⟩ := Int.eq_ofNat_of_zero_le (neg_nonneg.2 h)
    have := pos (-a) d
    rw [← hd, Int.neg_fdiv_neg] at this
    rw [this]
    have : (d : ℚ) = -(b : ℚ) := by rw [← Int.cast_neg, hd]; simp
    rw [this]; push_cast; rw [neg_div_neg_eq]

/-- **C77** `Rat(a) // Rat(b)` is the floor of the exact quotient; `b = 0` raises ZeroDivisionError. -/
theorem floordiv_exact (a b : ℚ) : ratFloorDiv a b = if b = 0 then .error .zeroDivision else .ok (⌊a / b⌋ : ℤ) := by
  unfold ratFloorDiv
  split
  · rfl
  · rename_i hb
    rw [fdiv_floor, cross_div hb]

/-- **C77** `Rat(a) % Rat(b)`: the remainder of floor division. -/
theorem mod_exact (a b : ℚ) : fracMod a b = if b = 0 then .error .zeroDivision else .ok (a - b * (⌊a / b⌋ : ℤ)) := by
  unfold fracMod
  split
  · rfl
  · rename_i hb
    have h1 : (a.den : ℚ) ≠ 0 := by exact_mod_cast a.den_nz
    have h2 : (b.den : ℚ) ≠ 0 := by exact_mod_cast b.den_nz
    rw [Int.fmod_def, fdiv_floor, cross_div hb]
    have hc : b.num * (a.den : ℤ) = a.den * b.num := by ring
    rw [hc]
    generalize ⌊((a.num * b.den : ℤ) : ℚ) / ((a.den * b.num : ℤ) : ℚ)⌋ = q
    congr 1
    conv_rhs => rw [← a.num_div_den, ← b.num_div_den]
    push_cast
    field_simp

/-- **C77** So `a = b * (a // b) + a % b`, and the remainder is between 0 and `b`. -/
theorem divmod {a b q r : ℚ} (hq : ratFloorDiv a b = .ok q) (hr : fracMod a b = .ok r) :
    a = b * q + r ∧ q.den = 1 ∧ (0 < b → 0 ≤ r ∧ r < b) ∧ (b < 0 → b < r ∧ r ≤ 0) := by
  rw [floordiv_exact] at hq
  rw [mod_exact] at hr
  split at hq
  · cases hq
  · rename_i hb
    simp only [hb, if_false, Except.ok.injEq] at hq hr
    subst hq; subst hr
    have h1 := Int.floor_le (a / b)
    have h2 := Int.lt_floor_add_one (a / b)
    refine ⟨by ring, by simp, fun h => ?_, fun h => ?_⟩
    · rw [le_div_iff₀ h] at h1; rw [div_lt_iff₀ h] at h2
      constructor <;> nlinarith
    · rw [le_div_iff_of_neg h] at h1; rw [div_lt_iff_of_neg h] at h2
      constructor <;> nlinarith

/-- The remainder the trig constructors use (Model/Trig) is this one. -/
theorem ratMod_eq {a b : ℚ} (hb : b ≠ 0) : fracMod a b = .ok (ratMod a b) := by
  rw [mod_exact, if_neg hb]; rfl

/-- **C77** `reciprocal`. -/
theorem reciprocal_exact (a : ℚ) : ratReciprocal a = if a = 0 then .error .zeroDivision else .ok a⁻¹ := by
  unfold ratReciprocal
  by_cases h : a = 0
  · simp [h]
  · rw [if_neg (by simpa using h), if_neg h]
    conv_rhs => rw [← a.num_div_den, inv_div]

/-- **C77** Comparison is that of the numbers. -/
theorem lt_exact (a b : ℚ) : ratLt a b = true ↔ a < b := by
  simp only [ratLt, decide_eq_true_eq]
  rw [Rat.lt_iff]
  constructor <;> intro h <;> linarith

theorem le_exact (a b : ℚ) : ratLe a b = true ↔ a ≤ b := by
  simp only [ratLe, decide_eq_true_eq]
  rw [Rat.le_iff]
  constructor <;> intro h <;> linarith

theorem isInt_exact (a : ℚ) : ratIsInt a = true ↔ ∃ k : ℤ, a = k := by
  simp only [ratIsInt, decide_eq_true_eq]
  constructor
  · intro h; exact ⟨a.num, (Rat.coe_int_num_of_den_eq_one h).symm⟩
  · rintro ⟨k, rfl⟩; simp

example : ratFloorDiv (-7/2) 2 = .ok (-2) ∧ fracMod (-7/2) 2 = .ok (1/2) := by
  constructor
  · rw [floordiv_exact, if_neg (by norm_num)]; norm_num
  · rw [mod_exact, if_neg (by norm_num)]; norm_num

end Simpy
