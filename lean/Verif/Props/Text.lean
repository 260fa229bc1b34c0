import Verif.Proofs.TextSound
import Verif.Proofs.ExactOracle
import Verif.Proofs.Check

/-!
# C54, C55: brackets in `latex()` and `repr()`

`latexE O n e` is `e.latex()` and `(ctors O n).repr e` is `repr(e)`, with `n` stack levels left.
-/

namespace Simpy
open Expr

variable {O : Oracle}

/-- **C55** `repr(e)`, when it returns, has matched and properly nested parentheses (and braces) if the names of the symbols do. The only
assumption about floating point is that the `repr` of a float has no unmatched brackets. -/
theorem repr_brackets (n : Nat) (hf : ∀ q, Nested (O.frepr q)) {e : Expr} {s : Str} (he : NamesNested e)
    (h : (ctors O n).repr e = .ok s) : Nested s := (repr_nested hf n).repr he h

/-- **C54** `e.latex()`, when it returns, has matched and properly nested parentheses and curly braces if the names of the symbols
do. -/
theorem latex_brackets (n : Nat) (hf : ∀ q, Nested (O.frepr q)) {e : Expr} {s : Str} (he : NamesNested e)
    (h : latexE O n e = .ok s) : Nested s := latex_nested hf n he h

/-- Names without brackets are well nested. -/
theorem plain_names {s : Str} (h : ∀ c ∈ s, isBracket c = false) : Nested s := Nested.plain h

theorem prefix_append_cases {s t p : Str} (h : p <+: s ++ t) : p <+: s ∨ ∃ q, p = s ++ q ∧ q <+: t := by
  obtain ⟨r, hr⟩ := h
  rcases List.append_eq_append_iff.1 hr with ⟨a, rfl, rfl⟩ | ⟨c, rfl, rfl⟩
  · exact .inl ⟨a, rfl⟩
  · exact .inr ⟨c, rfl, ⟨r, rfl⟩⟩

/-- What well-nestedness means for counting: as many opening as closing brackets, and never more closing than opening ones in an
initial part. -/
theorem Nested.counts {s : Str} (h : Nested s) :
    (s.count '(' = s.count ')' ∧ ∀ p, p <+: s → p.count ')' ≤ p.count '(') ∧
    (s.count '{' = s.count '}' ∧ ∀ p, p <+: s → p.count '}' ≤ p.count '{') := by
  have ap : ∀ {a b : Char} {s t : Str}, (s.count a = s.count b ∧ ∀ p, p <+: s → p.count b ≤ p.count a) →
      (t.count a = t.count b ∧ ∀ p, p <+: t → p.count b ≤ p.count a) →
      ((s ++ t).count a = (s ++ t).count b ∧ ∀ p, p <+: s ++ t → p.count b ≤ p.count a) := by
    rintro a b s t ⟨h1, h2⟩ ⟨h3, h4⟩
    refine ⟨by simp [h1, h3], fun p hp => ?_⟩
    rcases prefix_append_cases hp with hp | ⟨q, rfl, hq⟩
    · exact h2 p hp
    · have := h4 q hq
      simp [h1]; omega
  have one : ∀ {a b c : Char}, c ≠ a → c ≠ b → ([c].count a = [c].count b ∧ ∀ p, p <+: [c] → p.count b ≤ p.count a) := by
    intro a b c h1 h2
    refine ⟨by simp [List.count_singleton, h1, h2], fun p hp => ?_⟩
    rw [List.prefix_cons_iff] at hp
    rcases hp with rfl | ⟨t, rfl, ht⟩
    · simp
    · simp at ht; subst ht; simp [List.count_singleton, h1, h2]
  have wr : ∀ {a b : Char} {s : Str}, a ≠ b → (s.count a = s.count b ∧ ∀ p, p <+: s → p.count b ≤ p.count a) →
      ((a :: s ++ [b]).count a = (a :: s ++ [b]).count b ∧ ∀ p, p <+: a :: s ++ [b] → p.count b ≤ p.count a) := by
    rintro a b s hab ⟨h1, h2⟩
    refine ⟨by simp [List.count_cons, List.count_singleton, h1, hab, hab.symm], fun p hp => ?_⟩
    rw [List.cons_append, List.prefix_cons_iff] at hp
    rcases hp with rfl | ⟨t, rfl, ht⟩
    · simp
    · rcases prefix_append_cases ht with ht | ⟨q, rfl, hq⟩
      · have := h2 t ht
        simp [List.count_cons, hab]; omega
      · rw [List.prefix_cons_iff] at hq
        rcases hq with rfl | ⟨u, rfl, hu⟩
        · simp [List.count_cons, hab, h1]
        · simp at hu; subst hu; simp [List.count_cons, hab, hab.symm, h1]
  induction h with
  | nil => simp
  | char hc =>
    simp only [isBracket, Bool.or_eq_false_iff, decide_eq_false_iff_not] at hc
    exact ⟨one hc.1.1.1 hc.1.1.2, one hc.1.2 hc.2⟩
  | append _ _ ih1 ih2 => exact ⟨ap ih1.1 ih2.1, ap ih1.2 ih2.2⟩
  | paren _ ih => exact ⟨wr (by decide) ih.1, ap (s := ['('] ++ _) (ap (one (by decide) (by decide)) ih.2) (one (by decide) (by decide))⟩
  | brace _ ih => exact ⟨ap (s := ['{'] ++ _) (ap (one (by decide) (by decide)) ih.1) (one (by decide) (by decide)), wr (by decide) ih.2⟩

section
set_option maxRecDepth 10000
private abbrev x : Expr := sym ['x']
private abbrev big : Expr := prod [rat (1 / 2), pow (trig .sin (sum [x, rat 1])) (rat (-1)), log (pow x (rat 2)) (rat 3), absv x]

theorem exactOracle_frepr (q : ℚ) : Nested (exactOracle.frepr q) := ratStr_nested q

example : NamesNested big ∧ latexE exactOracle 30 big =
      .ok "\\frac {\\log_{3} \\left( x^2 \\right) \\cdot |x|}{2 \\cdot \\sin (x + 1)}".toList := by
  refine ⟨?_, by decide +kernel⟩
  simp only [NamesNested, NamesNestedL, and_true, true_and]
  exact ⟨Nested.lit (by decide), Nested.lit (by decide), Nested.lit (by decide)⟩

example : NamesNested (pow (sum [x, rat 1]) (trig .sin x)) ∧
    (ctors exactOracle 30).repr (pow (sum [x, rat 1]) (trig .sin x)) = .ok "(x + 1)^sin(x)".toList := by
  refine ⟨?_, by decide +kernel⟩
  simp only [NamesNested, NamesNestedL, and_true]
  exact ⟨Nested.lit (by decide), Nested.lit (by decide)⟩

/-- The assumption on names is needed: a symbol named `(`. -/
example : (ctors exactOracle 30).repr (sum [sym ['('], rat 1]) = .ok "( + 1".toList := by decide +kernel

/-- Matched brackets do not make `repr` unambiguous: `sin((x + 1)^(y + 1))` and `sin(x + 1)^(y + 1)` are printed alike, because parentheses
are left out when the printed argument begins with `(` and ends with `)`. -/
theorem repr_ambiguous : ∃ (a b : Expr) (s : Str), Built exactOracle a ∧ Built exactOracle b ∧ a ≠ b ∧
    (ctors exactOracle 30).repr a = .ok s ∧ (ctors exactOracle 30).repr b = .ok s :=
  ⟨trig .sin (pow (sum [x, rat 1]) (sum [sym ['y'], rat 1])), pow (trig .sin (sum [x, rat 1])) (sum [sym ['y'], rat 1]),
    "sin(x + 1)^(y + 1)".toList, built_of_self (by decide +kernel), built_of_self (by decide +kernel), by decide +kernel,
    by decide +kernel, by decide +kernel⟩

end
end Simpy
