import Verif.Proofs.DebugText
import Verif.Proofs.Check

/-!
# C93: `debug_repr` shows the structure

`debug_repr` is "designed to show the structure of the expr" (debug/utils.py:7), and the tests take it that `debug_repr(a) == debug_repr(b)` says
the same as `a == b` (tests/test_utils.py:70-74).
-/

namespace Simpy
open Expr

variable {O : Oracle}

/-- **C93 (partial)** Two expressions made of sums, products and powers of numbers, `pi`, `e`, symbols and trigonometric functions of these are
`==` just when their `debug_repr` is the same text, however deep they are nested. Missing: functions of anything else, whose argument is printed
with `repr` (`debug_repr_fails`). -/
theorem debug_repr_partial (hO : O.Exact) (n : Nat) {a b : Expr} (ha : DebugPlain a) (hb : DebugPlain b) :
    ∃ s t, debugRepr O (n + 2) a = .ok s ∧ debugRepr O (n + 2) b = .ok t ∧ (beq O a b = true ↔ s = t) := by
  obtain ⟨s, h1, h2⟩ := Dbg.debug_text (O := O) ha n
  obtain ⟨t, h3, h4⟩ := Dbg.debug_text (O := O) hb n
  refine ⟨s, t, h1, h3, (beq_iff hO (Dbg.noFlt ha) (Dbg.noFlt hb)).trans ⟨?_, ?_⟩⟩
  · rintro rfl
    rw [h1] at h3
    exact Except.ok.inj h3
  · rintro rfl
    have nil : Dbg.Stop [] := fun c t h => by cases h
    exact (Dbg.unique ha h2 h4 nil nil rfl).1

/-- `(x + 2)^(1/2)*sin(x)` and `x^(1/2) + 2*sin(x)`. -/
example : ∃ s t, debugRepr exactOracle 2 (prod [pow (sum [sym ['x'], rat 2]) (rat (1/2)), trig .sin (sym ['x'])]) = .ok s ∧
    debugRepr exactOracle 2 (sum [pow (sym ['x']) (rat (1/2)), prod [rat 2, trig .sin (sym ['x'])]]) = .ok t ∧ s ≠ t := by
  have x : Dbg.Atom (sym ['x']) := .sym _ (by decide)
  have r : ∀ q, DebugPlain (rat q) := fun q => .atom (.rat q)
  obtain ⟨s, t, h1, h2, h3⟩ := debug_repr_partial exactOracle_exact 0
    (a := prod [pow (sum [sym ['x'], rat 2]) (rat (1/2)), trig .sin (sym ['x'])])
    (b := sum [pow (sym ['x']) (rat (1/2)), prod [rat 2, trig .sin (sym ['x'])]])
    (.prod (by
      simp only [List.mem_cons, List.not_mem_nil, or_false, forall_eq_or_imp, forall_eq]
      refine ⟨.pow (.sum ?_) (r _), .fn _ x⟩
      simp only [List.mem_cons, List.not_mem_nil, or_false, forall_eq_or_imp, forall_eq]
      exact ⟨.atom x, r _⟩))
    (.sum (by
      simp only [List.mem_cons, List.not_mem_nil, or_false, forall_eq_or_imp, forall_eq]
      refine ⟨.pow (.atom x) (r _), .prod ?_⟩
      simp only [List.mem_cons, List.not_mem_nil, or_false, forall_eq_or_imp, forall_eq]
      exact ⟨r _, .fn _ x⟩))
  exact ⟨s, t, h1, h2, fun h => by have := h3.2 h; revert this; decide +kernel⟩

/-- tests/test_exprs.py:164-166, test_neg_power. -/
example : (do debugRepr exactOracle 40 (← opPow exactOracle (ctors exactOracle 40) (rat (-1)) (rat (5/2)))) =
    .ok "Power(-1, 5/2)".toList := by
  set_option maxRecDepth 10000 in decide +kernel

example : (do debugRepr exactOracle 40 (← opPow exactOracle (ctors exactOracle 40) (rat 2) (rat (-1/2)))) =
    .ok "Power(2, -1/2)".toList := by
  set_option maxRecDepth 10000 in decide +kernel

/-- **C93** Inside a function the structure is not shown: `sin(z**5 - (x + 2))`, got from `2*(x + 2) + z**5 - 3*(x + 2)`, and
`sin(z**5 - x + 2)` are different (and have different values), but `debug_repr` is the same. -/
theorem debug_repr_fails : ∃ a b, Built exactOracle a ∧ Built exactOracle b ∧ beq exactOracle a b = false ∧
    (∃ ρ, den ρ a ≠ den ρ b) ∧ ∃ s, debugRepr exactOracle 40 a = .ok s ∧ debugRepr exactOracle 40 b = .ok s := by
  have x : Built exactOracle (sym ['x']) := .sym _
  have bz : Built exactOracle (pow (sym ['z']) (rat 5)) := built_of_self (by set_option maxRecDepth 10000 in decide +kernel)
  have bs : Built exactOracle (sum [sym ['x'], rat 2]) := built_of_self (by set_option maxRecDepth 10000 in decide +kernel)
  have bp : ∀ q, q = 2 ∨ q = -3 → Built exactOracle (prod [rat q, sum [sym ['x'], rat 2]]) := by
    rintro q (rfl | rfl) <;> exact built_of_self (by set_option maxRecDepth 10000 in decide +kernel)
  have bi : Built exactOracle (sum [pow (sym ['z']) (rat 5), prod [rat (-1), sum [sym ['x'], rat 2]]]) :=
    .sum 40 (ts := [prod [rat 2, sum [sym ['x'], rat 2]], pow (sym ['z']) (rat 5), prod [rat (-3), sum [sym ['x'], rat 2]]])
      (by
        simp only [List.mem_cons, List.not_mem_nil, or_false, forall_eq_or_imp, forall_eq]
        exact ⟨bp _ (.inl rfl), bz, bp _ (.inr rfl)⟩)
      (by set_option maxRecDepth 10000 in decide +kernel)
  refine ⟨trig .sin (sum [pow (sym ['z']) (rat 5), prod [rat (-1), sum [sym ['x'], rat 2]]]),
    trig .sin (sum [pow (sym ['z']) (rat 5), prod [rat (-1), sym ['x']], rat 2]),
    .trig 40 .sin bi (by set_option maxRecDepth 10000 in decide +kernel),
    built_of_self (by set_option maxRecDepth 10000 in decide +kernel), by decide +kernel,
    ⟨fun s => if s = ['x'] then 1 else 0, ?_⟩, "sin(z^5 - x + 2)".toList,
    by set_option maxRecDepth 10000 in decide +kernel, by set_option maxRecDepth 10000 in decide +kernel⟩
  have h3 : 0 < Real.sin 3 := Real.sin_pos_of_pos_of_lt_pi (by norm_num) Real.pi_gt_three
  have h1 : 0 < Real.sin 1 := Real.sin_pos_of_pos_of_lt_pi (by norm_num) (by linarith [Real.pi_gt_three])
  have p0 : pw 0 5 = 0 := by rw [show (5 : ℝ) = ((5 : ℤ) : ℝ) by norm_num, pw_int]; norm_num
  simp [den, denS, denP, TrigFn.real, p0]
  norm_num
  linarith

/-- **C93** `pedantic="always"` is lost below the top: the classes of the numbers and symbols in `x**2` are not shown. -/
theorem pedantic_lost_fails (n : Nat) (s : Str) : debugReprAlways O (n + 1) (sym s) = .ok ("Symbol(".toList ++ s ++ [')']) ∧
    (∀ q, debugReprAlways O (n + 1) (rat q) = .ok ("Rat(".toList ++ ratStr q ++ [')'])) ∧
    debugReprAlways O (n + 1) (pow (sym s) (rat 2)) = .ok ("Power(".toList ++ s ++ ", 2)".toList) := by
  refine ⟨rfl, fun _ => rfl, ?_⟩
  have h : (ctors O (n + 1)).repr (sym s) = .ok s := rfl
  have h' : (ctors O (n + 1)).repr (rat 2) = .ok ['2'] := by
    show Except.ok (ratStr 2) = _
    rw [show ratStr 2 = ['2'] by decide +kernel]
  simp only [debugReprAlways, debugRepr, h, h', bind, Except.bind, pure, Except.pure]
  simp [commaSep]

end Simpy
