import Verif.Model.Engine
import Verif.Props.Polynomial

/-!
# C68: the variable of integration may be left out exactly if there is one symbol

`integrateTop O n ν bf k e B` is `integrate(e, B)`; the forms of `B` are no bounds, a variable, `(a, b)` and `(v, a, b)`.
-/

namespace Simpy
open Expr

variable {O : Oracle} {n k : Nat} {ν : Supply} {bf : Bool} {e : Expr} {v : Str}

/-- If `v` is the only symbol, it is the default. -/
theorem default_is_only_symbol (h : ∀ s, s ∈ syms e ↔ s = v) : defaultVar e = .ok v := by
  have hall : ∀ x ∈ syms e, x = v := fun x hx => (h x).1 hx
  have hr : syms e = List.replicate (syms e).length v := List.eq_replicate_iff.2 ⟨rfl, hall⟩
  have hne : (syms e).length ≠ 0 := by
    intro h0; rw [List.length_eq_zero_iff] at h0
    have := (h v).2 rfl
    rw [h0] at this; simp at this
  have h1 : (syms e).dedup = [v] := by rw [hr, List.replicate_dedup hne]
  simp only [defaultVar, h1]

/-- Otherwise there is no default. -/
theorem no_default (h : ¬ ∃ v, ∀ s, s ∈ syms e ↔ s = v) : defaultVar e = .error .value := by
  unfold defaultVar
  split
  · rename_i w hw
    refine absurd ⟨w, fun s => ?_⟩ h
    rw [← List.mem_dedup, hw]; simp
  · rfl

/-- **C68** `integrate(e)` is `integrate(e, v)` if `v` is the only symbol of `e`. -/
theorem variable_may_be_left_out (h : ∀ s, s ∈ syms e ↔ s = v) :
    integrateTop O n ν bf k e .nothing = integrateTop O n ν bf k e (.var v) := by
  simp only [integrateTop, default_is_only_symbol h, bind, Except.bind]

/-- **C68** `integrate(e, (a, b))` is `integrate(e, (v, a, b))` if `v` is the only symbol of `e`. -/
theorem variable_may_be_left_out_of_bounds (h : ∀ s, s ∈ syms e ↔ s = v) (a b : Expr) :
    integrateTop O n ν bf k e (.between a b) = integrateTop O n ν bf k e (.full v a b) := by
  simp only [integrateTop, default_is_only_symbol h, bind, Except.bind]

/-- **C68** If `e` has no symbol, or several, leaving out the variable raises `ValueError`. -/
theorem variable_is_asked_for (h : ¬ ∃ v, ∀ s, s ∈ syms e ↔ s = v) (a b : Expr) :
    integrateTop O n ν bf k e .nothing = .error .value ∧ integrateTop O n ν bf k e (.between a b) = .error .value := by
  simp only [integrateTop, no_default h, bind, Except.bind, and_self]

/-- **C66** a definite integral of a polynomial between numbers, without naming the variable. -/
theorem polynomial_definite_default (hO : O.Exact) (h : IsPolynomial v e) (hv : v ∈ syms e) (a b : ℚ) :
    ∃ q : ℚ, integrateTop O (n + 8) ν bf k e (.between (rat a) (rat b)) = .ok (some (rat q)) ∧
      ∀ ρ : Str → ℝ, (q : ℝ) = ∫ t in (a : ℝ)..b, fnOf ρ v e t := by
  rw [variable_may_be_left_out_of_bounds (v := v) fun s => ⟨fun hs => syms_poly h s hs, fun hs => hs ▸ hv⟩]
  exact polynomial_definite hO n k ν bf h a b

section
private abbrev x : Expr := sym ['x']
private abbrev y : Expr := sym ['y']

example : ∀ s, s ∈ syms (sum [pow x (rat 2), trig .sin x]) ↔ s = ['x'] := by intro s; simp [syms, symsL]
example : ¬ ∃ v, ∀ s, s ∈ syms (prod [x, y]) ↔ s = v := by
  rintro ⟨v, h⟩
  have h1 := (h ['x']).1 (by simp [syms, symsL])
  have h2 := (h ['y']).1 (by simp [syms, symsL])
  rw [← h1] at h2; exact absurd h2 (by decide)
example : ¬ ∃ v, ∀ s, s ∈ syms (rat 2) ↔ s = v := by
  rintro ⟨v, h⟩
  have := (h v).2 rfl
  simp [syms] at this
end
end Simpy
