import Verif.Proofs.BackCheck
import Verif.Proofs.ExactOracle
import Verif.Proofs.Check

/-!
# C35: walking back through a solved tree

`goBackwards O n t` is `_go_backwards(root)`: it returns the solution stored at the root and a log of the substitutions
`replace(S, u, q)` performed on the way.
-/

namespace Simpy
open Expr Node

variable {O : Oracle}

/-- **C35** If all stored solutions are correct and every backward step from a node with a solved leaf below it turns correct
solutions of the children into a correct solution, then the solution returned for the root is correct. Here `P p S` says that `S`
is a correct solution at the node with path `p`, whatever "correct" is, and `Safe` may be needed for the substitutions. -/
theorem go_backwards_sound {n : Nat} {Safe : Str → Expr → Expr → Prop} {P : List Nat → Expr → Prop} {t : Node} {S : Expr}
    {l : List (Str × Expr × Expr)} (hs : SolsOk P t) (he : StepsSound O n Safe P t.Used t)
    (h : goBackwards O n t = .ok (S, l)) (hl : ∀ u q S, (u, q, S) ∈ l → Safe u q S) : P [] S :=
  goBackwards_ok hs he h hl

/-- Only a solved tree gives an answer. -/
theorem go_backwards_only_solved {n : Nat} {t : Node} {r : Expr × List (Str × Expr × Expr)} (h : t.goBackwards O n = .ok r) :
    t.isSolved = true := by
  unfold Node.goBackwards at h
  by_contra hs
  have hs : t.isSolved = false := by simpa using hs
  rw [hs] at h
  cases h

/-- **C35** If the transforms reduce the root's problem, to find an antiderivative of its integrand, to the problems solved at
the leaves (`Faithful`), then the solution returned is an antiderivative of the root's integrand, provided that the substitutions
on the way stay on principal branches (`TameR`). -/
theorem go_backwards_antiderivative (hO : O.Exact) {n : Nat} {t : Node} {G : List Nat → Goal} {ρ : Str → ℝ} {S : Expr}
    {l : List (Str × Expr × Expr)} (hroot : (G []).ρ = ρ ∧ (G []).v = t.var ∧ (G []).τ = den ρ t.expr)
    (hG : Faithful G t) (hs : SolsOk (fun p => (G p).Solves) t)
    (h : goBackwards O n t = .ok (S, l)) (hl : ∀ u q S, (u, q, S) ∈ l → WF q ∧ WF S ∧ TameR (sym u) q S = true) :
    AntiAt ρ t.var S t.expr ∧ Regular ρ S := by
  have := goBackwards_ok hs (faithful_steps hO n hG) h fun u q S hm => by
    obtain ⟨a, b, c⟩ := hl u q S hm
    exact substOk_of_tame hO b a c
  obtain ⟨h1, h2, h3⟩ := hroot
  obtain ⟨⟨-, b, c⟩, -⟩ := this
  rw [h1] at b
  rw [h1, h2, h3] at c
  exact ⟨c, b⟩

/-- **C35** The same under the weaker condition that each substitution `replace(S, u, q)` performed satisfies the run conditions
of `replace` (`SubstOk`). -/
theorem go_backwards_antiderivative_run (hO : O.Exact) {n : Nat} {t : Node} {G : List Nat → Goal} {S : Expr}
    {l : List (Str × Expr × Expr)} (hG : Faithful G t) (hs : SolsOk (fun p => (G p).Solves) t)
    (h : goBackwards O n t = .ok (S, l)) (hl : ∀ u q S, (u, q, S) ∈ l → SubstOk O n u q S) : (G []).Solves S :=
  goBackwards_ok hs (faithful_steps hO n hG) h hl

section examples
set_option maxRecDepth 10000
private abbrev x : Expr := sym ['x']
private abbrev u : Expr := sym ['u']

/-- ∫ 6 x cos(x²) + 1 dx: Additivity, PullConstant, the substitution `u = x**2`, PullConstant, and the table. -/
private def ex : Node :=
  mk (sum [prod [rat 6, x, trig .cos (pow x (rat 2))], rat 1]) ['x'] none .and none false [
    mk (prod [rat 6, x, trig .cos (pow x (rat 2))]) ['x'] (some .additivity) .unset none false [
      mk (prod [x, trig .cos (pow x (rat 2))]) ['x'] (some (.pullConstant (rat 6))) .or none false [
        mk (prod [x, trig .cos (pow x (rat 2))]) ['x'] (some .expand) .failure none false [],
        mk (prod [rat (1 / 2), trig .cos u]) ['u'] (some (.polynomialUSub (pow x (rat 2)))) .unset none false [
          mk (trig .cos u) ['u'] (some (.pullConstant (rat (1 / 2)))) .solution (some (trig .sin u)) false []]]],
    mk (rat 1) ['x'] (some .additivity) .solution (some x) false []]

private noncomputable def exG (ρ : Str → ℝ) : List Nat → Goal
  | [] => ⟨ρ, ['x'], 6 * (ρ ['x'] * Real.cos (ρ ['x'] ^ 2)) + 1, fun _ => True⟩
  | [0] => ⟨ρ, ['x'], 6 * (ρ ['x'] * Real.cos (ρ ['x'] ^ 2)), fun _ => True⟩
  | [0, 0] => ⟨ρ, ['x'], ρ ['x'] * Real.cos (ρ ['x'] ^ 2), fun _ => True⟩
  | [0, 0, 1] => ⟨upd ρ ['u'] (ρ ['x'] ^ 2), ['u'], 1 / 2 * Real.cos (ρ ['x'] ^ 2), fun s => s ≠ ['x']⟩
  | [0, 0, 1, 0] => ⟨upd ρ ['u'] (ρ ['x'] ^ 2), ['u'], Real.cos (ρ ['x'] ^ 2), fun s => s ≠ ['x']⟩
  | _ => ⟨ρ, ['x'], 1, fun _ => True⟩

private theorem sq2 (t : ℝ) : pw t 2 = t ^ 2 := by
  have := pw_int t 2
  norm_num at this ⊢
  exact this

private theorem sq (t : ℝ) : pw t ((2 : ℚ) : ℝ) = t ^ 2 := by
  have := pw_int t 2
  norm_num at this ⊢
  exact this

/-- The returned solution is `3*sin(x**2) + x`, an antiderivative of `6*x*cos(x**2) + 1` everywhere. -/
example (ρ : Str → ℝ) : AntiAt ρ ['x'] (sum [prod [rat 3, trig .sin (pow x (rat 2))], x])
    (sum [prod [rat 6, x, trig .cos (pow x (rat 2))], rat 1]) := by
  refine (go_backwards_antiderivative exactOracle_exact (n := 30) (t := ex) (G := exG ρ) (ρ := ρ)
    (l := [(['u'], pow x (rat 2), prod [rat (1 / 2), trig .sin u])]) ⟨rfl, rfl, ?_⟩ (faithful_of ?_) (solsOk_of ?_)
    (by decide +kernel) ?_).1
  · simp only [exG, ex, expr, den, denS, denP, TrigFn.real, sq]
    norm_num
  · have hadd : ∀ i, Reduces (exG ρ []) (fun j => exG ρ [j]) i 2 .additivity := fun i =>
      ⟨fun j hj => by
        obtain rfl | rfl : j = 0 ∨ j = 1 := by omega
        all_goals exact ⟨rfl, rfl, fun _ _ => trivial⟩, by
        simp [exG, List.range, List.range.loop]⟩
    refine ⟨fun tr h _ => ?_, ⟨fun tr h _ => ?_, ⟨fun tr h hs => absurd rfl hs, trivial, fun tr h _ => ?_,
      ⟨fun tr h _ => ?_, trivial, trivial⟩, trivial⟩, trivial⟩, fun tr h _ => ?_, trivial, trivial⟩ <;> cases h
    · exact ⟨rfl, hadd 0⟩
    · exact ⟨rfl, by simp, by simp, by simp [syms], by simp [syms], rfl, rfl, fun _ => id, by simp [exG]⟩
    · refine ⟨rfl, by simp [WF, baseOk], by simp [DomS, den, intExp, exG], by simp [exG], ?_, by simp [exG],
        fun _ _ => .inr trivial, 2 * ρ ['x'], ?_, by simp only [exG]; ring⟩
      · simp [exG, den, sq2]
      · have := (hasDerivAt_id (ρ ['x'])).fun_pow 2
        refine (this.congr_deriv (by simp)).congr_of_eventuallyEq (.of_forall fun t => ?_)
        simp [fnOf, den, exG, sq2]
    · exact ⟨rfl, by simp, by simp, by simp [syms], by simp [syms], rfl, rfl, fun _ => id, by simp [exG]⟩
    · exact ⟨rfl, hadd 1⟩
  · refine ⟨by simp, ⟨by simp, ⟨by simp, ⟨by simp, trivial⟩, ⟨by simp, ⟨fun S h => ?_, trivial⟩, trivial⟩, trivial⟩, trivial⟩,
      ⟨fun S h => ?_, trivial⟩, trivial⟩ <;> cases h
    · refine ⟨⟨by simp [WF], by simp [DomS, TrigFn.ok, TrigFn.inner], ?_⟩, by simp [syms, exG]⟩
      have := (Real.hasDerivAt_sin (ρ ['x'] ^ 2))
      refine HasDerivAt.congr_of_eventuallyEq (by simpa [exG] using this) (.of_forall fun t => ?_)
      simp [fnOf, den, TrigFn.real, exG]
    · refine ⟨⟨by simp [WF], by simp [DomS], ?_⟩, by simp [exG]⟩
      refine (hasDerivAt_id (ρ ['x'])).congr_of_eventuallyEq (.of_forall fun t => ?_)
      simp [fnOf, den, exG]
  · intro a q S h
    simp only [List.mem_singleton, Prod.mk.injEq] at h
    obtain ⟨rfl, rfl, rfl⟩ := h
    exact ⟨by simp [WF, baseOk], by simp [WF, WFL, isAcc, List.filter], by decide +kernel⟩

end examples
end Simpy
