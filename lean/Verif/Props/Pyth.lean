import Verif.Proofs.IdentSound
import Verif.Proofs.ExactOracle
import Verif.Proofs.Check
import Verif.Props.Regex

/-!
# C43: Pythagorean identities

`pythagoreanSimplification O n e` is `pythagorean_simplification(e)` with `n` stack levels left.
-/

namespace Simpy
open Expr

variable {O : Oracle}

/-- **C43**, whole expressions: `pythagorean_simplification` preserves the value, all seven identities, any number of pairs and
other terms, provided that the sums it rewrites pass `pythOk` (see `pythagorean_value_fails`: each term has at most one squared
sine or cosine as a factor, the pairs differ; for the six identities of two terms, the matches of `regex.Eq` are squares) and
that the run keeps to principal branches (`RunTame`). -/
theorem pythagorean_value_partial (hO : O.Exact) (n : Nat) {ρ : Str → ℝ} {e r : Expr} (he : Built O e) (hd : Dom ρ e)
    (hv : Visits (pythPerf O) (pythOk O) n e = true) (ht : RunTame O (pythPerf O) n e = true)
    (h : pythagoreanSimplification O n e = .ok r) : den ρ r = den ρ e ∧ Dom ρ r :=
  have v := replace_on hO (pythPerf_on hO false ρ) (he.wf hO) hd hv ht h
  ⟨v.2.2, v.2.1⟩

/-- **C43**, a sum in which some pair `a sin(u)^2 + a cos(u)^2` is found: no condition on the run is needed. -/
theorem pythagorean_pairs_value_partial (hO : O.Exact) (n : Nat) {ρ : Str → ℝ} {ts : List Expr} {r : Expr}
    (he : Built O (sum ts)) (hd : Dom ρ (sum ts)) (h1 : ts.all scTerm = true) (h2 : pairsDiffer O (ctors O n) ts = true)
    (hb : ∃ both, sinCosPairs O (ctors O n) ts = .ok both ∧ both ≠ [])
    (h : pythagoreanSimplification O (n + 1) (sum ts) = .ok r) : den ρ r = den ρ (sum ts) ∧ Dom ρ r := by
  have w := he.wf hO
  have key : ∀ u, pythPerf O n (sum ts) = .ok (.hit u) → den ρ u = den ρ (sum ts) ∧ Dom ρ u := by
    intro u hu
    have hP : pythOk O n (sum ts) = true := by
      unfold pythOk
      rw [hu]
      simp only
      split
      · rename_i h0; obtain ⟨b, h3, h4⟩ := hb; rw [h0] at h3; cases h3; exact absurd rfl h4
      · rw [h1, h2]; rfl
    have v := pythPerf_on hO false ρ n (sum ts) u hP w hd hu
    exact ⟨v.2.2, v.2.1⟩
  obtain ⟨both, hp, hb⟩ := hb
  have hc2 : generalContains (isTrigSquare O) (sum ts) = true := by
    rw [has_iff]
    unfold sinCosPairs at hp
    obtain ⟨s, hs, hp⟩ := bind_ok.1 hp
    obtain ⟨c, hc, hp⟩ := bind_ok.1 hp
    have hp := pure_ok.1 hp
    obtain ⟨q, hq⟩ := List.exists_mem_of_ne_nil _ hb
    rw [← hp] at hq
    obtain ⟨o, ho, hoq⟩ := List.mem_filterMap.1 (List.mem_filter.1 hq).1
    simp only [id] at hoq
    subst hoq
    obtain ⟨t, ht, hts⟩ := mapR_mem' hs _ ho
    obtain ⟨f, mf, sf, -⟩ := thing_some (i := q.1) (c := q.2) hts
    refine ⟨f, ?_, ?_⟩
    · refine .child ht ?_
      unfold scFactors at mf
      split at mf
      · exact .child mf .here
      · rw [List.mem_singleton] at mf; subst mf; exact .here
    · unfold squareOf at sf
      split at sf
      · split at sf
        · rename_i g i x hx
          simp only [Bool.and_eq_true, List.contains_eq_mem, decide_eq_true_eq, List.mem_singleton] at hx
          obtain ⟨hx, rfl⟩ := hx
          simp [isTrigSquare, TrigFn.isInverse, hx]
        · cases sf
      · cases sf
  unfold pythagoreanSimplification replaceE at h
  obtain ⟨v, hv, h⟩ := bind_ok.1 h
  cases v with
  | hit u => simp only [Except.ok.injEq] at h; subst h; exact key _ hv
  | stop => simp only [Except.ok.injEq] at h; subst h; exact ⟨rfl, hd⟩
  | pass =>
    exfalso
    clear h
    rw [pythPerf] at hv
    rcases hc1 : (!containsCls isPlainTrig (sum ts)) with _ | _
    swap
    · rw [if_pos hc1] at hv; cases hv
    rw [if_neg (by simp [hc1]), if_neg (by simp [hc2])] at hv
    obtain ⟨both', hb', hv⟩ := bind_ok.1 hv
    rw [hp] at hb'
    injection hb' with hb'
    subst hb'
    rw [if_pos (by simpa using hb)] at hv
    obtain ⟨us, -, hv⟩ := bind_ok.1 hv
    obtain ⟨r', -, hv⟩ := bind_ok.1 hv
    have := pure_ok.1 hv
    cases this

section
set_option maxRecDepth 10000

private def x : Expr := sym ['x']
private def y : Expr := sym ['y']
private def sq (f : TrigFn) (i : Expr) : Expr := pow (trig f i) (rat 2)

/-- `y sin(y)^2 + y cos(y)^2 + 3 sin(x)^2 + 3 cos(x)^2 + x`. -/
private def pairs1 : List Expr :=
  [prod [y, sq .sin y], prod [y, sq .cos y], prod [rat 3, sq .sin x], prod [rat 3, sq .cos x], x]

/-- Two pairs and another term. -/
example : Built exactOracle (sum pairs1) ∧ Dom (fun _ => 1) (sum pairs1) ∧ pairs1.all scTerm = true ∧
    pairsDiffer exactOracle (ctors exactOracle 29) pairs1 = true ∧
    (∃ b, sinCosPairs exactOracle (ctors exactOracle 29) pairs1 = .ok b ∧ b ≠ []) ∧
    pythagoreanSimplification exactOracle 30 (sum pairs1) = .ok (sum [y, x, rat 3]) := by
  refine ⟨built_of_self (by decide +kernel), ?_, by decide +kernel, by decide +kernel,
    ⟨[(y, y), (x, rat 3)], by decide +kernel, by simp⟩, by decide +kernel⟩
  simp [pairs1, sq, x, y, Dom, DomS, DomSL, den, intExp, TrigFn.ok, TrigFn.real]

/-- `(y sec(x)^2 - y)^3`. -/
private def ident1 : Expr := pow (sum [prod [y, sq .sec x], prod [rat (-1), y]]) (rat 3)

/-- An identity of two terms inside a power. -/
example : Built exactOracle ident1 ∧ Dom (fun _ => 1) ident1 ∧
    Visits (pythPerf exactOracle) (pythOk exactOracle) 30 ident1 = true ∧
    RunTame exactOracle (pythPerf exactOracle) 30 ident1 = true ∧
    pythagoreanSimplification exactOracle 30 ident1 = .ok (prod [pow y (rat 3), pow (trig .tan x) (rat 6)]) := by
  refine ⟨built_of_self (by decide +kernel), ?_, by decide +kernel, by decide +kernel, by decide +kernel⟩
  simp [ident1, sq, x, y, Dom, DomS, DomSL, den, denS, intExp, TrigFn.ok, TrigFn.real, Real.cos_one_pos.ne']

/-- `sin(x)^2 cos(y)^2 + cos(x)^2 cos(y)^2`. -/
private def mixed : Expr := sum [prod [sq .cos y, sq .sin x], prod [sq .cos x, sq .cos y]]

/-- The property fails when a term has two squared functions as factors: `sin(x)^2 cos(y)^2 + cos(x)^2 cos(y)^2` becomes
`sin(x)^2 cos(y)^2 + cos(y)^2`, which is 2 instead of 1 at `x = π/2, y = 0`: the sine is paired, but the factor looked up when
the paired terms are removed is the first squared sine or cosine. -/
theorem pythagorean_value_fails : ∃ e r, Built exactOracle e ∧ Dom (fun s => if s = ['x'] then Real.pi / 2 else 0) e ∧
    pythagoreanSimplification exactOracle 30 e = .ok r ∧
    den (fun s => if s = ['x'] then Real.pi / 2 else 0) r ≠ den (fun s => if s = ['x'] then Real.pi / 2 else 0) e := by
  refine ⟨mixed, sum [prod [sq .cos y, sq .sin x], sq .cos y], built_of_self (by decide +kernel), ?_, by decide +kernel, ?_⟩
  · simp [mixed, sq, x, y, Dom, DomS, DomSL, den, intExp, TrigFn.ok, TrigFn.real]
  · simp [mixed, sq, x, y, den, denS, denP, intExp, TrigFn.real, pw_of_nonneg]

end

end Simpy
