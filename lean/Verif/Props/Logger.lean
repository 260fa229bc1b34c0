import Verif.Proofs.Logger
import Verif.Proofs.Check
import Verif.Props.Read
import Verif.Props.PrintTree

/-!
# C97: the log of integrals
-/

namespace Simpy
namespace Logger
open Expr

variable {O : Oracle} {n : Nat}

/-- **C97** After any history of a new log, there is one entry for each text of a logged integrand, and it is the last one that was logged for this
text. -/
theorem log_entries {evs : List Event} {d : Data} (h : run O n [] evs = .ok d) :
    (d.map (·.1)).Nodup ∧ ∀ k x, (k, x) ∈ d ↔ Latest O n evs k x := by
  obtain ⟨h1, h2⟩ := run_entries evs (by simp) h
  exact ⟨h1, fun k x => by rw [h2]; simp⟩

/-- **C97** Sorting the log keeps the entries, orders them from most to least time, and entries with the same time stay in their order. -/
theorem log_sorted (d : Data) : (sort d).Perm d ∧ Slowest (sort d) ∧
    ∀ t, ((sort d).filter fun p => p.2.time = t) = d.filter fun p => p.2.time = t :=
  ⟨sort_perm d, sort_slowest d, sort_stable d⟩

/-- **C97** `dump` writes a line with the time for each entry, from most to least time, and then the solution and the whole tree of an integral on
which the most time was spent; the log is left sorted. -/
theorem dump_content {tt : ℚ → Str} {d d' : Data} {s : Str} (h : dump O n tt d = .ok (d', s)) :
    d'.Perm d ∧ Slowest d' ∧ ∃ p ∈ d, (∀ q ∈ d, q.2.time ≤ p.2.time) ∧ ∃ a b, Print.solutionTree O n p.2.root = .ok a ∧
      Print.tree O n p.2.root = .ok b ∧
      s = (d'.map fun q => q.1 ++ ": ".toList ++ tt q.2.time ++ "\n".toList).flatten ++ "\n\n\nMost time spent: \n".toList ++
        (a.map fun l => l.text ++ "\n".toList).flatten ++ "\n\n\n".toList ++ (b.map fun l => l.text ++ "\n".toList).flatten := by
  obtain ⟨h1, h2, _⟩ := log_sorted d
  unfold dump at h
  cases hs : sort d with
  | nil => rw [hs] at h; cases h
  | cons p r =>
    rw [hs] at h h1 h2
    obtain ⟨a, ha, h⟩ := bind_ok.1 h
    obtain ⟨b, hb, h⟩ := bind_ok.1 h
    cases h
    refine ⟨h1, h2, p, h1.mem_iff.1 List.mem_cons_self, fun q hq => ?_, a, b, ha, hb, ?_⟩
    · rcases List.mem_cons.1 (h1.mem_iff.2 hq) with rfl | hq
      · exact le_rfl
      · exact List.rel_of_pairwise_cons h2 hq
    · simp only [written, List.flatMap_def]
      rfl

/-- **C97** An empty log cannot be dumped. -/
theorem dump_empty (tt : ℚ → Str) (d : Data) : dump O n tt d = .error .index ∧ (∀ p ∈ d, (Print.solutionTree O n p.2.root).isOk = true ∧
    (Print.tree O n p.2.root).isOk = true) ↔ d = [] := by
  constructor
  · rintro ⟨h, h'⟩
    unfold dump at h
    cases hs : sort d with
    | nil => exact List.perm_nil.1 ((hs ▸ sort_perm d).symm)
    | cons p r =>
      rw [hs] at h
      obtain ⟨h1, h2⟩ := h' p ((sort_perm d).mem_iff.1 (hs ▸ List.mem_cons_self))
      cases ha : Print.solutionTree O n p.2.root with
      | error x => rw [ha] at h1; cases h1
      | ok a =>
        cases hb : Print.tree O n p.2.root with
        | error x => rw [hb] at h2; cases h2
        | ok b => simp only [ha, hb] at h; cases h
  · rintro rfl
    exact ⟨by simp [dump, sort], by simp⟩

/-- **C97 (partial)** If the integrands are polynomials, no integral is lost but by logging another with the same value of the integrand. Missing:
other integrands, see `log_lost_fails`. -/
theorem log_kept_partial (hO : O.Exact) {evs before after : List Event} {d : Data} {x : Datum} (h : run O (n + 6) [] evs = .ok d)
    (he : evs = before ++ .log x :: after)
    (hp : ∀ y, Event.log y ∈ evs → Built O y.expr ∧ ∃ v, goodName v = true ∧ IsPolynomial v y.expr)
    (hx : ∀ y, Event.log y ∈ after → ∃ ρ, den ρ y.expr ≠ den ρ x.expr) : ∃ k, (k, x) ∈ d ∧ (ctors O (n + 6)).repr x.expr = .ok k := by
  have mx : Event.log x ∈ evs := by rw [he]; simp
  obtain ⟨bx, v, gv, px⟩ := hp x mx
  obtain ⟨k, T, h1, _, _⟩ := polynomials_read hO bx px gv n
  refine ⟨k, ((log_entries h).2 k x).2 ⟨before, after, he, h1, fun y hy c => ?_⟩, h1⟩
  obtain ⟨by', w, gw, py⟩ := hp y (by rw [he]; simp [hy])
  obtain ⟨ρ, hρ⟩ := hx y hy
  exact hρ (polynomial_texts hO by' bx py px gw gv n (c.trans h1.symm) ρ)

/-- **C97** An integral is lost if another integrand happens to be printed alike: `z**5 - (x + 2)`, got from `2*(x + 2) + z**5 - 3*(x + 2)`, and
`z**5 - x + 2`. -/
theorem log_lost_fails : ∃ (x y : Datum), Built exactOracle x.expr ∧ Built exactOracle y.expr ∧ (∃ ρ, den ρ x.expr ≠ den ρ y.expr) ∧
    ∃ k, run exactOracle 40 [] [.log x, .log y] = .ok [(k, y)] := by
  have bi : Built exactOracle (sum [pow (sym ['z']) (rat 5), prod [rat (-1), sum [sym ['x'], rat 2]]]) := by
    refine .sum 40 (ts := [prod [rat 2, sum [sym ['x'], rat 2]], pow (sym ['z']) (rat 5), prod [rat (-3), sum [sym ['x'], rat 2]]]) ?_
      (by set_option maxRecDepth 10000 in decide +kernel)
    simp only [List.mem_cons, List.not_mem_nil, or_false, forall_eq_or_imp, forall_eq]
    refine ⟨?_, ?_, ?_⟩ <;> exact built_of_self (by set_option maxRecDepth 10000 in decide +kernel)
  refine ⟨⟨_, 1, .mk (sum [pow (sym ['z']) (rat 5), prod [rat (-1), sum [sym ['x'], rat 2]]]) ['x'] none .unset none false []⟩,
    ⟨sum [pow (sym ['z']) (rat 5), prod [rat (-1), sym ['x']], rat 2], 2,
      .mk (sum [pow (sym ['z']) (rat 5), prod [rat (-1), sym ['x']], rat 2]) ['x'] none .unset none false []⟩,
    bi, built_of_self (by set_option maxRecDepth 10000 in decide +kernel), ⟨fun _ => 0, ?_⟩, "z^5 - x + 2".toList, ?_⟩
  · have p0 : pw 0 5 = 0 := by rw [show (5 : ℝ) = ((5 : ℤ) : ℝ) by norm_num, pw_int]; norm_num
    simp [den, denS, denP, p0]
    norm_num
  · have h1 : (ctors exactOracle 40).repr (sum [pow (sym ['z']) (rat 5), prod [rat (-1), sum [sym ['x'], rat 2]]]) =
        .ok "z^5 - x + 2".toList := by set_option maxRecDepth 10000 in decide +kernel
    have h2 : (ctors exactOracle 40).repr (sum [pow (sym ['z']) (rat 5), prod [rat (-1), sym ['x']], rat 2]) =
        .ok "z^5 - x + 2".toList := by set_option maxRecDepth 10000 in decide +kernel
    simp only [run, event, log, h1, h2]
    rfl

section examples

/-- Three integrals, one of them twice. -/
def sampleLog : List Event :=
  let e := sym ['x']
  let t := fun e => Node.mk e ['x'] none .solution (some e) false []
  [.log ⟨e, 1 / 2, t e⟩, .log ⟨rat 7, 3, t (rat 7)⟩, .sort, .log ⟨e, 5, t e⟩, .log ⟨rat 8, 3, t (rat 8)⟩]

example : ∃ d, run exactOracle 7 [] sampleLog = .ok d ∧ d.map (fun p => (p.1, p.2.time)) = [(['7'], 3), (['x'], 5), (['8'], 3)] ∧
    (sort d).map (·.1) = [['x'], ['7'], ['8']] := by
  have h1 : (ctors exactOracle 7).repr (sym ['x']) = .ok ['x'] := by decide +kernel
  have h2 : (ctors exactOracle 7).repr (rat 7) = .ok ['7'] := by decide +kernel
  have h3 : (ctors exactOracle 7).repr (rat 8) = .ok ['8'] := by decide +kernel
  refine ⟨_, rfl, by decide +kernel, by decide +kernel⟩

/-- `7` and then `x`: the first is kept. -/
example : ∃ d k, run exactOracle 7 [] [.log ⟨rat 7, 3, .mk (rat 7) ['x'] none .unset none false []⟩,
      .log ⟨sym ['x'], 5, .mk (sym ['x']) ['x'] none .unset none false []⟩] = .ok d ∧
    (k, ⟨rat 7, 3, .mk (rat 7) ['x'] none .unset none false []⟩) ∈ d := by
  obtain ⟨d, hd⟩ : ∃ d, run exactOracle 7 [] [.log ⟨rat 7, 3, .mk (rat 7) ['x'] none .unset none false []⟩,
      .log ⟨sym ['x'], 5, .mk (sym ['x']) ['x'] none .unset none false []⟩] = .ok d := ⟨_, rfl⟩
  obtain ⟨k, h, _⟩ := log_kept_partial (n := 1) exactOracle_exact (before := []) hd rfl (by
      rintro y hy
      simp only [List.mem_cons, Event.log.injEq, List.not_mem_nil, or_false] at hy
      rcases hy with rfl | rfl
      · exact ⟨.rat 7, ['x'], by decide +kernel, .inl (.const 7)⟩
      · exact ⟨.sym ['x'], ['x'], by decide +kernel, .inl (.unit .var)⟩) (by
      rintro y hy
      simp only [List.mem_cons, Event.log.injEq, List.not_mem_nil, or_false] at hy
      obtain rfl := hy
      exact ⟨fun _ => 0, by simp [den]⟩)
  exact ⟨d, k, hd, h⟩

/-- Two of them in the file, the times without decimals. -/
example : (dump exactOracle 7 (fun q => intStr q.num) [(['7'], ⟨rat 7, 3, .mk (rat 7) ['x'] none .failure none false []⟩),
      (['x'], ⟨sym ['x'], 5, .mk (sym ['x']) ['x'] none .solution (some (rat 8)) false []⟩)]).map (·.2) =
    .ok ("x: 5\n7: 3\n\n\n\nMost time spent: \n[0]  {1} x                                                   8" ++
      "                                                   (NoneType) (SOLUTION)\n\n\n\n\n" ++
      "[0]  {1} x                                                     (NoneType) (SOLUTION)\n\n").toList := by
  decide +kernel

end examples

end Logger
end Simpy
