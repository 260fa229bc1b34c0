import Verif.Proofs.LogSound
import Verif.Proofs.ExpandSound
import Verif.Proofs.ExactOracle
import Verif.Proofs.Check

/-!
# C48: expand_logs

`expandLogs O n e` is `expand_logs(e)` with `n` stack levels left.
-/

namespace Simpy
open Expr

variable {O : Oracle}

/-- **C48**: `expand_logs` preserves the value where the logarithms are natural and the arguments of the new logarithms are
positive (`LogOk`, for the logarithms reached), provided that the run keeps to principal branches (`RunTame`, and `ExpandOk` for
the final `expand()`). Missing: other bases (`expand_logs_fails`). -/
theorem expand_logs_value_partial (hO : O.Exact) (n : Nat) {ρ : Str → ℝ} {e r : Expr} (he : Built O e) (hd : Dom ρ e)
    (hv : VisitsP (logPerf O) (LogOk O false ρ) n e) (ht : RunTame O (logPerf O) n e = true)
    (hx : ∀ s, replaceE O (logPerf O) n e = .ok s → expandableE O n s = .ok true → ExpandOk O ρ n s)
    (h : expandLogs O n e = .ok r) : den ρ r = den ρ e ∧ Dom ρ r := by
  unfold expandLogs at h
  obtain ⟨s, hs, h⟩ := bind_ok.1 h
  have v := replace_onP hO (logPerf_on hO) (he.wf hO) hd hv ht hs
  unfold expandOr at h
  obtain ⟨b, hb, h⟩ := bind_ok.1 h
  cases b with
  | false => cases pure_ok.1 h; exact ⟨v.2.2, v.2.1⟩
  | true =>
    obtain ⟨w2, d2, v2⟩ := expand_sound hO n ((adm_WF hO).kid v.1) v.2.1 (hx s hs hb) h
    exact ⟨v2.trans v.2.2, d2⟩

section
set_option maxRecDepth 10000

private def x : Expr := sym ['x']
private def y : Expr := sym ['y']

/-- `y log(sec(x)) + log(x^3 y)`. -/
private def logs1 : Expr := sum [prod [y, log (trig .sec x) euler], log (prod [y, pow x (rat 3)]) euler]

private theorem logs1_cos : trigCtor exactOracle 27 .cos x = .ok (trig .cos x) := by decide +kernel

/-- The case `y log(sec(x)) + log(x^3 y)` at `x = y = 1`. -/
example : Built exactOracle logs1 ∧ Dom (fun _ => 1) logs1 ∧
    VisitsP (logPerf exactOracle) (LogOk exactOracle false (fun _ => 1)) 30 logs1 ∧
    RunTame exactOracle (logPerf exactOracle) 30 logs1 = true ∧
    (∀ s, replaceE exactOracle (logPerf exactOracle) 30 logs1 = .ok s → expandableE exactOracle 30 s = .ok true →
      ExpandOk exactOracle (fun _ => 1) 30 s) ∧
    expandLogs exactOracle 30 logs1 = .ok (sum [prod [rat (-1), y, log (trig .cos x) euler], log (pow x (rat 3)) euler,
      log y euler]) := by
  have hc := Real.cos_one_pos
  have he : Real.exp 1 ≠ 1 := by simp
  refine ⟨built_of_self (by decide +kernel), ?_, ?_, by decide +kernel, ?_, by decide +kernel⟩
  · simp [logs1, x, y, Dom, DomS, DomSL, den, denP, intExp, TrigFn.ok, TrigFn.real, HN, HNL, hc, hc.le, hc.ne', Real.exp_pos, he,
      isSubtraction, pw_of_nonneg]
  · refine ⟨trivial, fun _ => ?_⟩
    intro t ht
    simp only [logs1, Expr.children, List.mem_cons, List.not_mem_nil, or_false] at ht
    rcases ht with rfl | rfl
    · refine ⟨trivial, fun _ => ?_⟩
      intro t ht
      simp only [Expr.children, List.mem_cons, List.not_mem_nil, or_false] at ht
      rcases ht with rfl | rfl
      · exact ⟨trivial, fun _ t ht => by simp [y, Expr.children] at ht⟩
      · refine ⟨⟨rfl, ?_⟩, fun h => ?_⟩
        · intro g hg
          simp at hg
          subst hg
          refine ⟨by decide +kernel, fun t ht => ?_⟩
          rw [logs1_cos] at ht
          cases ht
          simp [PosArg, HN, den, x, TrigFn.real, hc, hc.le]
        · exact absurd h (by decide +kernel)
    · refine ⟨⟨rfl, ?_⟩, fun h => ?_⟩
      · intro t ht
        simp only [List.mem_cons, List.not_mem_nil, or_false] at ht
        rcases ht with rfl | rfl <;> simp [PosArg, HN, den, x, y, pw_of_nonneg]
      · exact absurd h (by decide +kernel)
  · intro s hs h
    have e : replaceE exactOracle (logPerf exactOracle) 30 logs1 = .ok (sum [prod [rat (-1), y, log (trig .cos x) euler],
      log (pow x (rat 3)) euler, log y euler]) := by decide +kernel
    rw [e] at hs
    cases hs
    exact absurd h (by decide +kernel)

/-- The property fails for logarithms to other bases, because the base is dropped: `log(2x, 2)` becomes `log(x) + log(2)`, at
`x = 1` that is `log 2 < 1` instead of 1. -/
theorem expand_logs_fails : ∃ e r, Built exactOracle e ∧ Dom (fun _ => 1) e ∧ expandLogs exactOracle 30 e = .ok r ∧
    den (fun _ => 1) r ≠ den (fun _ => 1) e := by
  refine ⟨log (prod [rat 2, x]) (rat 2), sum [log x euler, log (rat 2) euler], built_of_self (by decide +kernel), ?_,
    by decide +kernel, ?_⟩
  · simp [x, Dom, DomS, DomSL, den, denP, HN, HNL, isSubtraction]
  · have h1 : Real.log 2 < 1 := by
      have := Real.log_lt_sub_one_of_pos (x := 2) (by norm_num) (by norm_num)
      linarith
    have h2 : Real.log 2 ≠ 0 := by
      have := Real.log_pos (x := 2) (by norm_num); exact this.ne'
    simp [x, den, denS, denP, h2, h1.ne]

end

end Simpy
