import Verif.Proofs.PolyFrac
import Verif.Proofs.VisitSound
import Verif.Spec.Rewrite

/-! Completing the square of a quadratic polynomial with rational coefficients. -/

namespace Simpy
open Expr

variable {O : Oracle}

theorem squarePerform_V (hO : O.Exact) {n : Nat} {st : Bool} {ρ : Str → ℝ} {v : Str} {q0 q1 q2 : ℚ} {r : Expr}
    (hD : q1 ^ 2 < 4 * q0 * q2) (h : squarePerform O n v (rat q0) (rat q1) (rat q2) = .ok r) :
    Val st ρ r (q0 + q1 * ρ v + q2 * ρ v ^ 2) := by
  have hC := ctors_sound hO n
  have h2 : q2 ≠ 0 := by rintro rfl; nlinarith [sq_nonneg q1]
  unfold squarePerform at h
  obtain ⟨b0, e, h⟩ := bind_ok.1 h
  have : b0 = rat (q0 / q2) := by simpa [opDiv, h2, eq_comm] using e
  subst this
  obtain ⟨b1, e, h⟩ := bind_ok.1 h
  have : b1 = rat (q1 / q2) := by simpa [opDiv, h2, eq_comm] using e
  subst this
  obtain ⟨-, -, h⟩ := bind_ok.1 h
  obtain ⟨c, e, h⟩ := bind_ok.1 h
  have : c = rat (q1 / q2 / 2) := by simpa [opDiv, eq_comm] using e
  subst this
  obtain ⟨c2, e, h⟩ := bind_ok.1 h
  have : c2 = rat ((q1 / q2 / 2) ^ 2) := by
    have e' : (2 : ℚ).den = 1 := rfl
    have e'' : (2 : ℚ).num = 2 := rfl
    simp only [opPow, e', if_true, e'', fracPowInt] at e
    rw [if_neg (by rintro ⟨-, h⟩; norm_num at h)] at e
    obtain ⟨u, hu, e⟩ := bind_ok.1 e
    cases hu
    have := pure_ok.1 e
    rw [← this]
    norm_cast
  subst this
  obtain ⟨d, e, h⟩ := bind_ok.1 h
  have : d = rat (q0 / q2 - (q1 / q2 / 2) ^ 2) := by simpa [opSub, eq_comm] using e
  subst this
  have hpos : 0 < q0 / q2 - (q1 / q2 / 2) ^ 2 := by
    have : q0 / q2 - (q1 / q2 / 2) ^ 2 = (4 * q0 * q2 - q1 ^ 2) / (4 * q2 ^ 2) := by field_simp; ring
    rw [this]
    have : 0 < q2 ^ 2 := by positivity
    exact div_pos (by linarith) (by linarith)
  obtain ⟨D, hDe⟩ : ∃ D, D = q0 / q2 - (q1 / q2 / 2) ^ 2 := ⟨_, rfl⟩
  rw [← hDe] at h hpos
  have hposR : (0 : ℝ) < D := by exact_mod_cast hpos
  obtain ⟨vc, e1, h⟩ := bind_ok.1 h
  obtain ⟨s, e2, h⟩ := bind_ok.1 h
  obtain ⟨q, e3, h⟩ := bind_ok.1 h
  obtain ⟨qq, e4, h⟩ := bind_ok.1 h
  obtain ⟨p3, e5, h⟩ := bind_ok.1 h
  obtain ⟨p4, e6, h⟩ := bind_ok.1 h
  have vv : Val st ρ (sym v) (ρ v) := ⟨by simp [WF], by simp [DomS], rfl⟩
  have v1 := Val.add hC vv (Val.rat _) e1
  have v2 : Val st ρ s (Real.sqrt D) := by
    have hpd : PowDomS st ρ (rat D) (rat (1 / 2)) :=
      ⟨by simp, by simp, .inl (by simpa using hposR.ne'), fun _ => by simpa [RadOk] using hposR.le, fun _ => .inl (by simpa using hposR.ne')⟩
    obtain ⟨x1, x2⟩ := opPow_V hC (by simp) (by simp) hpd e2
    refine ⟨opPow_W hC (by simp) (by simp) e2, x2, ?_⟩
    rw [x1, den_rat, den_rat, pw_of_nonneg hposR.le, Real.sqrt_eq_rpow]
    norm_num
  have hs0 : Real.sqrt D ≠ 0 := (Real.sqrt_pos.2 hposR).ne'
  have v3 := Val.div hC v1 v2 hs0 e3
  have v4 := Val.sq hC v3 e4
  have v5 := Val.add hC v4 Val.one e5
  have v6 := Val.mul hC v5 (Val.rat D) e6
  have v7 := Val.mul hC v6 (Val.rat q2) h
  refine v7.congr ?_
  rw [div_pow, Real.sq_sqrt hposR.le]
  have e8 : (D : ℝ) = q0 / q2 - (q1 / q2 / 2) ^ 2 := by rw [hDe]; push_cast; ring
  have e9 : ((ρ v + ((q1 / q2 / 2 : ℚ) : ℝ)) ^ 2 / D + 1) * D = (ρ v + q1 / q2 / 2) ^ 2 + D := by
    push_cast; field_simp
  rw [e9, e8]
  have : (q2 : ℝ) ≠ 0 := by exact_mod_cast h2
  field_simp
  ring

theorem squarePerf_V (hO : O.Exact) {v : Str} {st : Bool} {ρ : Str → ℝ} (k : Nat) (e u : Expr) (hP : SquareOk O v k e) (w : WF e)
    (d : DomS st ρ e) (h : squarePerf O v k e = .ok (.hit u)) : Val st ρ u (den ρ e) := by
  unfold squarePerf at h
  obtain ⟨p, h1, h⟩ := bind_ok.1 h
  split at h
  · next a0 a1 a2 =>
    obtain ⟨r, h2, h⟩ := bind_ok.1 h
    have := pure_ok.1 h
    simp only [Rep.hit.injEq] at this
    subst this
    have h3 : toConstPoly O k v e = .ok [a0, a1, a2] := by
      unfold catchAssert at h1
      split at h1
      · next q hq => simp only [Except.ok.injEq, Option.some.injEq] at h1; rw [hq, h1]
      · cases h1
      · cases h1
    obtain ⟨he, e', q0, q1, q2, hx, hp, hl, hD⟩ := hP a0 a1 a2 h3
    obtain ⟨-, hv⟩ := toConstPoly_V hO ((adm_WF hO).kid w) d hx (ratPoly_plain hp) (fun _ => Easy.expandOk k he) h3
    simp only [List.map_cons, List.map_nil, List.cons.injEq, and_true] at hl
    obtain ⟨rfl, rfl, rfl⟩ := hl
    refine (squarePerform_V hO hD h2).congr ?_
    rw [← hv]
    simp only [polyVal, den_rat]
    ring
  · cases h

/-- The value of the integrand after CompleteTheSquare. -/
theorem completeTheSquare_V (hO : O.Exact) {n : Nat} {v : Str} {st : Bool} {ρ : Str → ℝ} {e r : Expr} (w : WF e) (d : DomS st ρ e)
    (hv : VisitsP (squarePerf O v) (SquareOk O v) n e) (ht : RunTame O (squarePerf O v) n e = true)
    (h : completeTheSquare O n v e = .ok (some r)) : Val st ρ r (den ρ e) := by
  unfold completeTheSquare at h
  obtain ⟨b, -, h⟩ := bind_ok.1 h
  split at h
  · obtain ⟨r', h2, h⟩ := bind_ok.1 h
    have := pure_ok.1 h
    simp only [Option.some.injEq] at this
    subst this
    exact replace_onP hO (squarePerf_V hO) w d hv ht h2
  · cases pure_ok.1 h

end Simpy
