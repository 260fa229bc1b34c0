import Verif.Proofs.SquareSound
import Verif.Proofs.IdentSound
import Verif.Proofs.PTSSound
import Verif.Spec.Run

/-! The conditions of `RewriteOk` suffice. -/

namespace Simpy
open Expr
namespace Node

variable {O : Oracle} {n : Nat} {ρ : Str → ℝ} {A : Str → Prop} {ν : Supply} {old : List Expr}

theorem keeps_of_val {e g : Expr} (h : Val true ρ g (den ρ e)) : Keeps ρ e g := ⟨h.1, h.2.1, h.2.2⟩

theorem keeps_of_ok {e g : Expr} {v : Str} {tr : Transf} (hu : usubOf tr = none) (ha : tr ≠ .additivity) (hk : ∀ c, tr ≠ .pullConstant c)
    (h : Reduces (posed ρ v A e) (fun _ => posed ρ v A g) 0 0 tr ∧ Integrand ρ A g) : Keeps ρ e g := by
  obtain ⟨h1, h2⟩ := h
  refine ⟨h2.wf, h2.reg, ?_⟩
  cases tr <;> first | (simp [usubOf] at hu; done) | exact absurd rfl ha | exact absurd rfl (hk _) | exact h1.2.2.2.symm

theorem rewrite_keeps (hO : O.Exact) {tr : Transf} {e : Expr} {v : Str} {c : Node} (he : Integrand ρ A e)
    (hm : MadeBy O n ν old e v false c tr) (h : RewriteOk O n ρ v tr e c.expr) : Keeps ρ e c.expr := by
  cases h with
  | kept h => exact h
  | expand h =>
    obtain ⟨-, -, h2⟩ := hm
    exact keeps_of_ok rfl (by simp) (by simp) (expandT_ok (v := v) hO he h h2 0 0)
  | expandEasy h =>
    obtain ⟨-, -, h2⟩ := hm
    exact keeps_of_ok rfl (by simp) (by simp) (expandT_ok (v := v) hO he (Easy.expandOk n h) h2 0 0)
  | rewriteTrig h1 h2 h3 h4 =>
    obtain ⟨-, -, gs, h5, h6⟩ := hm
    obtain ⟨h7, h8⟩ := rewriteTrig_ok (v := v) hO he h1 h2 h3 h4 h5 _ h6
    exact keeps_of_ok rfl (by simp) (by simp) ⟨h7 0 0, h8⟩
  | rewritePythagorean h =>
    obtain ⟨-, -, h2⟩ := hm
    exact keeps_of_ok rfl (by simp) (by simp) (rewritePythagorean_ok (v := v) hO he h h2 0 0)
  | productToSum h1 h2 =>
    obtain ⟨-, -, h⟩ := hm
    unfold productToSumUnit at h
    obtain ⟨o, ho, h⟩ := bind_ok.1 h
    cases o with
    | none => cases h
    | some us =>
      obtain ⟨s, hs, h⟩ := bind_ok.1 h
      have h := pure_ok.1 h
      simp only [Option.some.injEq] at h
      rw [← h]
      have p := ptsUnit_V hO n (st := true) (mult := none) ⟨he.wf, he.reg, h1⟩ (by simp) h2 ho
      obtain ⟨p1, e1⟩ := PV.sumL hO p hs
      exact ⟨p1.1, p1.2.1, by rw [e1]; simp [multVal]⟩
  | simplify h1 h2 =>
    obtain ⟨-, -, h⟩ := hm
    exact keeps_of_val (replace_on hO (pythPerf_on hO true ρ) he.wf he.reg h1 h2 h)
  | completeTheSquare h1 h2 =>
    obtain ⟨-, -, h⟩ := hm
    exact keeps_of_val (completeTheSquare_V hO he.wf he.reg h1 h2 h)
  | polynomialDivision h1 h2 h3 h4 h5 h6 h7 =>
    obtain ⟨-, -, h⟩ := hm
    exact keeps_of_val (polyDiv_V hO he.wf he.reg h1 h2 h3 h4 h5 h6 h7 h)
  | partialFractions h1 h2 h3 h4 h5 h6 h7 h8 =>
    obtain ⟨-, -, h⟩ := hm
    exact keeps_of_val (partialFractions_V hO he.wf he.reg h1 h2 h3 h4 h5 h6 h7 h8 h)

end Node
end Simpy
