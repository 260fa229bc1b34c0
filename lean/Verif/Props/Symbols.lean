import Verif.Proofs.AdmExpand
import Verif.Proofs.Syms
import Verif.Proofs.ExactOracle
import Verif.Proofs.Check

/-!
# C13, C19: symbols

`syms e` lists the names in `e.symbols()`. No assumption on floating point, on the stack depth `n`, or on how
the arguments were made.
-/

namespace Simpy
open Expr

variable {O : Oracle}

/-- `Symbols r ⊆ Symbols of the listed arguments`. -/
def SymsFrom (r : Expr) (args : List Expr) : Prop := ∀ s ∈ syms r, ∃ t ∈ args, s ∈ syms t

/-- **C13** the constructors. -/
theorem constructors_invent_no_symbols (n : Nat) :
    (∀ ts r, (ctors O n).sum ts = .ok r → SymsFrom r ts) ∧
    (∀ ts r, (ctors O n).prod ts = .ok r → SymsFrom r ts) ∧
    (∀ b x r, (ctors O n).pow b x = .ok r → SymsFrom r [b, x]) ∧
    (∀ i r, (ctors O n).abs i = .ok r → SymsFrom r [i]) ∧
    (∀ f i r, trigCtor O n f i = .ok r → SymsFrom r [i]) ∧
    (∀ i b r, logCtor O i b = .ok r → SymsFrom r [i, b]) := by
  refine ⟨fun ts r h => ?_, fun ts r h => ?_, fun b x r h => ?_, fun i r h => ?_, fun f i r h => ?_, fun i b r h => ?_⟩
  · exact ((adm_syms O (fun s => ∃ t ∈ ts, s ∈ syms t)).pres n).sum ts r (fun t ht s hs => ⟨t, ht, hs⟩) h
  · exact ((adm_syms O (fun s => ∃ t ∈ ts, s ∈ syms t)).pres n).prod ts r (fun t ht s hs => ⟨t, ht, hs⟩) h
  · exact ((adm_syms O (fun s => ∃ t ∈ [b, x], s ∈ syms t)).pres n).pow b x r (fun s hs => ⟨b, by simp, hs⟩)
      (fun s hs => ⟨x, by simp, hs⟩) h
  · exact ((adm_syms O (fun s => ∃ t ∈ [i], s ∈ syms t)).pres n).abs i r (fun s hs => ⟨i, by simp, hs⟩) h
  · exact (adm_syms O (fun s => ∃ t ∈ [i], s ∈ syms t)).ptrig n f (fun s hs => ⟨i, by simp, hs⟩) h
  · exact (adm_syms O (fun s => ∃ t ∈ [i, b], s ∈ syms t)).plog (fun s hs => ⟨i, by simp, hs⟩)
      (fun s hs => ⟨b, by simp, hs⟩) h

/-- **C13** the operators. -/
theorem operators_invent_no_symbols (n : Nat) (a b r : Expr) :
    (opAdd (ctors O n) a b = .ok r → SymsFrom r [a, b]) ∧
    (opSub (ctors O n) a b = .ok r → SymsFrom r [a, b]) ∧
    (opMul (ctors O n) a b = .ok r → SymsFrom r [a, b]) ∧
    (opDiv (ctors O n) a b = .ok r → SymsFrom r [a, b]) ∧
    (opPow O (ctors O n) a b = .ok r → SymsFrom r [a, b]) ∧
    (opNeg (ctors O n) a = .ok r → SymsFrom r [a]) := by
  have hQ := adm_syms O (fun s => ∃ t ∈ [a, b], s ∈ syms t)
  have ha : ∀ s ∈ syms a, ∃ t ∈ [a, b], s ∈ syms t := fun s hs => ⟨a, by simp, hs⟩
  have hb : ∀ s ∈ syms b, ∃ t ∈ [a, b], s ∈ syms t := fun s hs => ⟨b, by simp, hs⟩
  exact ⟨hQ.opAdd ha hb, hQ.opSub ha hb, hQ.opMul ha hb, hQ.opDiv ha hb, hQ.opPow ha hb,
    (adm_syms O (fun s => ∃ t ∈ [a], s ∈ syms t)).opNeg (fun s hs => ⟨a, by simp, hs⟩)⟩

/-- **C13** `e.diff(v)` and `e.expand()`. -/
theorem diff_expand_invent_no_symbols (n : Nat) (e r : Expr) :
    (∀ v, diffE O n v e = .ok r → SymsFrom r [e]) ∧ (expandE O n e = .ok r → SymsFrom r [e]) := by
  have hQ := adm_syms O (fun s => ∃ t ∈ [e], s ∈ syms t)
  exact ⟨fun v h => hQ.diffE n (fun s hs => ⟨e, by simp, hs⟩) h,
    fun h => hQ.expandE n (hQ.kid (fun s hs => ⟨e, by simp, hs⟩)) h⟩

/-- **C13** `e.subs(σ)`: every symbol of the result is an unsubstituted symbol of `e` or occurs in the value given
to a symbol of `e`. -/
theorem subs_symbols (n : Nat) (σ : Str → Option Expr) {e r : Expr} (h : subsE O n σ e = .ok r) :
    ∀ s ∈ syms r, (s ∈ syms e ∧ σ s = none) ∨ ∃ x ∈ syms e, ∃ u, σ x = some u ∧ s ∈ syms u := by
  refine (adm_syms O (fun s => (s ∈ syms e ∧ σ s = none) ∨ ∃ x ∈ syms e, ∃ u, σ x = some u ∧ s ∈ syms u)).subsE
    (by simp [syms]) n ?_ h
  intro x hx s hs
  cases hσ : σ x with
  | none =>
    rw [hσ] at hs
    have : s = x := by simpa [syms] using hs
    subst this
    exact Or.inl ⟨hx, hσ⟩
  | some u =>
    rw [hσ] at hs
    exact Or.inr ⟨x, hx, u, hσ, hs⟩

/-- **C13** after `e.subs({x: u})` with `u` free of `x` the result is free of `x`. -/
theorem subs_eliminates (n : Nat) (x : Str) (u : Expr) (hu : x ∉ syms u) {e r : Expr}
    (h : subsE O n (fun s => if s = x then some u else none) e = .ok r) : x ∉ syms r := by
  intro hx
  rcases subs_symbols n _ h x hx with ⟨-, h2⟩ | ⟨y, -, w, hw, h3⟩
  · simp at h2
  · split at hw
    · obtain rfl := Option.some.inj hw; exact hu h3
    · simp at hw

/-- **C19** `e.contains(x)` is `True` iff `x` is one of `e.symbols()`. -/
theorem contains_iff_symbols (x : Str) (e : Expr) : contains x e = true ↔ x ∈ syms e := contains_iff x e

/-- **C19** the value does not depend on symbols the expression does not contain. -/
theorem value_independent (x : Str) (e : Expr) (h : contains x e = false) (ρ : Str → ℝ) (a : ℝ) :
    den (Function.update ρ x a) e = den ρ e := by
  refine den_congr e fun s hs => ?_
  rw [Function.update_of_ne]
  rintro rfl
  rw [← contains_iff, h] at hs
  simp at hs

/-! ## The hypotheses are met -/

section examples
set_option maxRecDepth 10000

private abbrev C := ctors exactOracle 30
private abbrev x : Expr := sym ['x']
private abbrev y : Expr := sym ['y']

/-- `(x*y + x).diff("x")` is `y + 1`: the derivative may lose symbols but gains none. -/
example : diffE exactOracle 30 ['x'] (sum [prod [x, y], x]) = .ok (sum [y, rat 1]) := by decide +kernel

/-- `(x*y).subs({"x": y + 1})`: free of `x`. -/
example : subsE exactOracle 30 (fun s => if s = ['x'] then some (sum [y, rat 1]) else none) (prod [x, y]) =
    .ok (prod [y, sum [y, rat 1]]) := by decide +kernel

example : expandE exactOracle 30 (pow (sum [x, y]) (rat 2)) =
    .ok (sum [pow y (rat 2), pow x (rat 2), prod [rat 2, x, y]]) := by decide +kernel

example : contains ['x'] (prod [y, trig .sin x]) = true ∧ contains ['z'] (prod [y, trig .sin x]) = false := by
  decide

end examples
end Simpy
