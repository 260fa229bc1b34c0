import Verif.Proofs.PartsSound
import Verif.Spec.Grown
import Verif.Spec.Scope
import Verif.Spec.Rewrite

/-!
# Specification: runs of the search in which no step does anything irregular at a point

`RunOk O n ρ A ν old t`: at the point `ρ`, where the symbols `A` are in scope, the steps in the tree `t` that lead to solved leaves
keep to the side conditions of calculus and to principal branches. These are conditions on the integrands and on the calls of
`replace`, `diff` etc. that the steps make. For a rewriting step (`RewriteOk`, of which there are eight) it is also enough that the new
integrand is defined and equal to the old one *at this point*.
-/

namespace Simpy
open Expr
namespace Node

/-- The point at which a child poses its problem. -/
noncomputable def pointOf (ρ : Str → ℝ) (c : Node) : Str → ℝ :=
  match c.tr.bind usubOf with
  | some q => pointAfter ρ c.var q
  | none => ρ

/-- The symbols in scope there; `v` is the variable of the parent. -/
def scopeIn (A : Str → Prop) (v : Str) (c : Node) : Str → Prop :=
  match c.tr.bind usubOf with
  | some _ => scopeAfter A v c.var
  | none => A

/-- The substitution `u = q` may be made: `diff(q)` is regular and does not vanish, and the old variable is gone from the new
integrand `g`. -/
def Changes (O : Oracle) (n : Nat) (ρ : Str → ℝ) (v : Str) (q g : Expr) : Prop :=
  DiffOk O ρ v n q ∧ deriv (fnOf ρ v q) (ρ v) ≠ 0 ∧ v ∉ syms g

/-- What is asked of the filler node `c` that ByParts makes of `e`: if it has a solution, then because the new integrand is a
constant multiple `f ≠ 1` of `e`, and otherwise its children are `u * v` and the new integrand (`add_child` may refuse it). -/
def FillerOk (O : Oracle) (n : Nat) (ρ : Str → ℝ) (ν : Supply) (old : List Expr) (v : Str) (e : Expr) (c : Node) : Prop :=
  ∀ C g f, PartsOf O n (ν.own 3) old v e C g f →
    (c.type = .solution → f.contains v = false ∧ den ρ e ≠ 0 ∧ den ρ f ≠ 1) ∧
    (c.type ≠ .solution → ∃ a d : Node, c.children = [a, d] ∧ a.sol = some C ∧ d.tr = some .additivity)

/-- What is asked of the step from the node `t` to its child `c`. -/
def StepOk (O : Oracle) (n : Nat) (ρ : Str → ℝ) (A : Str → Prop) (ν : Supply) (old : List Expr) (t c : Node) : Transf → Prop
  | .pullConstant _ => True
  | .additivity => isByParts t.tr = false → (∀ d ∈ t.children, d.tr = some .additivity) ∧ t.expr = sum (t.children.map expr)
  | .polynomialUSub q => Changes O n ρ t.var q c.expr ∧ RunTame O (replacePerf O q (sym c.var)) n t.expr = true
  | .genericUSub q => Changes O n ρ t.var q c.expr ∧ Regular ρ q ∧ ∀ d f, diffE O n t.var q = .ok d →
      opDiv (ctors O n) t.expr d = .ok f → RunTame O (replacePerf O q (sym c.var)) n f = true
  | .trigUSub2 q => (q = trig .sin (sym t.var) → 0 < Real.cos (ρ t.var)) ∧ (q = trig .cos (sym t.var) → 0 < Real.sin (ρ t.var)) ∧
      RunTame O (replacePerf O q (sym c.var)) n t.expr = true
  | .inverseTrigUSub q => Regular ρ q ∧ ∀ f, f = .sin ∧ q = trig .asin (sym t.var) ∨ f = .tan ∧ q = trig .atan (sym t.var) →
      RunTame O (replacePerf O (sym t.var) (trig f (sym c.var))) n t.expr = true
  | .linearUSub q => Changes O n ρ t.var q c.expr ∧
      (linCheck O n t.var t.expr (none, none) = .ok (true, some q, none) → RunTame O (replacePerf O q (sym c.var)) n t.expr = true) ∧
      ∀ ic w, linCheck O n t.var t.expr (none, none) = .ok (true, some q, some ic) → opDiv (ctors O n) (sym c.var) ic = .ok w →
        RunTame O (replacePerf O (sym t.var) w) n t.expr = true ∧ Regular ρ ic ∧ den ρ ic ≠ 0
  | .byParts => IntegOk ρ t.var A (withoutHeuristics O n (ν.own 3) t.var) t.expr ∧
      (∀ s, s = t.expr ∨ s ∈ Expr.children t.expr → DiffOk O ρ t.var n s) ∧ FillerOk O n ρ ν old t.var t.expr c
  | tr => RewriteOk O n ρ t.var tr t.expr c.expr

/-- What is asked of the second of two integrations by parts in a row, at the node `m`, if it comes back to a multiple of the
integrand `e` of the first, of which `C = u * v`. The constant `k` has been pulled in between, and `a` is the filler node in which
the first has stored its `u * v`: nothing else at `m` leads to a solution, the new integrand `g'` is `s * e` with a constant `s` such
that `f = k * s` is not 1, and the solutions stored are both divided by `1 - f`. -/
def SecondOk (O : Oracle) (n : Nat) (ρ : Str → ℝ) (A : Str → Prop) (ν : Supply) (old : List Expr) (e C k : Expr) (a m : Node) : Prop :=
  m.type ≠ .solution ∧ (∀ b ∈ m.children, b.solvedLeaves ≠ [] → b.tr = some .byParts ∧ b.type = .solution) ∧
  IntegOk ρ m.var A (withoutHeuristics O n (ν.own 3) m.var) m.expr ∧
  (∀ s, s = m.expr ∨ s ∈ Expr.children m.expr → DiffOk O ρ m.var n s) ∧
  ∀ C' g' f', PartsOf O n (ν.own 3) old m.var m.expr C' g' f' → ∃ s f, opDiv (ctors O n) g' e = .ok s ∧ s.contains m.var = false ∧
    opMul (ctors O n) k s = .ok f ∧ den ρ f ≠ 1 ∧ (∃ r, a.sol = some r ∧ byPartsSolution (ctors O n) C f = .ok r) ∧
    ∀ b ∈ m.children, b.tr = some .byParts → ∃ r, b.sol = some r ∧ byPartsSolution (ctors O n) C' f = .ok r

/-- What is asked of the child number `i`, `c`, of `t` if it begins two integrations by parts in a row that come back to `t.expr`. -/
def TwiceOk (O : Oracle) (n : Nat) (ρ : Str → ℝ) (A : Str → Prop) (ν : Supply) (old : List Expr) (t : Node) (i : Nat) (c : Node) : Prop :=
  c.tr = some .byParts ∧ c.type ≠ .solution ∧ den ρ t.expr ≠ 0 ∧ IntegOk ρ t.var A (withoutHeuristics O n (ν.own 3) t.var) t.expr ∧
  (∀ s, s = t.expr ∨ s ∈ Expr.children t.expr → DiffOk O ρ t.var n s) ∧
  ∃ a d : Node, c.children = [a, d] ∧ d.tr = some .additivity ∧ d.solvedLeaves ≠ [] ∧
  ∀ C g f, PartsOf O n (ν.own 3) old t.var t.expr C g f →
    SecondOk O n ρ A ((ν.child i).child 1) (oldOf d (oldOf c old)) t.expr C (rat 1) a d ∨
    ∃ k m, d.children = [m] ∧ m.tr = some (.pullConstant k) ∧
      SecondOk O n ρ A (((ν.child i).child 1).child 0) (oldOf m (oldOf d (oldOf c old))) t.expr C k a m

/-- The steps of the tree that lead to solved leaves are regular: each is as `StepOk` asks, and so on below, or begins two
integrations by parts as in `TwiceOk`. -/
inductive RunOk (O : Oracle) (n : Nat) : (Str → ℝ) → (Str → Prop) → Supply → List Expr → Node → Prop
  | mk {ρ : Str → ℝ} {A : Str → Prop} {ν : Supply} {old : List Expr} {t : Node} :
      (t.type = .solution → t.filler = false → TableOk ρ t.var t.expr) →
      (∀ (i : Nat) (c : Node) (tr : Transf), t.children[i]? = some c → c.solvedLeaves ≠ [] → c.tr = some tr →
        ¬TwiceOk O n ρ A ν old t i c → StepOk O n ρ A ν old t c tr) →
      (∀ (i : Nat) (c : Node), t.children[i]? = some c → c.solvedLeaves ≠ [] →
        ¬TwiceOk O n ρ A ν old t i c → RunOk O n (pointOf ρ c) (scopeIn A t.var c) (ν.child i) (oldOf c old) c) → RunOk O n ρ A ν old t

end Node
end Simpy
