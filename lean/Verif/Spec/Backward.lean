import Verif.Model.Backward
import Verif.Spec.Integral
import Verif.Spec.Replace

/-!
# Specification: what it means for the backward steps of a tree to be sound

`P p S` is to be read "`S` is a correct solution of the problem posed by the node at the path `p`".
-/

namespace Simpy
open Expr
namespace Node

/-- Every solution that the tree already stores is correct. -/
def SolsOk (P : List Nat → Expr → Prop) (t : Node) : Prop :=
  ∀ p N S, at? p t = some N → N.sol = some S → P p S

/-- The substituted expression of a u-substitution. -/
def usubOf : Transf → Option Expr
  | .trigUSub2 q | .inverseTrigUSub q | .polynomialUSub q | .linearUSub q | .genericUSub q => some q
  | _ => none

/-- The backward step of the transform `tr` that led from the node at `p` to its child number `i` (with variable `u`), one of
`k` children, is sound: from correct solutions of the children it makes a correct solution. For a u-substitution this may
depend on the substitution being `Safe`. -/
def StepSound (O : Oracle) (n : Nat) (Safe : Str → Expr → Expr → Prop) (P : List Nat → Expr → Prop) (p : List Nat)
    (i k : Nat) (u : Str) (tr : Transf) : Prop :=
  match tr with
  | .additivity => ∀ ss r, ss.length = k → (∀ j S, ss[j]? = some S → P (p ++ [j]) S) → (ctors O n).sum ss = .ok r → P p r
  | tr => ∀ S r, P (p ++ [i]) S → (∀ q, usubOf tr = some q → Safe u q S) → backStep O n tr u S = .ok r → P p r

/-- The backward steps of the tree are sound, at least those from the nodes at the paths in `W`. -/
def StepsSound (O : Oracle) (n : Nat) (Safe : Str → Expr → Expr → Prop) (P : List Nat → Expr → Prop) (W : List Nat → Prop)
    (t : Node) : Prop :=
  ∀ p N i c tr, at? p t = some N → N.children[i]? = some c → c.tr = some tr → W (p ++ [i]) →
    StepSound O n Safe P p i N.children.length c.var tr

/-- The node at the path `p` is a solved leaf or has one below it. -/
def Used (t : Node) (p : List Nat) : Prop := ∃ q ∈ t.solvedLeaves, p <+: q

/-- The problem posed by a node at a point: find an `S` without forbidden symbols that, as a function of `v`, is regular at
`ρ` and has the derivative `τ` there. For an ordinary node `τ` is the value of its integrand; the filler nodes of ByParts store
parts of a solution, so the problem they pose is not their integrand. -/
structure Goal where
  ρ : Str → ℝ
  v : Str
  τ : ℝ
  allowed : Str → Prop

/-- `S` solves the problem. -/
def Goal.Solves (g : Goal) (S : Expr) : Prop := SolAt g.ρ g.v S g.τ ∧ ∀ s ∈ syms S, g.allowed s

/-- The transform that led from a node to its child number `i` of `k` reduces the problem `g` of the node to the problems `h j`
of the children.
- Additivity: the derivatives add up;
- PullConstant: a factor `c` free of `v`;
- u-substitution `u = q`: the child's problem is posed at the point where `u` has the value of `q`, in the variable `u`, its
  solution must not contain `v`, and the derivatives are related by the chain rule;
- all others (rewritings, and ByParts whose product rule is an Additivity of two filler children): the same problem. -/
def Reduces (g : Goal) (h : Nat → Goal) (i k : Nat) (tr : Transf) : Prop :=
  match tr with
  | .additivity => (∀ j < k, (h j).ρ = g.ρ ∧ (h j).v = g.v ∧ ∀ s, (h j).allowed s → g.allowed s) ∧
      g.τ = ((List.range k).map fun j => (h j).τ).sum
  | .pullConstant c => WF c ∧ Regular g.ρ c ∧ g.v ∉ syms c ∧ (∀ s ∈ syms c, g.allowed s) ∧
      (h i).ρ = g.ρ ∧ (h i).v = g.v ∧ (∀ s, (h i).allowed s → g.allowed s) ∧ g.τ = den g.ρ c * (h i).τ
  | .trigUSub2 q | .inverseTrigUSub q | .polynomialUSub q | .linearUSub q | .genericUSub q =>
      WF q ∧ Regular g.ρ q ∧ (∀ s ∈ syms q, g.allowed s) ∧ (h i).ρ = Function.update g.ρ (h i).v (den g.ρ q) ∧
      ¬(h i).allowed g.v ∧ (∀ s, (h i).allowed s → s = (h i).v ∨ g.allowed s) ∧
      ∃ q', HasDerivAt (fnOf g.ρ g.v q) q' (g.ρ g.v) ∧ g.τ = (h i).τ * q'
  | _ => (h i).ρ = g.ρ ∧ (h i).v = g.v ∧ (∀ s, (h i).allowed s → g.allowed s) ∧ g.τ = (h i).τ

/-- `G` assigns a problem to every node of the tree so that each transform on the way to a solved leaf reduces the problem of
the node to those of its children. -/
def Faithful (G : List Nat → Goal) (t : Node) : Prop :=
  ∀ p N i c tr, at? p t = some N → N.children[i]? = some c → c.tr = some tr → t.Used (p ++ [i]) →
    c.var = (G (p ++ [i])).v ∧ Reduces (G p) (fun j => G (p ++ [j])) i N.children.length tr

end Node
end Simpy
