import Verif.Props.Definite
import Verif.Props.Bounded
import Verif.Model.Engine

/-!
# C100: definite integrals of one integrand fit together

`integrateTop O n ν bf k e (.full v a b)` is `integrate(e, (v, a, b))`. `F` is the antiderivative that the search finds; it need not be right, and
the integrand may have poles between the bounds.
-/

namespace Simpy
open Expr

variable {O : Oracle} {n k : Nat} {ν : Supply} {bf : Bool} {v t : Str} {e F a b c p q r : Expr} {ρ : Str → ℝ}

/-- A bound at which the antiderivative is defined: built from numbers, symbols, `+`, `*`, integer powers and `|·|`. -/
structure GoodBound (O : Oracle) (ρ : Str → ℝ) (v : Str) (F a : Expr) : Prop where
  built : Built O a
  alg : Alg a
  dom : DomR ρ a
  reach : DomR (Function.update ρ v (den ρ a)) F

theorem full_value (hO : O.Exact) (hi : Node.integrate O n ν bf k false v e = .ok (some F)) (hF : Built O F) (pF : Alg F)
    (ha : GoodBound O ρ v F a) (hb : GoodBound O ρ v F b) (h : integrateTop O n ν bf k e (.full v a b) = .ok (some r)) :
    den ρ r = fnOf ρ v F (den ρ b) - fnOf ρ v F (den ρ a) := by
  simp only [integrateTop, integrateBounds, hi] at h
  obtain ⟨u, hu, h⟩ := bind_ok.1 h
  cases hu
  obtain ⟨u, hu, h⟩ := bind_ok.1 h
  cases pure_ok.1 h
  exact (definite_value hO n hF ha.built hb.built pF ha.alg hb.alg ha.dom hb.dom ha.reach hb.reach hu).1

/-- **C100** The integral over an interval of length 0 is 0. -/
theorem bounds_equal (hO : O.Exact) (hi : Node.integrate O n ν bf k false v e = .ok (some F)) (hF : Built O F) (pF : Alg F)
    (ha : GoodBound O ρ v F a) (hb : GoodBound O ρ v F b) (hab : den ρ a = den ρ b)
    (h : integrateTop O n ν bf k e (.full v a b) = .ok (some r)) : den ρ r = 0 := by
  rw [full_value hO hi hF pF ha hb h, hab, sub_self]

/-- **C100** Exchanging the bounds changes the sign. -/
theorem bounds_exchanged (hO : O.Exact) (hi : Node.integrate O n ν bf k false v e = .ok (some F)) (hF : Built O F) (pF : Alg F)
    (ha : GoodBound O ρ v F a) (hb : GoodBound O ρ v F b) (h1 : integrateTop O n ν bf k e (.full v a b) = .ok (some p))
    (h2 : integrateTop O n ν bf k e (.full v b a) = .ok (some q)) : den ρ q = -den ρ p := by
  rw [full_value hO hi hF pF ha hb h1, full_value hO hi hF pF hb ha h2, neg_sub]

/-- **C100** The integrals from `a` to `b` and from `b` to `c` add up to that from `a` to `c`, wherever `b` is. -/
theorem bounds_joined (hO : O.Exact) (hi : Node.integrate O n ν bf k false v e = .ok (some F)) (hF : Built O F) (pF : Alg F)
    (ha : GoodBound O ρ v F a) (hb : GoodBound O ρ v F b) (hc : GoodBound O ρ v F c)
    (h1 : integrateTop O n ν bf k e (.full v a b) = .ok (some p)) (h2 : integrateTop O n ν bf k e (.full v b c) = .ok (some q))
    (h3 : integrateTop O n ν bf k e (.full v a c) = .ok (some r)) : den ρ p + den ρ q = den ρ r := by
  rw [full_value hO hi hF pF ha hb h1, full_value hO hi hF pF hb hc h2, full_value hO hi hF pF ha hc h3]
  ring

/-- **C100** If an antiderivative is found, then the call either gives an answer or fails with an exception: it does not give up. -/
theorem bounds_found (hi : Node.integrate O n ν bf k false v e = .ok (some F)) : integrateTop O n ν bf k e (.full v a b) ≠ .ok none := by
  simp only [integrateTop, integrateBounds, hi]
  intro h
  obtain ⟨u, hu, h⟩ := bind_ok.1 h
  cases hu
  obtain ⟨u, hu, h⟩ := bind_ok.1 h
  cases pure_ok.1 h

/-- **C100** Whether an antiderivative is found does not depend on the bounds. -/
theorem bounds_given_up {a' b' : Expr} (h : integrateTop O n ν bf k e (.full v a b) = .ok none) :
    integrateTop O n ν bf k e (.full v a' b') = .ok none := by
  simp only [integrateTop, integrateBounds] at h ⊢
  obtain ⟨u, hu, h⟩ := bind_ok.1 h
  cases u with
  | none => rw [hu]; rfl
  | some F =>
    obtain ⟨u, hu, h⟩ := bind_ok.1 h
    cases pure_ok.1 h

mutual
/-- Whether a value is defined depends only on the symbols that occur. -/
theorem DomR_congr {ρ ρ' : Str → ℝ} : ∀ e : Expr, (∀ s ∈ syms e, ρ s = ρ' s) → DomR ρ e → DomR ρ' e := by
  intro e h hd
  cases e <;> simp only [DomR] at hd ⊢
  · exact DomRL_congr _ (by simpa [syms] using h) hd
  · exact DomRL_congr _ (by simpa [syms] using h) hd
  · rename_i b x
    have hb : ∀ s ∈ syms b, ρ s = ρ' s := fun s hs => h s (by simp [syms, hs])
    have hx : ∀ s ∈ syms x, ρ s = ρ' s := fun s hs => h s (by simp [syms, hs])
    rw [← den_congr _ hb, ← den_congr _ hx]
    exact ⟨DomR_congr _ hb hd.1, DomR_congr _ hx hd.2.1, hd.2.2⟩
  · rename_i i b
    have hi : ∀ s ∈ syms i, ρ s = ρ' s := fun s hs => h s (by simp [syms, hs])
    have hb : ∀ s ∈ syms b, ρ s = ρ' s := fun s hs => h s (by simp [syms, hs])
    rw [← den_congr _ hb, ← den_congr _ hi]
    exact ⟨DomR_congr _ hi hd.1, DomR_congr _ hb hd.2.1, hd.2.2⟩
  · rw [← den_congr _ (by simpa [syms] using h)]
    exact ⟨DomR_congr _ (by simpa [syms] using h) hd.1, hd.2⟩
  · exact DomR_congr _ (by simpa [syms] using h) hd
theorem DomRL_congr {ρ ρ' : Str → ℝ} : ∀ ts : List Expr, (∀ s ∈ symsL ts, ρ s = ρ' s) → DomRL ρ ts → DomRL ρ' ts := by
  intro ts h hd
  cases ts with
  | nil => trivial
  | cons t r =>
    simp only [DomRL] at hd ⊢
    exact ⟨DomR_congr t (fun s hs => h s (by simp [symsL, hs])) hd.1, DomRL_congr r (fun s hs => h s (by simp [symsL, hs])) hd.2⟩
end

/-- With a symbol that occurs neither in the antiderivative nor in the other bound as a bound: both bounds are good, and have these values. -/
theorem moved_good (hi : t ∉ syms F) (hv : t ≠ v) (hta : t ∉ syms a) (ha : GoodBound O ρ v F a) {s : ℝ} (hs : DomR (Function.update ρ v s) F) :
    GoodBound O (Function.update ρ t s) v F a ∧ GoodBound O (Function.update ρ t s) v F (sym t) ∧
      fnOf (Function.update ρ t s) v F (den (Function.update ρ t s) a) = fnOf ρ v F (den ρ a) ∧
      fnOf (Function.update ρ t s) v F (den (Function.update ρ t s) (sym t)) = fnOf ρ v F s := by
  have hne : ∀ {u : Expr}, t ∉ syms u → ∀ x ∈ syms u, ρ x = Function.update ρ t s x := fun hu x hx => by
    rw [Function.update_of_ne]; rintro rfl; exact hu hx
  have hneF : ∀ q : ℝ, ∀ x ∈ syms F, Function.update ρ v q x = Function.update (Function.update ρ t s) v q x := fun q x hx => by
    by_cases hxv : x = v
    · subst hxv; simp
    · rw [Function.update_of_ne hxv, Function.update_of_ne hxv]; exact hne hi x hx
  have hsame : ∀ q : ℝ, fnOf (Function.update ρ t s) v F q = fnOf ρ v F q := fun q => (den_congr F (hneF q)).symm
  have hden : den (Function.update ρ t s) a = den ρ a := (den_congr a (hne hta)).symm
  have hds : den (Function.update ρ t s) (sym t) = s := by simp [den]
  refine ⟨⟨ha.built, ha.alg, DomR_congr a (hne hta) ha.dom, by rw [hden]; exact DomR_congr F (hneF _) ha.reach⟩,
    ⟨Built.sym t, ⟨rfl, rfl, rfl, rfl⟩, by simp [DomR], by rw [hds]; exact DomR_congr F (hneF _) hs⟩, ?_, ?_⟩
  · rw [hden, hsame]
  · rw [hds, hsame]

/-- **C100** The fundamental theorem of calculus: with a symbol `t` as the upper bound, the derivative of the answer by `t` is the integrand at `t`,
wherever the antiderivative is right. -/
theorem bound_moved (hO : O.Exact) (hi : Node.integrate O n ν bf k false v e = .ok (some F)) (hF : Built O F) (pF : Alg F)
    (hv : t ≠ v) (htF : t ∉ syms F) (hta : t ∉ syms a) (ha : GoodBound O ρ v F a) {z : ℝ}
    (hz : ∀ᶠ s in nhds z, DomR (Function.update ρ v s) F) (hd : HasDerivAt (fnOf ρ v F) (fnOf ρ v e z) z)
    (h : integrateTop O n ν bf k e (.full v a (sym t)) = .ok (some r)) : HasDerivAt (fnOf ρ t r) (fnOf ρ v e z) z := by
  refine (hd.sub_const (fnOf ρ v F (den ρ a))).congr_of_eventuallyEq (hz.mono fun s hs => ?_)
  obtain ⟨g1, g2, h1, h2⟩ := moved_good htF hv hta ha hs
  have := full_value hO hi hF pF g1 g2 h
  rwa [h1, h2] at this

/-- **C100** With `t` as the lower bound, it is minus the integrand. -/
theorem bound_moved_below (hO : O.Exact) (hi : Node.integrate O n ν bf k false v e = .ok (some F)) (hF : Built O F) (pF : Alg F)
    (hv : t ≠ v) (htF : t ∉ syms F) (hta : t ∉ syms a) (ha : GoodBound O ρ v F a) {z : ℝ}
    (hz : ∀ᶠ s in nhds z, DomR (Function.update ρ v s) F) (hd : HasDerivAt (fnOf ρ v F) (fnOf ρ v e z) z)
    (h : integrateTop O n ν bf k e (.full v (sym t) a) = .ok (some r)) : HasDerivAt (fnOf ρ t r) (-fnOf ρ v e z) z := by
  refine (hd.const_sub (fnOf ρ v F (den ρ a))).congr_of_eventuallyEq (hz.mono fun s hs => ?_)
  obtain ⟨g1, g2, h1, h2⟩ := moved_good htF hv hta ha hs
  have := full_value hO hi hF pF g2 g1 h
  rwa [h1, h2] at this

section
set_option maxRecDepth 10000
private abbrev x : Expr := sym ['x']
private abbrev y : Expr := sym ['y']
private abbrev sq : Expr := pow x (rat 2)
private abbrev cube : Expr := prod [rat (1 / 3), pow x (rat 3)]

/-- The integral of `x**2` from 0 to `y`, from `y` to 3 and from 0 to 3: the hypotheses hold. -/
example (ρ : Str → ℝ) : Node.integrate exactOracle 25 (fun _ => ['u']) false 3 false ['x'] sq = .ok (some cube) ∧ Built exactOracle cube ∧ Alg cube ∧
    GoodBound exactOracle ρ ['x'] cube (rat 0) ∧ GoodBound exactOracle ρ ['x'] cube y ∧ GoodBound exactOracle ρ ['x'] cube (rat 3) ∧
    integrateTop exactOracle 25 (fun _ => ['u']) false 3 sq (.full ['x'] (rat 0) y) = .ok (some (prod [rat (1 / 3), pow y (rat 3)])) ∧
    integrateTop exactOracle 25 (fun _ => ['u']) false 3 sq (.full ['x'] y (rat 3)) = .ok (some (sum [prod [rat (-1 / 3), pow y (rat 3)], rat 9])) ∧
    integrateTop exactOracle 25 (fun _ => ['u']) false 3 sq (.full ['x'] (rat 0) (rat 3)) = .ok (some (rat 9)) := by
  have good : ∀ b, Built exactOracle b → Alg b → DomR ρ b → GoodBound exactOracle ρ ['x'] cube b := fun b h1 h2 h3 =>
    ⟨h1, h2, h3, by simp [DomR, DomRL, intExp]⟩
  refine ⟨by decide +kernel, built_of_self (by decide +kernel), ⟨by decide +kernel, by decide +kernel, by decide +kernel, by decide +kernel⟩,
    good _ (built_of_self (by decide +kernel)) ⟨by decide +kernel, by decide +kernel, by decide +kernel, by decide +kernel⟩ (by simp [DomR]),
    good _ (built_of_self (by decide +kernel)) ⟨by decide +kernel, by decide +kernel, by decide +kernel, by decide +kernel⟩ (by simp [DomR]),
    good _ (built_of_self (by decide +kernel)) ⟨by decide +kernel, by decide +kernel, by decide +kernel, by decide +kernel⟩ (by simp [DomR]),
    by decide +kernel, by decide +kernel, by decide +kernel⟩

/-- The derivative by `y` of the integral of `x**2` from 0 to `y` is `y**2`. -/
example (ρ : Str → ℝ) (z : ℝ) : HasDerivAt (fnOf ρ ['y'] (prod [rat (1 / 3), pow y (rat 3)])) (z ^ 2) z := by
  have hF : fnOf ρ ['x'] cube = fun t => (1 / 3 : ℝ) * t ^ 3 := by
    funext t
    have := Lin.fn_power (v := ['x']) (c := 1 / 3) (m := 3) (by norm_num) ρ t
    unfold Lin.powTerm Lin.varPow scale at this
    norm_num at this ⊢
    exact this
  have he : fnOf ρ ['x'] sq z = z ^ 2 := by
    have := pw_int z 2
    simp only [fnOf, den, Function.update_self]
    exact_mod_cast this
  have h := bound_moved (O := exactOracle) (n := 25) (k := 3) (bf := false) (v := ['x']) (e := sq) (F := cube) (a := rat 0) (ν := fun _ => ['u']) (t := ['y'])
    (r := prod [rat (1 / 3), pow y (rat 3)]) (ρ := ρ) (z := z) exactOracle_exact (by decide +kernel) (built_of_self (by decide +kernel))
    ⟨by decide +kernel, by decide +kernel, by decide +kernel, by decide +kernel⟩ (by decide) (by decide +kernel) (by decide +kernel)
    ⟨built_of_self (by decide +kernel), ⟨by decide +kernel, by decide +kernel, by decide +kernel, by decide +kernel⟩, by simp [DomR],
      by simp [DomR, DomRL, intExp]⟩ (.of_forall fun s => by simp [DomR, DomRL, intExp])
    (by rw [hF, he]; exact ((hasDerivAt_pow 3 z).const_mul (1 / 3 : ℝ)).congr_deriv (by norm_num; ring)) (by decide +kernel)
  rwa [he] at h
end

/-- `x**x` between 0 and 1: the search ends without an antiderivative, and the call gives up. -/
example : ∃ e, integrateTop exactOracle 25 (fun _ => ['u']) false 3 e (.full ['x'] (rat 0) (rat 1)) = .ok none := by
  refine ⟨pow (sym ['x']) (sym ['x']), ?_⟩
  set_option maxRecDepth 10000 in decide +kernel

end Simpy
