import Verif.Proofs.Total
import Verif.Proofs.PowSound2
import Verif.Proofs.EngineCtl
import Verif.Spec.Transforms
import Mathlib.Analysis.Calculus.Deriv.Pow
import Mathlib.Analysis.Calculus.Deriv.Mul
import Mathlib.Analysis.Calculus.Deriv.Add

/-! # Lemmas: the run of `integrate` on a polynomial -/

namespace Simpy
open Expr

variable {O : Oracle} {v : Str} {u t e : Expr}

/-! ## The table -/

theorem pow_var (m : Nat) {k : Nat} (hk : 2 ≤ k) : (ctors O (m + 1)).pow (sym v) (rat k) = .ok (pow (sym v) (rat k)) := by
  show powCtor O (ctors O m) (sym v) (rat k) = _
  have h0 : ¬ ((k : ℚ) = 0) := by exact_mod_cast (by omega : k ≠ 0)
  have h1 : ¬ ((k : ℚ) = 1) := by exact_mod_cast (by omega : k ≠ 1)
  simp [powCtor, beq, h0, h1, Expr.isAcc, powLog, powTail, isSubtraction, powInf]
  omega

/-- A solution of one term: a monomial with the right derivative. -/
structure Solves (v : Str) (t F : Expr) : Prop where
  mono : Monomial v F
  deriv : ∀ ρ : Str → ℝ, HasDerivAt (fnOf ρ v F) (den ρ t) (ρ v)

theorem den_scale (ρ : Str → ℝ) (a : ℚ) (u : Expr) : den ρ (scale a u) = a * den ρ u := by
  unfold scale
  split
  · rename_i h; simp [h, den]
  · split
    · rename_i h; simp [h]
    · simp [den, denP]

theorem fnOf_scale (ρ : Str → ℝ) (a : ℚ) (u : Expr) : fnOf ρ v (scale a u) = fun t => (a : ℝ) * fnOf ρ v u t := by
  funext t; simp [fnOf, den_scale]

theorem fnOf_sym (ρ : Str → ℝ) : fnOf ρ v (sym v) = fun t => t := by funext t; simp [fnOf, den]

theorem pw_natPow (x : ℝ) (k : Nat) : pw x (k : ℝ) = x ^ k := by
  have := pw_int x (k : ℤ)
  simpa using this

theorem fnOf_pow (ρ : Str → ℝ) (k : Nat) : fnOf ρ v (pow (sym v) (rat k)) = fun t => t ^ k := by
  funext t
  have := pw_natPow t k
  simp [fnOf, den, this]

theorem table_const (n : Nat) (c : ℚ) : checkTable O (n + 2) v (rat c) = .ok (some (scale c (sym v))) := by
  have : (ctors O (n + 2)).prod [rat c, sym v] = .ok (scale c (sym v)) := prod_rat_unit .var c
  simp [checkTable, Expr.contains, opMul, this, bind, Except.bind, pure, Except.pure]

theorem solves_const (c : ℚ) : Solves v (rat c) (scale c (sym v)) where
  mono := scale_mono .var c
  deriv ρ := by
    rw [fnOf_scale, fnOf_sym]
    simpa [den] using HasDerivAt.const_mul (c : ℝ) (hasDerivAt_id (ρ v))

theorem table_unit (h : VarPower v u) (n : Nat) : ∃ (q : ℚ) (w : Expr), VarPower v w ∧ q ≠ 0 ∧ q ≠ 1 ∧
    checkTable O (n + 2) v u = .ok (some (prod [rat q, w])) ∧
    ∀ (c : ℚ), Solves v (prod [rat c, u]) (scale (c * q) w) ∧ Solves v u (prod [rat q, w]) := by
  cases h with
  | var =>
    have hp : (ctors O (n + 2)).pow (sym v) (rat 2) = .ok (pow (sym v) (rat 2)) := by
      have := pow_var (O := O) (v := v) (n + 1) (k := 2) le_rfl
      simpa using this
    have hw : VarPower v (pow (sym v) (rat 2)) := by simpa using VarPower.power (v := v) 2 le_rfl
    have hm : (ctors O (n + 2)).prod [rat (1 / 2), pow (sym v) (rat 2)] = .ok (scale (1 / 2) (pow (sym v) (rat 2))) :=
      prod_rat_unit hw _
    have hs : scale (1 / 2) (pow (sym v) (rat 2)) = prod [rat (1 / 2), pow (sym v) (rat 2)] := by
      unfold scale; norm_num
    rw [hs] at hm
    refine ⟨1 / 2, _, hw, by norm_num, by norm_num, ?_, fun c => ⟨⟨scale_mono hw _, fun ρ => ?_⟩, ⟨.scaled _ hw, fun ρ => ?_⟩⟩⟩
    · simp only [checkTable, Expr.contains, tablePower, opMul, hp, hm, bind, Except.bind, pure, Except.pure, beq_self_eq_true,
        Bool.not_true, Bool.false_eq_true, if_false, if_true]
    · rw [fnOf_scale]
      have := fnOf_pow (v := v) ρ 2
      norm_num at this
      rw [this]
      have hd := (hasDerivAt_pow 2 (ρ v)).const_mul (((c * (1 / 2) : ℚ) : ℝ))
      refine hd.congr_deriv ?_
      simp [den, denP]
      ring
    · rw [← hs, fnOf_scale]
      have := fnOf_pow (v := v) ρ 2
      norm_num at this
      rw [this]
      have hd := (hasDerivAt_pow 2 (ρ v)).const_mul ((((1 / 2) : ℚ) : ℝ))
      refine hd.congr_deriv ?_
      simp [den]
  | power k hk =>
    have hk1 : ((k : ℚ) + 1) = ((k + 1 : ℕ) : ℚ) := by push_cast; ring
    have hp : (ctors O (n + 2)).pow (sym v) (rat ((k : ℚ) + 1)) = .ok (pow (sym v) (rat ((k : ℚ) + 1))) := by
      rw [hk1]; exact pow_var (O := O) (v := v) (n + 1) (k := k + 1) (by omega)
    have hw : VarPower v (pow (sym v) (rat ((k : ℚ) + 1))) := by
      rw [hk1]; exact VarPower.power (v := v) (k + 1) (by omega)
    have hm : (ctors O (n + 2)).prod [rat (1 / ((k : ℚ) + 1)), pow (sym v) (rat ((k : ℚ) + 1))] =
        .ok (scale (1 / ((k : ℚ) + 1)) (pow (sym v) (rat ((k : ℚ) + 1)))) := prod_rat_unit hw _
    have hk0 : (0 : ℚ) < k := by exact_mod_cast (by omega : 0 < k)
    have hkp : ((k : ℚ) + 1) ≠ 0 := by linarith
    have hq0 : 1 / ((k : ℚ) + 1) ≠ 0 := by positivity
    have hq1 : 1 / ((k : ℚ) + 1) ≠ 1 := by
      intro hq
      rw [div_eq_one_iff_eq hkp] at hq
      linarith
    have hs : scale (1 / ((k : ℚ) + 1)) (pow (sym v) (rat ((k : ℚ) + 1))) =
        prod [rat (1 / ((k : ℚ) + 1)), pow (sym v) (rat ((k : ℚ) + 1))] := by
      unfold scale; simp only [hq0, hq1, if_false]
    rw [hs] at hm
    have hkr : ((k : ℝ) + 1) ≠ 0 := by positivity
    have hneg : ¬ ((k : ℚ) = -1) := by intro h; linarith
    refine ⟨1 / ((k : ℚ) + 1), _, hw, hq0, hq1, ?_, fun c => ⟨⟨scale_mono hw _, fun ρ => ?_⟩, ⟨.scaled _ hw, fun ρ => ?_⟩⟩⟩
    · have hd : opDiv (ctors O (n + 2)) (rat 1) (rat ((k : ℚ) + 1)) = .ok (rat (1 / ((k : ℚ) + 1))) := by
        unfold opDiv; simp only [ne_eq, hkp, not_false_eq_true, if_true]
      have ha : opAdd (ctors O (n + 2)) (rat (k : ℚ)) (rat 1) = .ok (rat ((k : ℚ) + 1)) := rfl
      have hmul : opMul (ctors O (n + 2)) (rat (1 / ((k : ℚ) + 1))) (pow (sym v) (rat ((k : ℚ) + 1))) =
          .ok (prod [rat (1 / ((k : ℚ) + 1)), pow (sym v) (rat ((k : ℚ) + 1))]) := hm
      simp only [checkTable, Expr.contains, tablePower, hp, hd, ha, hmul, bind, Except.bind, pure, Except.pure, beq_self_eq_true,
        Bool.true_or, beq, hneg, beq_iff_eq, Bool.and_true,
        Bool.not_true, Bool.not_false, Bool.false_eq_true, if_false, if_true]
    · rw [fnOf_scale]
      have := fnOf_pow (v := v) ρ (k + 1)
      rw [← hk1] at this
      rw [this]
      have hd := (hasDerivAt_pow (k + 1) (ρ v)).const_mul (((c * (1 / ((k : ℚ) + 1)) : ℚ) : ℝ))
      refine hd.congr_deriv ?_
      have := pw_natPow (ρ v) k
      simp [den, denP, this]
      field_simp
    · rw [← hs, fnOf_scale]
      have := fnOf_pow (v := v) ρ (k + 1)
      rw [← hk1] at this
      rw [this]
      have hd := (hasDerivAt_pow (k + 1) (ρ v)).const_mul (((1 / ((k : ℚ) + 1) : ℚ) : ℝ))
      refine hd.congr_deriv ?_
      have := pw_natPow (ρ v) k
      simp [den, this]
      field_simp

/-! ## Nothing to expand or to simplify -/

theorem expandable_unit (h : VarPower v u) (n : Nat) : expandableE O (n + 2) u = .ok false := by
  cases h <;> simp [expandableE, powerExpandable, bind, Except.bind, pure, Except.pure]

theorem expandable_mono (h : Monomial v t) (n : Nat) : expandableE O (n + 3) t = .ok false := by
  cases h with
  | const c => rfl
  | unit h => exact expandable_unit h (n + 1)
  | scaled c h =>
    have hr : expandableE O (n + 2) (rat c) = .ok false := rfl
    have hrs : (rat c).isSum = false := rfl
    obtain ⟨p, q, hpq, _, hq⟩ := numDen_unit (O := O) (C := ctors O (n + 2)) h c
    rw [expandableE]
    simp only [anyR, hrs, h.isSum, Bool.false_eq_true, if_false, hr, expandable_unit h n, bind, Except.bind, pure, Except.pure, hpq]
    rcases hq with ⟨_, rfl⟩ | rfl <;> rfl

theorem expandable_poly (h : IsPolynomial v e) (n : Nat) : expandableE O (n + 4) e = .ok false := by
  rcases h with h | ⟨ts, rfl, _, h⟩
  · exact expandable_mono h (n + 1)
  · rw [expandableE]
    induction ts with
    | nil => rfl
    | cons t r ih =>
      simp only [anyR, expandable_mono (O := O) (h t (by simp)) n, bind, Except.bind, Bool.false_eq_true, if_false]
      by_cases hr : r = []
      · subst hr; rfl
      · exact ih hr fun x hx => h x (by simp [hx])

theorem contains_mono {p : Expr → Bool} (hr : ∀ q, p (rat q) = false) (hs : p (sym v) = false) (hp : ∀ b x, p (pow b x) = false)
    (hm : ∀ ts, p (prod ts) = false) (h : Monomial v t) : containsCls p t = false := by
  have hu : ∀ {u}, VarPower v u → containsCls p u = false := by
    intro u h
    cases h <;> simp [containsCls, hs, hr, hp]
  cases h with
  | const c => simp [containsCls, hr]
  | unit h => exact hu h
  | scaled c h => simp [containsCls, containsClsL, hr, hm, hu h]

theorem contains_poly {p : Expr → Bool} (hr : ∀ q, p (rat q) = false) (hs : p (sym v) = false) (hp : ∀ b x, p (pow b x) = false)
    (hm : ∀ ts, p (prod ts) = false) (ha : ∀ ts, p (sum ts) = false) (h : IsPolynomial v e) : containsCls p e = false := by
  rcases h with h | ⟨ts, rfl, _, h⟩
  · exact contains_mono hr hs hp hm h
  · have : ∀ ts : List Expr, (∀ t ∈ ts, Monomial v t) → containsClsL p ts = false := by
      intro ts
      induction ts with
      | nil => intro _; rfl
      | cons t r ih =>
        intro h
        simp [containsClsL, contains_mono hr hs hp hm (h t (by simp)), ih fun x hx => h x (by simp [hx])]
    simp [containsCls, ha, this ts h]

theorem simplify_poly (h : IsPolynomial v e) (n : Nat) : simplifyE O (n + 4) e = .ok e := by
  have h1 : containsCls isPlainTrig e = false := contains_poly (fun _ => rfl) rfl (fun _ _ => rfl) (fun _ => rfl) (fun _ => rfl) h
  have h2 : containsCls isLog e = false := contains_poly (fun _ => rfl) rfl (fun _ _ => rfl) (fun _ => rfl) (fun _ => rfl) h
  simp [simplifyE, expandOr, expandable_poly h n, trigPart, logPart, h1, h2, bind, Except.bind, pure, Except.pure]

/-! ## The tree -/

namespace Node

variable {ν : Supply} {as : List Node} {tr : Option Transf} {ty : NType} {s : Option Expr} {f : Bool}

theorem linear_unit (h : VarPower v u) (n : Nat) (w : Str) : linearUSub O n v w u = .ok none := by
  have hc : linCheck O n v u (none, none) = .ok (false, (none, none)) := by
    cases h with
    | var => simp [linCheck, linPre, Expr.contains, linearShape, linVerdict, bind, Except.bind, pure, Except.pure]
    | power k hk => simp [linCheck, linPre, Expr.contains, linearShape, linVerdict, bind, Except.bind, pure, Except.pure]
  unfold linearUSub
  split
  · rfl
  · simp [hc, bind, Except.bind, pure, Except.pure]

theorem safePlan_rat (n : Nat) (c : ℚ) : safePlan O (n + 8) ν as (mk (rat c) v tr ty s f []) = .ok none := by
  have hl : linearUSub O (n + 8) v (ν.own 0 []) (rat c) = .ok none := rfl
  have he : expandT O (n + 8) (rat c) = .ok none := rfl
  simp only [safePlan, Node.expr, Node.var, additivityPlan, orElseR, pullConstant, partialFractions, polyDiv, hl, he, Except.map, planOpt]
  split <;> simp_all

theorem safePlan_unit (h : VarPower v u) (n : Nat) : safePlan O (n + 8) ν as (mk u v tr ty s f []) = .ok none := by
  have hl := linear_unit (O := O) h (n + 8) (ν.own 0 [])
  have he : expandT O (n + 8) u = .ok none := by
    simp [expandT, expandable_unit h (n + 6), bind, Except.bind, pure, Except.pure]
  have h1 : additivityPlan v u = .ok none := by cases h <;> rfl
  have h2 : pullConstant O (n + 8) v u = .ok none := by cases h <;> rfl
  have h3 : partialFractions O (n + 8) v u = .ok none := by cases h <;> rfl
  have h4 : polyDiv O (n + 8) (n + 8) v u = .ok none := by cases h <;> rfl
  simp only [safePlan, Node.expr, Node.var, h1, h2, h3, h4, orElseR, hl, he, Except.map, planOpt]
  split <;> simp_all

theorem prod_single (h : VarPower v u) (n : Nat) : (ctors O (n + 1)).prod [u] = .ok u := by
  show prodCtor O (ctors O n) [u] = _
  cases h <;> simp [prodCtor, flatPL, flatP, combineProd, combineProdLoop, deconPow, List.filter, Expr.isAcc, bind, Except.bind, pure, Except.pure]

theorem safePlan_scaled (h : VarPower v u) (n : Nat) (c : ℚ) :
    safePlan O (n + 8) ν as (mk (prod [rat c, u]) v tr ty s f []) = .ok (some { kids := [leaf u v (.pullConstant (rat c))] }) := by
  have h2 : pullConstant O (n + 8) v (prod [rat c, u]) = .ok (some (rat c, u)) := by
    simp [pullConstant, pullLoop, syms, prod_single h, bind, Except.bind, pure, Except.pure]
  simp only [safePlan, Node.expr, Node.var, additivityPlan, h2, orElseR, Except.map, planOpt]

theorem safely_none {n k : Nat} {t : Node} (hc : t.children = []) (h : safePlan O n ν as t = .ok none) :
    safely O n (k + 1) ν as t = .ok t := by
  cases t
  simp only [Node.children] at hc
  subst hc
  simp [safely, h, Plan.apply, addChildren, mapIdxR, Node.children, withChildren, bind, Except.bind, pure, Except.pure]

/-- No ancestor poses a problem whose expression is a power or a symbol. -/
def NoUnit (as : List Node) : Prop := ∀ a ∈ as, (∃ ts, a.expr = sum ts) ∨ ∃ ts, a.expr = prod ts

theorem refused_unit (h : VarPower v u) (ha : NoUnit as) (tr : Option Transf) : refused O as (mk u v tr .unset none false []) = false := by
  simp only [refused, Node.filler, Bool.not_false, Bool.true_and, List.any_eq_false]
  intro a hm
  rcases ha a hm with ⟨ts, e⟩ | ⟨ts, e⟩ <;> rw [e] <;> dsimp only [Node.expr, Node.var] <;> cases h <;> simp [eqWithVar, sameClass]

/-- The tree of a monomial, before the table is looked up. -/
def monoTree (v : Str) (tr : Option Transf) : Expr → Node
  | prod [a, u] => mk (prod [a, u]) v tr .unset none false [leaf u v (.pullConstant a)]
  | t => mk t v tr .unset none false []

theorem safely_mono (h : Monomial v t) (n k : Nat) (ha : NoUnit as) :
    safely O (n + 8) (k + 2) ν as (mk t v tr .unset none false []) = .ok (monoTree v tr t) := by
  cases h with
  | const c => exact safely_none rfl (safePlan_rat n c)
  | unit h =>
    have : monoTree v tr t = mk t v tr .unset none false [] := by cases h <;> rfl
    rw [this]
    exact safely_none rfl (safePlan_unit h n)
  | @scaled c u h =>
    have hr : refused O (mk (prod [rat c, u]) v tr .unset none false [] :: as) (leaf u v (.pullConstant (rat c))) = false :=
      refused_unit h (fun a hm => by
        rcases List.mem_cons.1 hm with rfl | hm
        · exact .inr ⟨_, rfl⟩
        · exact ha a hm) _
    rw [safely]
    have hs : ∀ (ν : Supply) (as : List Node), safely O (n + 8) (k + 1) ν as (leaf u v (.pullConstant (rat c))) = .ok (leaf u v (.pullConstant (rat c))) :=
      fun ν as => safely_none rfl (safePlan_unit h n)
    simp only [safePlan_scaled h n c, bind, Except.bind, Option.getD, Plan.apply, addChildren, addChild, hr, Bool.false_eq_true, if_false,
      List.nil_append, Node.children, mapIdxR, hs, pure, Except.pure, withChildren, monoTree]

end Node
end Simpy
