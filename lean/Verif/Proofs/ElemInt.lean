import Verif.Proofs.ElemDiff

/-! # Lemmas: the integral of a number times the exponential function, sine or cosine of a linear argument, as it is written -/

namespace Simpy
namespace Lin
open Expr

variable {O : Oracle} {C : Ctors} {u w L : Expr} {v : Str} {a b c k q : ℚ}

theorem pass_same {perf : Nat → Expr → R Rep} (hstop : ∀ n t, containsCls isPlainTrig t = false → perf n t = .ok .stop)
    (htrig : ∀ n f L, f = .sin ∨ f = .cos → perf (n + 9) (trig f L) = .ok .pass)
    (hprod : ∀ n f L c, f = .sin ∨ f = .cos → LinearArg v L → perf (n + 9) (prod [rat c, trig f L]) = .ok .pass)
    {f : TrigFn} (hf : f = .sin ∨ f = .cos) (hL : LinearArg v L) (hsub : L.isSubtraction = false) (hc : c ≠ 0) (n : Nat) :
    replaceE O perf (n + 11) (scale c (trig f L)) = .ok (scale c (trig f L)) := by
  have hp : Piece v (trig f L) := by rcases hf with rfl | rfl <;> constructor <;> assumption
  have hs : ∀ m, replaceE O perf (m + 1) L = .ok L := fun m =>
      replace_stop (hstop _ _ (hL.noCls rfl (fun _ => rfl) (fun _ => rfl) fun _ => rfl))
  have ht : ∀ m, replaceE O perf (m + 10) (trig f L) = .ok (trig f L) := fun m => by
    rw [replaceE]
    simp only [htrig m f L hf, bind, Except.bind, hs (m + 8)]
    exact hL.trig_ctor hf hsub _
  by_cases h1 : c = 1
  · subst h1
    simpa [scale] using ht (n + 1)
  · have hr : replaceE O perf (n + 10) (rat c) = .ok (rat c) := replace_stop (hstop _ _ rfl)
    have e : scale c (trig f L) = prod [rat c, trig f L] := by simp [scale, hc, h1]
    rw [e, replaceE]
    simp only [hprod (n + 1) f L c hf hL, bind, Except.bind, mapR, hr, ht n]
    rw [← e]
    exact prod_rat_unit hp c

/-- `simplify` leaves one term as it is. -/
theorem simplify_outer {f g : Expr → Expr} (hf : Outer f q g) (hF : Fits v f g L) (hc : c ≠ 0) (n : Nat) :
    simplifyE O (n + 15) (scale c (f L)) = .ok (scale c (f L)) := by
  have hx : expandOr (expandableE O (n + 15)) (expandE O (n + 15)) (scale c (f L)) = .ok (scale c (f L)) := by
    have := expandable_term (O := O) (scale_term hF.2.1 c) (n + 9)
    simp [expandOr, this, bind, Except.bind, pure, Except.pure]
  have trigCase : ∀ {s : TrigFn}, s = .sin ∨ s = .cos → L.isSubtraction = false → f = trig s →
      simplifyE O (n + 15) (scale c (f L)) = .ok (scale c (f L)) := by
    rintro s hs hsub rfl
    have h1 : replaceE O (trigPass1 O) (n + 15) (scale c (trig s L)) = .ok (scale c (trig s L)) := by
      refine pass_same (v := v) (fun n t hc => by simp [trigPass1, withTrig, hc]) ?_ ?_ hs hF.1 hsub hc (n + 4)
      · rintro n f L (rfl | rfl) <;> rfl
      · rintro n f L c (rfl | rfl) h <;> rfl
    have h2 : replaceE O (trigPass2 O) (n + 15) (scale c (trig s L)) = .ok (scale c (trig s L)) := by
      refine pass_same (v := v) (fun n t hc => by simp [trigPass2, withTrig, hc]) ?_ ?_ hs hF.1 hsub hc (n + 4)
      · rintro n f L (rfl | rfl) <;> rfl
      · rintro n f L c hf hL
        have h1 := combine_pass (O := O) (v := v) hf hL c n
        have hc : containsCls isPlainTrig (prod [rat c, trig f L]) = true := by rcases hf with rfl | rfl <;> rfl
        simp only [trigPass2, withTrig, hc, if_true, firstRep, h1]
        rfl
    have hl : containsCls isLog (scale c (trig s L)) = false := by
      have hl : containsCls isLog L = false := hF.1.noCls rfl (fun _ => rfl) (fun _ => rfl) fun _ => rfl
      unfold scale
      split_ifs <;> rcases hs with rfl | rfl <;> simp [containsCls, containsClsL, isLog, hl]
    have h3 : ∃ b, trigPart O (n + 15) (scale c (trig s L)) = .ok (scale c (trig s L), b) := by
      unfold trigPart
      split
      · exact ⟨replaceHit (trigPass1 O) (n + 15) (scale c (trig s L)) || replaceHit (trigPass2 O) (n + 15) (scale c (trig s L)),
          by simp only [trigSimplify, h1, h2, bind, Except.bind, pure, Except.pure]⟩
      · exact ⟨false, rfl⟩
    obtain ⟨b, h3⟩ := h3
    simp only [simplifyE, hx, h3, logPart, hl, bind, Except.bind, pure, Except.pure]
    cases b <;> simp
  cases hf with
  | exp =>
    refine simplify_quiet (expandable_term (scale_term hF.2.1 c) (n + 9)) ?_ ?_ <;>
      (have := hF.1; unfold scale; split_ifs <;> cases this <;> rfl)
  | sin => cases hF.2.1 with | sin _ hs => exact trigCase (.inl rfl) hs rfl
  | cos => cases hF.2.1 with | cos _ hs => exact trigCase (.inr rfl) hs rfl

namespace Tree
open Node

variable {f g : Expr → Expr}

theorem outer_unit_runs (hO : O.Exact) {as : List Node} {ν : Supply} {tr : Option Transf} (hf : Outer f q g) (h : Slope v a b L) (hF : Fits v f g L)
    (ha : Above (f L) as) (n k : Nat) (bb : Bool) :
    Runs O (n + 8) bb (k + 3) ν as v tr (f L) (scale (a⁻¹ * q) (g L)) := by
  cases h with
  | var =>
    have := runs_leaf (O := O) (b := bb) (k := k + 2) (ν := ν) (as := as) (tr := tr) (safePlan_unit (hf.basic (v := v)) n) (outer_table hO hf (n + 5))
    simpa using this
  | lin hl =>
    have hai : a⁻¹ ≠ 0 := inv_ne_zero hl.ne
    have hne : a⁻¹ * q ≠ 0 := mul_ne_zero hai hf.ne
    have hov : ∀ {ty cs}, ∀ p ∈ mk (f L) v tr ty none false cs :: as,
        (∃ ts, p.expr = sum ts) ∨ p.expr = f L ∨ ∃ c, p.expr = prod [rat c, f L] := by
      intro ty cs p hp
      rcases List.mem_cons.1 hp with rfl | hp
      · exact .inr (.inl rfl)
      · exact (ha p hp).imp id .inr
    refine runs_one (safePlan_outer hO hf hl hF n) (refused_sub hf hl hov _ hai _) (runs_scaled hO hf hai n k bb fun tr => ?_)
      (by simp) (replace_back hf hF _ hne (n + 4))
    have := refused_sub (O := O) (x := ν.own 0 []) hf hl
      (hov (ty := .unset) (cs := [leaf (scale a⁻¹ (f (sym (ν.own 0 [])))) (ν.own 0 []) (.linearUSub L)])) 1 one_ne_zero tr
    simpa [scale] using this

theorem outer_runs (hO : O.Exact) {ν : Supply} {tr : Option Transf} (hf : Outer f q g) (h : Slope v a b L) (hF : Fits v f g L) (hfn : TableFn v (f L))
    (hc : c ≠ 0) (n k : Nat) (bb : Bool) :
    Runs O (n + 8) bb (k + 4) ν [] v tr (scale c (f L)) (scale (c * (a⁻¹ * q)) (g L)) := by
  by_cases h1 : c = 1
  · subst h1
    simpa [scale] using outer_unit_runs (ν := ν) (tr := tr) hO hf h hF (as := []) (by simp [Above]) n (k + 1) bb
  · have e : scale c (f L) = prod [rat c, f L] := by simp [scale, hc, h1]
    rw [e]
    have hab : ∀ {ty cs}, Above (f L) [mk (prod [rat c, f L]) v tr ty none false cs] := by
      intro ty cs p hp
      simp only [List.mem_singleton] at hp
      subst hp
      exact .inr ⟨_, rfl⟩
    exact runs_one (safePlan_scaled hfn n c) (refused_unit hfn hab.noUnit _)
      (outer_unit_runs hO hf h hF (hab (ty := .unset) (cs := [leaf (f L) v (.pullConstant (rat c))])) n k bb) (by simp)
      (mul_scale (mul_ne_zero (inv_ne_zero h.ne) hf.ne) hF.2.2 c (n + 5))

end Tree

theorem Outer.fn {f g : Expr → Expr} (hf : Outer f q g) (hF : Fits v f g L) : TableFn v (f L) := by
  cases hf with
  | exp => exact .exp hF.1
  | sin => cases hF.2.1 with | sin h hs => exact .sin h hs
  | cos => cases hF.2.1 with | cos h hs => exact .cos h hs

/-- A run without branches is the result of `integrate`. -/
theorem integrate_of_runs {t F : Expr} {n k : Nat} {ν : Supply} {bf fin : Bool} (hr : Tree.Runs O (n + 15) false (n + 15) ν [] v none t F)
    (hs1 : simplifyE O (n + 15) t = .ok t) (hs2 : simplifyE O (n + 15) F = .ok F) : Node.integrate O (n + 15) ν bf k fin v t = .ok (some F) := by
  obtain ⟨t0, t1, d', h1, ht, hd⟩ := hr
  obtain ⟨p, l, hp, hw⟩ := hd.back
  have hcy : Node.cycle O (n + 15) ν bf t0 [] = .ok (t1, .solved) := by
    simp only [Node.cycle, Node.at?, ht, bind, Except.bind, Node.replaceAt, hd.unfinished, pure, Except.pure]
  have hl : Node.searchLoop O (n + 15) ν bf k t0 [] = .ok t1 := by
    cases k with
    | zero => simp only [Node.searchLoop, hcy, bind, Except.bind, pure, Except.pure]
    | succ k => simp [Node.searchLoop, hcy, bind, Except.bind, pure, Except.pure, Node.isFinished, hd.solved]
  have hsr : Node.search O (n + 15) ν bf k v t = .ok t1 := by
    simp only [Node.search, Node.startTree, hs1, bind, Except.bind]
    rw [h1]
    exact hl
  have hg : Node.goBackwards O (n + 15) t1 = .ok (F, l ++ []) := by
    simp [Node.goBackwards, hd.solved, hp, Node.walkAll, hw, hd.sol']
  cases fin
  · simp only [Node.integrate, hsr, bind, Except.bind, hd.solved, Bool.not_true, Bool.false_eq_true, if_false, hg, pure, Except.pure]
  · simp only [Node.integrate, hsr, bind, Except.bind, hd.solved, Bool.not_true, Bool.false_eq_true, if_false, if_true, hg, hs2, pure, Except.pure]

/-- `integrate(c * f(a*x+b))`, as it is written. -/
theorem integrate_outer {f g : Expr → Expr} (hO : O.Exact) (hf : Outer f q g) (h : Slope v a b L) (hF : Fits v f g L) (hc : c ≠ 0) (n k : Nat)
    (ν : Supply) (bf fin : Bool) :
    Node.integrate O (n + 15) ν bf k fin v (scale c (f L)) = .ok (some (scale (c * (a⁻¹ * q)) (g L))) := by
  have hne : c * (a⁻¹ * q) ≠ 0 := mul_ne_zero hc (mul_ne_zero (inv_ne_zero h.ne) hf.ne)
  refine integrate_of_runs (Tree.outer_runs hO hf h hF (hf.fn hF) hc (n + 7) (n + 11) false) (simplify_outer hf hF hc n) ?_
  cases hf with
  | exp => exact simplify_outer .exp hF hne n
  | sin => exact simplify_outer .cos ⟨hF.1, hF.2.2, hF.2.1⟩ hne n
  | cos => exact simplify_outer .sin ⟨hF.1, hF.2.2, hF.2.1⟩ hne n

/-! ## Powers -/

theorem power_table (h0 : q ≠ 0) (hq : q ≠ -1) (n : Nat) :
    checkTable O (n + 3) v (varPow v q) = .ok (some (scale (q + 1)⁻¹ (varPow v (q + 1)))) := by
  have hq1 : q + 1 ≠ 0 := fun h => hq (by linarith)
  have hw : Piece v (varPow v (q + 1)) := varPow_piece hq1
  have hp : (ctors O (n + 3)).pow (sym v) (rat (q + 1)) = .ok (varPow v (q + 1)) := pow_var' (n + 2) hq1
  have hm : opMul (ctors O (n + 3)) (rat (1 / (q + 1))) (varPow v (q + 1)) = .ok (scale (1 / (q + 1)) (varPow v (q + 1))) := by
    have := mul_scale (O := O) (q := 1) one_ne_zero hw (1 / (q + 1)) n
    simpa [scale] using this
  rw [← one_div]
  by_cases h1 : q = 1
  · subst h1
    have e : varPow v 1 = sym v := by simp [varPow]
    rw [show (1 : ℚ) + 1 = 2 by norm_num] at *
    rw [e]
    simp only [checkTable, Expr.contains, tablePower, hp, hm, bind, Except.bind, pure, Except.pure, beq_self_eq_true,
        Bool.not_true, Bool.false_eq_true, if_false, if_true]
  · have e : varPow v q = pow (sym v) (rat q) := by simp [varPow, h1]
    have hd : opDiv (ctors O (n + 3)) (rat 1) (rat (q + 1)) = .ok (rat (1 / (q + 1))) := by
      unfold opDiv; simp only [ne_eq, hq1, not_false_eq_true, if_true]
    have ha : opAdd (ctors O (n + 3)) (rat q) (rat 1) = .ok (rat (q + 1)) := rfl
    rw [e]
    simp only [checkTable, Expr.contains, tablePower, hp, hd, ha, hm, bind, Except.bind, pure, Except.pure, beq_self_eq_true,
        Bool.true_or, beq, hq, beq_iff_eq, Bool.and_true,
        Bool.not_true, Bool.not_false, Bool.false_eq_true, if_false, if_true]

theorem varPow_basic (h0 : q ≠ 0) : Basic v (varPow v q) := by
  unfold varPow
  split_ifs with h
  · exact .var
  · exact .power q h0 h

theorem powTerm_simplify (v : Str) (c q : ℚ) (n : Nat) : simplifyE O (n + 15) (powTerm v c q) = .ok (powTerm v c q) := by
  unfold powTerm
  split_ifs with h0 h1
  · rfl
  · rfl
  · refine simplify_quiet (expandable_term (scale_term (varPow_piece h1) c) (n + 9)) ?_ ?_ <;>
      (unfold scale varPow; split_ifs <;> rfl)

theorem power_runs {ν : Supply} {tr : Option Transf} (h0 : q ≠ 0) (hq : q ≠ -1) (hc : c ≠ 0) (n k : Nat) (bb : Bool) :
    Tree.Runs O (n + 8) bb (k + 2) ν [] v tr (scale c (varPow v q)) (scale (c * (q + 1)⁻¹) (varPow v (q + 1))) := by
  have hq1 : q + 1 ≠ 0 := fun h => hq (by linarith)
  have hb := varPow_basic (v := v) h0
  have leafR : ∀ {k ν as tr}, Tree.Runs O (n + 8) bb (k + 1) ν as v tr (varPow v q) (scale (q + 1)⁻¹ (varPow v (q + 1))) :=
    Tree.runs_leaf (Tree.safePlan_unit hb n) (power_table h0 hq (n + 5))
  by_cases h1 : c = 1
  · subst h1
    simpa [scale] using leafR (k := k + 1) (ν := ν) (as := []) (tr := tr)
  · have e : scale c (varPow v q) = prod [rat c, varPow v q] := by simp [scale, hc, h1]
    rw [e]
    have hab : ∀ {ty cs}, Tree.Above (varPow v q) [Node.mk (prod [rat c, varPow v q]) v tr ty none false cs] := by
      intro ty cs p hp
      simp only [List.mem_singleton] at hp
      subst hp
      exact .inr ⟨_, rfl⟩
    exact Tree.runs_one (Tree.safePlan_scaled hb.fn n c) (Tree.refused_unit hb.fn hab.noUnit _) leafR (by simp)
      (mul_scale (inv_ne_zero hq1) (varPow_piece hq1) c (n + 5))

/-- `integrate(c * x**q)`, as it is written. -/
theorem integrate_power (hq : q ≠ -1) (hc : c ≠ 0) (n k : Nat) (ν : Supply) (bf fin : Bool) :
    Node.integrate O (n + 15) ν bf k fin v (powTerm v c q) = .ok (some (powTerm v (c * (q + 1)⁻¹) (q + 1))) := by
  have hq1 : q + 1 ≠ 0 := fun h => hq (by linarith)
  refine integrate_of_runs ?_ (powTerm_simplify v c q n) (powTerm_simplify v _ _ n)
  have e2 : powTerm v (c * (q + 1)⁻¹) (q + 1) = scale (c * (q + 1)⁻¹) (varPow v (q + 1)) := by simp [powTerm, hq1, hc]
  by_cases h0 : q = 0
  · subst h0
    have e1 : powTerm v c 0 = rat c := by simp [powTerm, hc]
    have e3 : scale (c * (0 + 1)⁻¹) (varPow v (0 + 1)) = scale c (sym v) := by simp [varPow]
    rw [e1, e2, e3]
    exact Tree.runs_leaf (Node.safePlan_rat (n + 7) c) (table_const (closed_noTrig (v := v)) (n + 12) c)
  · have e1 : powTerm v c q = scale c (varPow v q) := by simp [powTerm, h0, hc]
    rw [e1, e2]
    exact power_runs h0 hq hc (n + 7) (n + 13) false

end Lin
end Simpy
