import Verif.Proofs.LinRun
import Verif.Proofs.TotalEval

/-! # Lemmas: rational multiples of powers of e -/

namespace Simpy
namespace Lin
open Expr

variable {O : Oracle} {C : Ctors} {u : Expr} {v : Str}

/-- `e`, or a power of `e`. -/
inductive EU : Expr → Prop
  | e : EU euler
  | pow (r : ℚ) : r ≠ 0 → r ≠ 1 → EU (pow euler (rat r))

/-- `e ** r`. -/
def eTo (r : ℚ) : Expr := if r = 0 then rat 1 else if r = 1 then euler else pow euler (rat r)

/-- `k * e ** r`. -/
def eMul (k r : ℚ) : Expr := if r = 0 then rat k else scale k (eTo r)

theorem EU.to {r : ℚ} (h : r ≠ 0) : EU (eTo r) := by
  unfold eTo
  rw [if_neg h]
  split_ifs with h1
  · exact .e
  · exact .pow r h h1

theorem pow_eTo (r : ℚ) (n : Nat) : (ctors O (n + 1)).pow euler (rat r) = .ok (eTo r) := by
  show powCtor O (ctors O n) euler (rat r) = _
  unfold eTo
  by_cases h0 : r = 0
  · simp [powCtor, beq, h0]
  · by_cases h1 : r = 1
    · simp [powCtor, beq, h1]
    · simp [powCtor, beq, h0, h1, isAcc, powLog, powTail, powInf, numericBase, isNum, isSubtraction]

theorem EU.cmp (h : EU u) (a : ℚ) : cmpLt C (rat a) u = .ok true := by
  cases h <;> simp [cmpLt, Simpy.nwf, Expr.varies, syms, anys, symbolessNest, bind, Except.bind, pure, Except.pure]

theorem EU.sort (h : EU u) (a : ℚ) : sortTerms C [u, rat a] = .ok [rat a, u] := by
  simp [sortTerms, pySorted, countRun, h.cmp, runTail, binarySort, bind, Except.bind, pure, Except.pure]

theorem EU.prodCtor_of (h : EU u) {ts : List Expr} {a : ℚ} {cs : List ℚ} (hcs : cs ≠ [])
    (hl : combineProdLoop O C (flatPL ts).length (flatPL ts) = .ok ([u], cs.map rat)) (ha : cs.prod = a) :
    prodCtor O C ts = .ok (scale a u) := by
  have hacc : accumulateProd O (cs.map rat) = .ok (rat a) := by
    have fold : ∀ (l : List ℚ) (x : ℚ), foldNum (numMul O) (.frac x) ((l.map rat).map value) = .ok (.frac (x * l.prod)) := by
      intro l
      induction l with
      | nil => intro x; simp [foldNum]
      | cons y r ih => intro x; simp only [List.map_cons, value, foldNum, numMul]; rw [ih]; simp [mul_assoc]
    match cs, hcs, ha with
    | [c], _, ha => simp at ha; simp [accumulateProd, ha]
    | c :: d :: r, _, ha =>
      simp only [accumulateProd, List.map_cons]
      have := fold (c :: d :: r) 1
      simp only [List.map_cons] at this
      rw [this]
      simp only [one_mul, ha, const]
  have hne : (cs.map rat).isEmpty = false := by cases cs <;> simp_all
  have hcomb : combineProd O C (flatPL ts) = .ok (if a = 0 then [rat 0] else if a = 1 then [u] else [u, rat a]) := by
    unfold combineProd
    rw [hl]
    simp only [bind, Except.bind, hne, hacc, beq, pure, Except.pure, Bool.false_eq_true, if_false]
    by_cases h0 : a = 0
    · simp [h0]
    · by_cases h1 : a = 1
      · simp [h1]
      · simp [h0, h1]
  unfold prodCtor
  rw [hcomb]
  by_cases h0 : a = 0
  · simp [h0, scale, bind, Except.bind, pure, Except.pure]
  · by_cases h1 : a = 1
    · simp [h1, scale, bind, Except.bind, pure, Except.pure]
    · simp only [h0, h1, if_false, bind, Except.bind, h.sort, scale, pure, Except.pure]
      cases h <;> rfl

theorem EU.prod1 (h : EU u) (hO : O.Exact) (a : ℚ) : prodCtor O C [rat a, u] = .ok (scale a u) := by
  refine h.prodCtor_of (cs := [a]) (by simp) ?_ (by simp)
  cases h <;> simp [flatPL, Simpy.flatP, combineProdLoop, deconPow, beq, hO.isE, List.filter_cons, Expr.isAcc, bind, Except.bind, pure, Except.pure]

theorem EU.prod2 (h : EU u) (hO : O.Exact) (hC : Squares C) (c a : ℚ) : prodCtor O C [rat c, prod [rat a, u]] = .ok (scale (c * a) u) := by
  by_cases e : a = c
  · subst e
    refine h.prodCtor_of (cs := [a ^ 2]) (by simp) ?_ (by simp [sq])
    have := hC a
    cases h <;> simp [flatPL, Simpy.flatP, combineProdLoop, deconPow, beq, hO.isE, List.filter_cons, Expr.isAcc, bind, Except.bind, pure, Except.pure, foldAdd, opAdd,
      likeFactor, this, show ((1 : ℚ) + 1) = 2 by norm_num]
  · refine h.prodCtor_of (cs := [c, a]) (by simp) ?_ (by simp)
    cases h <;> simp [flatPL, Simpy.flatP, combineProdLoop, deconPow, beq, hO.isE, List.filter_cons, Expr.isAcc, bind, Except.bind, pure, Except.pure, e]

theorem EU.prod_scale (h : EU u) (hO : O.Exact) (hC : Squares C) (c : ℚ) {a : ℚ} (ha : a ≠ 0) :
    prodCtor O C [rat c, scale a u] = .ok (scale (c * a) u) := by
  by_cases h1 : a = 1
  · subst h1; simpa [scale] using h.prod1 (C := C) hO c
  · have : scale a u = prod [rat a, u] := by simp [scale, ha, h1]
    rw [this]; exact h.prod2 hO hC c a

/-- `0 + k u` and `k u + 0`. -/
theorem EU.sum0 (h : EU u) {a : ℚ} (ha : a ≠ 0) : sumCtor O C [rat 0, scale a u] = .ok (scale a u) ∧ sumCtor O C [scale a u, rat 0] = .ok (scale a u) := by
  unfold scale
  rw [if_neg ha]
  split_ifs with h1
  · cases h <;> constructor <;>
      simp [sumCtor, flatSL, flatS, combineSum, combineSumLoop, isAcc, deconProd, beqL, beq, accumulateSum, likeTerm, bind, Except.bind, pure, Except.pure]
  · cases h <;> constructor <;>
      simp [sumCtor, flatSL, flatS, combineSum, combineSumLoop, isAcc, deconProd, beqL, beq, accumulateSum, likeTerm, bind, Except.bind, pure, Except.pure]

theorem EU.expandable (h : EU u) (n : Nat) : expandableE O (n + 2) u = .ok false := by
  cases h <;> simp [expandableE, powerExpandable, bind, Except.bind]

theorem eTo_isProd (r : ℚ) : (eTo r).isProd = false ∧ (eTo r).isSum = false := by
  unfold eTo; split_ifs <;> exact ⟨rfl, rfl⟩

theorem eMul_expandable (k r : ℚ) (n : Nat) : expandableE O (n + 3) (eMul k r) = .ok false := by
  unfold eMul
  split_ifs with h0
  · rfl
  have h := EU.to h0
  generalize eTo r = u at h
  unfold scale
  split_ifs with h1 h2
  · rfl
  · exact h.expandable (n + 1)
  · have hr : expandableE O (n + 2) (rat k) = .ok false := rfl
    have hrs : (rat k).isSum = false := rfl
    have hus : u.isSum = false := by cases h <;> rfl
    have hnr : ∀ q : ℚ, ∀ us, rat q = prod us → us.any isSum = false := fun _ _ h => by cases h
    have hnd : ∃ p q : Expr, numDen O (ctors O (n + 2)) [rat k, u] = .ok (p, q) ∧ ∀ us, q = prod us → us.any isSum = false := by
      have hr : ∀ C, numDenTerm O C (rat k) = .ok (if k.num ≠ 1 then [rat k.num] else [], if k.den ≠ 1 then [rat k.den] else []) := fun _ => rfl
      have side : ∀ {w : Expr}, w.isProd = false → w.isSum = false →
          numDenTerm O (ctors O (n + 2)) u = .ok ([w], []) ∨ numDenTerm O (ctors O (n + 2)) u = .ok ([], [w]) →
          ∃ p q : Expr, numDen O (ctors O (n + 2)) [rat k, u] = .ok (p, q) ∧ ∀ us, q = prod us → us.any isSum = false := by
        intro w hw hw' hu
        have hmk : mkProdSkip [w] = .ok w := by simp [mkProdSkip, hw]
        have hwp : ∀ us, w = prod us → us.any isSum = false := fun us h => by rw [h] at hw; cases hw
        have hs : ∀ us, prod [rat k.den, w] = prod us → us.any isSum = false := fun us h => by
          cases h; rw [List.any_cons, List.any_cons, hw']; rfl
        unfold numDen
        rcases hu with hu | hu
        · simp only [numDenLoop, hu, hr, bind, Except.bind, pure, Except.pure, List.append_nil]
          by_cases h1 : k.num = 1 <;> by_cases h2 : k.den = 1
          · exact ⟨w, rat 1, by simp [h1, h2, hmk]; rfl, hnr _⟩
          · exact ⟨w, rat k.den, by simp [h1, h2, hmk]; rfl, hnr _⟩
          · exact ⟨prod [rat k.num, w], rat 1, by simp [h1, h2, mkProdSkip], hnr _⟩
          · exact ⟨prod [rat k.num, w], rat k.den, by simp [h1, h2, mkProdSkip, Expr.isProd], hnr _⟩
        · simp only [numDenLoop, hu, hr, bind, Except.bind, pure, Except.pure, List.append_nil]
          by_cases h1 : k.num = 1 <;> by_cases h2 : k.den = 1
          · exact ⟨rat 1, w, by simp [h1, h2, hmk]; rfl, hwp⟩
          · exact ⟨rat 1, prod [rat k.den, w], by simp [h1, h2, mkProdSkip], hs⟩
          · exact ⟨rat k.num, w, by simp [h1, h2, hmk]; rfl, hwp⟩
          · exact ⟨rat k.num, prod [rat k.den, w], by simp [h1, h2, mkProdSkip, Expr.isProd], hs⟩
      cases h with
      | e => exact side (w := euler) rfl rfl (.inl rfl)
      | pow r h0 h1 =>
        by_cases hs : r < 0
        · have hp := pow_eTo (O := O) (-r) (n + 1)
          by_cases hm : r = -1
          · refine side (w := euler) rfl rfl (.inr ?_)
            simp [numDenTerm, negNum, deconPow, hm, beq]
          · refine side (w := eTo (-r)) (eTo_isProd _).1 (eTo_isProd _).2 (.inr ?_)
            simp [numDenTerm, negNum, deconPow, hs, beq, hm, opNeg, hp, bind, Except.bind, pure, Except.pure]
        · refine side (w := pow euler (rat r)) rfl rfl (.inl ?_)
          simp [numDenTerm, negNum, deconPow, hs]
    obtain ⟨p, q, hpq, hq⟩ := hnd
    rw [expandableE]
    simp only [anyR, hrs, hus, Bool.false_eq_true, if_false, hr, h.expandable n, bind, Except.bind, pure, Except.pure, hpq]
    cases q <;> first | rfl | (dsimp only; rw [hq _ rfl])

theorem simplify_quiet {e : Expr} {n : Nat} (hx : expandableE O n e = .ok false) (ht : containsCls isPlainTrig e = false)
    (hl : containsCls isLog e = false) : simplifyE O n e = .ok e := by
  have : expandOr (expandableE O n) (expandE O n) e = .ok e := by simp [expandOr, hx, bind, Except.bind, pure, Except.pure]
  simp [simplifyE, this, trigPart, ht, logPart, hl, bind, Except.bind, pure, Except.pure]

theorem eMul_simplify (k r : ℚ) (n : Nat) : simplifyE O (n + 3) (eMul k r) = .ok (eMul k r) := by
  refine simplify_quiet (eMul_expandable k r n) ?_ ?_ <;>
    (unfold eMul scale eTo; split_ifs <;> rfl)

theorem den_eMul (ρ : Str → ℝ) (k r : ℚ) : Dom ρ (eMul k r) ∧ den ρ (eMul k r) = k * Real.exp r := by
  have hp : pw (Real.exp 1) r = Real.exp r := by rw [pw_of_nonneg (Real.exp_pos 1).le, Real.exp_one_rpow]
  have hn : HN ρ euler := by simp [HN, den, Real.exp_nonneg]
  unfold eMul scale eTo
  split_ifs <;> simp_all [Dom, DomS, DomSL, den, denP, intExp]

/-! ## The antiderivative -/

/-- `L = a*x + b`, for a nonzero `a`. -/
inductive Slope (v : Str) : ℚ → ℚ → Expr → Prop
  | var : Slope v 1 0 (sym v)
  | lin {a b : ℚ} {L : Expr} : Linear v a b L → Slope v a b L

theorem Slope.arg {a b : ℚ} {L : Expr} (h : Slope v a b L) : LinearArg v L := by
  cases h with
  | var => exact .var
  | lin h => exact h.arg

theorem Slope.ne {a b : ℚ} {L : Expr} (h : Slope v a b L) : a ≠ 0 := by
  cases h with
  | var => exact one_ne_zero
  | lin h => exact h.ne

namespace Tree
open Node

theorem exp_unit_runs (hO : O.Exact) {a b : ℚ} {L : Expr} {as : List Node} {ν : Supply} {tr : Option Transf} (h : Slope v a b L)
    (ha : Above (pow euler L) as) (n k : Nat) (bb : Bool) :
    Runs O (n + 8) bb (k + 3) ν as v tr (pow euler L) (scale a⁻¹ (pow euler L)) := by
  cases h with
  | var =>
    have := runs_leaf (O := O) (b := bb) (k := k + 2) (ν := ν) (as := as) (tr := tr) (safePlan_unit (.exp (v := v)) n) (outer_table hO .exp (n + 5))
    simpa using this
  | lin hl =>
    have hai : a⁻¹ ≠ 0 := inv_ne_zero hl.ne
    have hF : Fits v (pow euler) (pow euler) L := ⟨hl.arg, .exp hl.arg, .exp hl.arg⟩
    have hov : ∀ {ty cs}, ∀ p ∈ mk (pow euler L) v tr ty none false cs :: as,
        (∃ ts, p.expr = sum ts) ∨ p.expr = pow euler L ∨ ∃ c, p.expr = prod [rat c, pow euler L] := by
      intro ty cs p hp
      rcases List.mem_cons.1 hp with rfl | hp
      · exact .inr (.inl rfl)
      · exact (ha p hp).imp id .inr
    have hr := runs_scaled (O := O) (v := ν.own 0 []) (φ := pow euler) (γ := pow euler) (q := 1) hO .exp hai n k bb
      (ν := ν.child 0) (tr := some (.linearUSub L))
      (as := mk (pow euler L) v tr .unset none false [leaf (scale a⁻¹ (pow euler (sym (ν.own 0 [])))) (ν.own 0 []) (.linearUSub L)] :: as)
      (fun tr' => by
        have := refused_sub (O := O) (x := ν.own 0 []) .exp hl
          (hov (ty := .unset) (cs := [leaf (scale a⁻¹ (pow euler (sym (ν.own 0 [])))) (ν.own 0 []) (.linearUSub L)])) 1 one_ne_zero tr'
        simpa [scale] using this)
    have := runs_one (safePlan_outer hO .exp hl hF n) (refused_sub .exp hl hov _ hai _) hr
      (by simp) (replace_back .exp hF _ (by simpa using hai) (n + 4))
    simpa using this

theorem exp_runs (hO : O.Exact) {a b c : ℚ} {L : Expr} {ν : Supply} {tr : Option Transf} (h : Slope v a b L) (hc : c ≠ 0) (n k : Nat) (bb : Bool) :
    Runs O (n + 8) bb (k + 4) ν [] v tr (scale c (pow euler L)) (scale (c * a⁻¹) (pow euler L)) := by
  have hf : TableFn v (pow euler L) := .exp h.arg
  by_cases h1 : c = 1
  · subst h1
    simpa [scale] using exp_unit_runs (ν := ν) (tr := tr) hO h (as := []) (by simp [Above]) n (k + 1) bb
  · have e : scale c (pow euler L) = prod [rat c, pow euler L] := by simp [scale, hc, h1]
    rw [e]
    have hab : ∀ {ty cs}, Above (pow euler L) [mk (prod [rat c, pow euler L]) v tr ty none false cs] := by
      intro ty cs p hp
      simp only [List.mem_singleton] at hp
      subst hp
      exact .inr ⟨_, rfl⟩
    exact runs_one (safePlan_scaled hf n c) (refused_unit hf hab.noUnit _)
      (exp_unit_runs hO h (hab (ty := .unset) (cs := [leaf (pow euler L) v (.pullConstant (rat c))])) n k bb) (by simp)
      (mul_scale (inv_ne_zero h.ne) (.of hf) c (n + 5))

end Tree

/-- `integrate(c * e**(a*x+b))` before the last `simplify`. -/
theorem integrate_exp (hO : O.Exact) {a b c : ℚ} {L : Expr} (h : Slope v a b L) (hc : c ≠ 0) (n k : Nat) (ν : Supply) (bf : Bool) :
    Node.integrate O (n + 15) ν bf k false v (scale c (pow euler L)) = .ok (some (scale (c * a⁻¹) (pow euler L))) := by
  obtain ⟨t0, t1, d', h1, ht, hd⟩ := Tree.exp_runs (O := O) (ν := ν) (tr := none) hO h hc (n + 7) (n + 11) false
  obtain ⟨p, l, hp, hw⟩ := hd.back
  have hpc : Term v (scale c (pow euler L)) := scale_term (.exp h.arg) c
  have hs1 : simplifyE O (n + 15) (scale c (pow euler L)) = .ok (scale c (pow euler L)) := by
    refine simplify_quiet (expandable_term hpc (n + 9)) ?_ ?_ <;>
      (have := h.arg; unfold scale; split_ifs <;> cases this <;> rfl)
  have hcy : Node.cycle O (n + 15) ν bf t0 [] = .ok (t1, .solved) := by
    simp only [Node.cycle, Node.at?, ht, bind, Except.bind, Node.replaceAt, hd.unfinished, pure, Except.pure]
  have hl : Node.searchLoop O (n + 15) ν bf k t0 [] = .ok t1 := by
    cases k with
    | zero => simp only [Node.searchLoop, hcy, bind, Except.bind, pure, Except.pure]
    | succ k => simp [Node.searchLoop, hcy, bind, Except.bind, pure, Except.pure, Node.isFinished, hd.solved]
  have hsr : Node.search O (n + 15) ν bf k v (scale c (pow euler L)) = .ok t1 := by
    simp only [Node.search, Node.startTree, hs1, bind, Except.bind]
    have h1' : Node.safely O (n + 15) (n + 15) ν [] (Node.mk (scale c (pow euler L)) v none .unset none false []) = .ok t0 := h1
    rw [h1']
    exact hl
  have hg : Node.goBackwards O (n + 15) t1 = .ok (scale (c * a⁻¹) (pow euler L), l ++ []) := by
    simp [Node.goBackwards, hd.solved, hp, Node.walkAll, hw, hd.sol']
  simp only [Node.integrate, hsr, bind, Except.bind, hd.solved, Bool.not_true, Bool.false_eq_true, if_false, hg, pure, Except.pure]

end Lin
end Simpy
