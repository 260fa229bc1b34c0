import Verif.Proofs.ElemInt

/-! # Lemmas: rational multiples of fractional powers of linear sums -/

namespace Simpy
namespace Lin
open Expr Mono1

variable {O : Oracle} {C : Ctors} {u w L : Expr} {v x : Str} {a b c k q : ℚ} {ts : List Expr}

/-- A fractional power of a linear sum. -/
inductive RU (v : Str) : Expr → Prop
  | mk {ts : List Expr} {q : ℚ} : LinearArg v (sum ts) → q.den ≠ 1 → RU v (pow (sum ts) (rat q))

theorem frac_ne (h : q.den ≠ 1) (m : ℤ) : q ≠ m := by rintro rfl; simp at h
theorem frac_ne_zero (h : q.den ≠ 1) : q ≠ 0 := by simpa using frac_ne h 0
theorem frac_ne_one (h : q.den ≠ 1) : q ≠ 1 := by simpa using frac_ne h 1
theorem frac_ne_neg (h : q.den ≠ 1) : q ≠ -1 := by simpa using frac_ne h (-1)
theorem frac_add (h : q.den ≠ 1) (m : ℤ) : (q + m).den ≠ 1 := by
  intro h1
  have e := Rat.den_eq_one_iff _ |>.1 h1
  exact frac_ne h ((q + m).num - m) (by push_cast; rw [e]; ring)
theorem frac_succ (h : q.den ≠ 1) : (q + 1).den ≠ 1 := by simpa using frac_add h 1
theorem frac_pred (h : q.den ≠ 1) : (q - 1).den ≠ 1 := by simpa [sub_eq_add_neg] using frac_add h (-1)
theorem frac_neg (h : q.den ≠ 1) : (-q).den ≠ 1 := by simpa using h

theorem RU.pow_ctor (hq : q.den ≠ 1) (n : Nat) : (ctors O (n + 1)).pow (sum ts) (rat q) = .ok (pow (sum ts) (rat q)) := by
  show powCtor O (ctors O n) (sum ts) (rat q) = _
  simp [powCtor, beq, frac_ne_zero hq, frac_ne_one hq, Expr.isAcc, powLog, powTail, hq, powInf, numericBase, Expr.isNum]

theorem RU.nwf (h : RU v u) : ∃ k, Simpy.nwf u = .ok (k + 1) := by
  cases h with
  | @mk ts q h hq =>
    obtain ⟨k, hk⟩ := h.nwf
    have hv : Expr.varies (pow (sum ts) (rat q)) = true := by
      have := h.varies; simpa [Expr.varies, syms, anys] using this
    have hr : Simpy.nwf (rat q) = .ok 0 := rfl
    exact ⟨k + 1, by rw [Simpy.nwf]; simp only [hv, hk, hr, if_true, bind, Except.bind, pure, Except.pure]; simp; omega⟩

theorem RU.cmp (h : RU v u) (a : ℚ) : cmpLt C (rat a) u = .ok true := by
  obtain ⟨k, hk⟩ := h.nwf
  unfold cmpLt
  rw [hk]
  simp [Simpy.nwf, bind, Except.bind, pure, Except.pure]

theorem RU.sort (h : RU v u) (a : ℚ) : sortTerms C [u, rat a] = .ok [rat a, u] := by
  simp [sortTerms, pySorted, countRun, h.cmp, runTail, binarySort, bind, Except.bind, pure, Except.pure]

theorem RU.prodCtor_of (h : RU v u) {ts : List Expr} {a : ℚ} {cs : List ℚ} (hcs : cs ≠ [])
    (hl : combineProdLoop O C (flatPL ts).length (flatPL ts) = .ok ([u], cs.map rat)) (ha : cs.prod = a) :
    prodCtor O C ts = .ok (scale a u) := by
  have hacc : accumulateProd O (cs.map rat) = .ok (rat a) := by
    have fold : ∀ (l : List ℚ) (x : ℚ), foldNum (numMul O) (.frac x) ((l.map rat).map value) = .ok (.frac (x * l.prod)) := by
      intro l
      induction l with
      | nil => intro x; simp [foldNum]
      | cons y r ih => intro x; simp only [List.map_cons, value, foldNum, numMul]; rw [ih]; simp [mul_assoc]
    match cs, hcs, ha with
    | [c], _, ha => simp at ha; simp [accumulateProd, ha]
    | c :: d :: r, _, ha =>
      simp only [accumulateProd, List.map_cons]
      have := fold (c :: d :: r) 1
      simp only [List.map_cons] at this
      rw [this]
      simp only [one_mul, ha, const]
  have hne : (cs.map rat).isEmpty = false := by cases cs <;> simp_all
  have hcomb : combineProd O C (flatPL ts) = .ok (if a = 0 then [rat 0] else if a = 1 then [u] else [u, rat a]) := by
    unfold combineProd
    rw [hl]
    simp only [bind, Except.bind, hne, hacc, beq, pure, Except.pure, Bool.false_eq_true, if_false]
    by_cases h0 : a = 0
    · simp [h0]
    · by_cases h1 : a = 1
      · simp [h1]
      · simp [h0, h1]
  unfold prodCtor
  rw [hcomb]
  by_cases h0 : a = 0
  · simp [h0, scale, bind, Except.bind, pure, Except.pure]
  · by_cases h1 : a = 1
    · simp [h1, scale, bind, Except.bind, pure, Except.pure]
    · simp only [h0, h1, if_false, bind, Except.bind, h.sort, scale, pure, Except.pure]
      cases h; rfl

theorem RU.rat_unit (h : RU v u) (a : ℚ) : prodCtor O C [rat a, u] = .ok (scale a u) := by
  refine h.prodCtor_of (cs := [a]) (by simp) ?_ (by simp)
  cases h; simp [flatPL, Simpy.flatP, combineProdLoop, deconPow, beq, List.filter_cons, Expr.isAcc, bind, Except.bind, pure, Except.pure]

theorem RU.unit_rat (h : RU v u) (a : ℚ) : prodCtor O C [u, rat a] = .ok (scale a u) := by
  refine h.prodCtor_of (cs := [a]) (by simp) ?_ (by simp)
  cases h; simp [flatPL, Simpy.flatP, combineProdLoop, deconPow, beq, List.filter_cons, Expr.isAcc, bind, Except.bind, pure, Except.pure]

theorem RU.rat_prod (h : RU v u) (hC : Squares C) (c a : ℚ) : prodCtor O C [rat c, prod [rat a, u]] = .ok (scale (c * a) u) := by
  by_cases e : a = c
  · subst e
    refine h.prodCtor_of (cs := [a ^ 2]) (by simp) ?_ (by simp [sq])
    have := hC a
    cases h; simp [flatPL, Simpy.flatP, combineProdLoop, deconPow, beq, List.filter_cons, Expr.isAcc, bind, Except.bind, pure, Except.pure, foldAdd, opAdd,
      likeFactor, this, show ((1 : ℚ) + 1) = 2 by norm_num]
  · refine h.prodCtor_of (cs := [c, a]) (by simp) ?_ (by simp)
    cases h; simp [flatPL, Simpy.flatP, combineProdLoop, deconPow, beq, List.filter_cons, Expr.isAcc, bind, Except.bind, pure, Except.pure, e]

theorem RU.prod_rat (h : RU v u) (hC : Squares C) (a c : ℚ) : prodCtor O C [prod [rat a, u], rat c] = .ok (scale (a * c) u) := by
  by_cases e : c = a
  · subst e
    refine h.prodCtor_of (cs := [c ^ 2]) (by simp) ?_ (by simp [sq])
    have := hC c
    cases h; simp [flatPL, Simpy.flatP, combineProdLoop, deconPow, beq, List.filter_cons, Expr.isAcc, bind, Except.bind, pure, Except.pure, foldAdd, opAdd,
      likeFactor, this, show ((1 : ℚ) + 1) = 2 by norm_num]
  · refine h.prodCtor_of (cs := [a, c]) (by simp) ?_ (by simp)
    cases h; simp [flatPL, Simpy.flatP, combineProdLoop, deconPow, beq, List.filter_cons, Expr.isAcc, bind, Except.bind, pure, Except.pure, e]

theorem RU.mul_rat (h : RU v u) (ha : a ≠ 0) (c : ℚ) (n : Nat) : (ctors O (n + 2)).prod [scale a u, rat c] = .ok (scale (a * c) u) := by
  show prodCtor O (ctors O (n + 1)) [scale a u, rat c] = _
  by_cases h1 : a = 1
  · subst h1
    have e : scale 1 u = u := by simp [scale]
    rw [e, one_mul]
    exact h.unit_rat c
  · have e : scale a u = prod [rat a, u] := by simp [scale, ha, h1]
    rw [e]
    exact h.prod_rat (squares_ctors n) a c

theorem RU.opMul_rat (h : RU v u) (ha : a ≠ 0) (c : ℚ) (n : Nat) : opMul (ctors O (n + 2)) (scale a u) (rat c) = .ok (scale (a * c) u) := by
  have key : opMul (ctors O (n + 2)) (scale a u) (rat c) = (ctors O (n + 2)).prod [scale a u, rat c] := by
    by_cases h1 : a = 1
    · have e : scale a u = u := by simp [scale, h1]
      rw [e]
      cases h; rfl
    · have e : scale a u = prod [rat a, u] := by simp [scale, ha, h1]
      rw [e]; rfl
  rw [key]
  exact h.mul_rat ha c n

theorem RU.rat_opMul (h : RU v u) (ha : a ≠ 0) (c : ℚ) (n : Nat) : opMul (ctors O (n + 2)) (rat c) (scale a u) = .ok (scale (c * a) u) := by
  by_cases h1 : a = 1
  · have e : scale a u = u := by simp [scale, h1]
    rw [e, h1, mul_one]
    have : opMul (ctors O (n + 2)) (rat c) u = prodCtor O (ctors O (n + 1)) [rat c, u] := by cases h; rfl
    rw [this]
    exact h.rat_unit c
  · have e : scale a u = prod [rat a, u] := by simp [scale, ha, h1]
    rw [e]
    exact h.rat_prod (squares_ctors n) c a

theorem RU.sum_zero (h : RU v u) (ha : a ≠ 0) (C : Ctors) : sumCtor O C [rat 0, scale a u] = .ok (scale a u) := by
  by_cases h1 : a = 1
  · have e : scale a u = u := by simp [scale, h1]
    rw [e]
    cases h
    simp [sumCtor, flatSL, flatS, combineSum, combineSumLoop, isAcc, deconProd, beqL, beq, accumulateSum, likeTerm, bind, Except.bind, pure, Except.pure]
  · have e : scale a u = prod [rat a, u] := by simp [scale, ha, h1]
    rw [e]
    cases h
    simp [sumCtor, flatSL, flatS, combineSum, combineSumLoop, isAcc, deconProd, beqL, beq, accumulateSum, likeTerm, bind, Except.bind, pure, Except.pure]

/-! ## simplify -/

theorem RU.expandable (h : RU v u) (n : Nat) : expandableE O (n + 5) u = .ok false := by
  cases h with
  | @mk ts q h hq =>
    have hr : expandableE O (n + 4) (rat q) = .ok false := rfl
    have hp : powerExpandable (sum ts) (rat q) = false := by simp [powerExpandable, hq]
    rw [expandableE]
    simp only [hp, Bool.false_eq_true, if_false, hr, expandable_arg h n, bind, Except.bind]

theorem RU.expandable_scale (h : RU v u) (c : ℚ) (n : Nat) : expandableE O (n + 6) (scale c u) = .ok false := by
  unfold scale
  split_ifs with h0 h1
  · rfl
  · exact h.expandable (n + 1)
  have hr : expandableE O (n + 5) (rat c) = .ok false := rfl
  have hrs : (rat c).isSum = false := rfl
  have hus : u.isSum = false := by cases h; rfl
  have hnr : ∀ q : ℚ, ∀ us, rat q = prod us → us.any isSum = false := fun _ _ h => by cases h
  have hnd : ∃ p q : Expr, numDen O (ctors O (n + 5)) [rat c, u] = .ok (p, q) ∧ ∀ us, q = prod us → us.any isSum = false := by
    have hr : ∀ C, numDenTerm O C (rat c) = .ok (if c.num ≠ 1 then [rat c.num] else [], if c.den ≠ 1 then [rat c.den] else []) := fun _ => rfl
    have side : ∀ {w : Expr}, w.isProd = false → w.isSum = false →
        numDenTerm O (ctors O (n + 5)) u = .ok ([w], []) ∨ numDenTerm O (ctors O (n + 5)) u = .ok ([], [w]) →
        ∃ p q : Expr, numDen O (ctors O (n + 5)) [rat c, u] = .ok (p, q) ∧ ∀ us, q = prod us → us.any isSum = false := by
      intro w hw hw' hu
      have hmk : mkProdSkip [w] = .ok w := by simp [mkProdSkip, hw]
      have hwp : ∀ us, w = prod us → us.any isSum = false := fun us h => by rw [h] at hw; cases hw
      have hs : ∀ us, prod [rat c.den, w] = prod us → us.any isSum = false := fun us h => by
        cases h; rw [List.any_cons, List.any_cons, hw']; rfl
      unfold numDen
      rcases hu with hu | hu
      · simp only [numDenLoop, hu, hr, bind, Except.bind, pure, Except.pure, List.append_nil]
        by_cases h1 : c.num = 1 <;> by_cases h2 : c.den = 1
        · exact ⟨w, rat 1, by simp [h1, h2, hmk]; rfl, hnr _⟩
        · exact ⟨w, rat c.den, by simp [h1, h2, hmk]; rfl, hnr _⟩
        · exact ⟨prod [rat c.num, w], rat 1, by simp [h1, h2, mkProdSkip], hnr _⟩
        · exact ⟨prod [rat c.num, w], rat c.den, by simp [h1, h2, mkProdSkip, Expr.isProd], hnr _⟩
      · simp only [numDenLoop, hu, hr, bind, Except.bind, pure, Except.pure, List.append_nil]
        by_cases h1 : c.num = 1 <;> by_cases h2 : c.den = 1
        · exact ⟨rat 1, w, by simp [h1, h2, hmk]; rfl, hwp⟩
        · exact ⟨rat 1, prod [rat c.den, w], by simp [h1, h2, mkProdSkip], hs⟩
        · exact ⟨rat c.num, w, by simp [h1, h2, hmk]; rfl, hwp⟩
        · exact ⟨rat c.num, prod [rat c.den, w], by simp [h1, h2, mkProdSkip, Expr.isProd], hs⟩
    cases h with
    | @mk ts q h hq =>
      by_cases hs : q < 0
      · refine side (w := pow (sum ts) (rat (-q))) rfl rfl (.inr ?_)
        have := RU.pow_ctor (O := O) (ts := ts) (frac_neg hq) (n + 4)
        simp [numDenTerm, negNum, deconPow, hs, beq, frac_ne_neg hq, opNeg, this, bind, Except.bind, pure, Except.pure]
      · refine side (w := pow (sum ts) (rat q)) rfl rfl (.inl ?_)
        simp [numDenTerm, negNum, deconPow, hs]
  obtain ⟨p, q, hpq, hq⟩ := hnd
  rw [expandableE]
  simp only [anyR, hrs, hus, Bool.false_eq_true, if_false, hr, h.expandable n, bind, Except.bind, pure, Except.pure, hpq]
  cases q <;> first | rfl | (dsimp only; rw [hq _ rfl])

theorem RU.simplify (h : RU v u) (c : ℚ) (n : Nat) : simplifyE O (n + 6) (scale c u) = .ok (scale c u) := by
  refine simplify_quiet (h.expandable_scale c n) ?_ ?_ <;>
    (cases h with
     | mk h hq => unfold scale; split_ifs <;> cases h <;> rfl)

/-! ## The substitution -/

theorem root_replace {A B R : Expr} {n : Nat} (hA : LinearArg v A) (hp : (ctors O (n + 2)).pow B (rat q) = .ok R) :
    replaceOld O (n + 3) (pow A (rat q)) A B = .ok R := by
  have hA' : replaceE O (replacePerf O A B) (n + 2) A = .ok B := by
    rw [replaceE.eq_def]; simp only [replacePerf, hA.self, if_true, bind, Except.bind]
  have he : replaceE O (replacePerf O A B) (n + 2) (rat q) = .ok (rat q) := by
    rw [replaceE.eq_def]
    have : beq O (rat q) A = false := by cases hA <;> rfl
    simp only [replacePerf, this, Bool.false_eq_true, if_false, bind, Except.bind]
  have hpow : ∀ C D, beq O (pow C D) A = false := fun _ _ => by cases hA <;> rfl
  unfold replaceOld
  rw [replaceE]
  simp only [replacePerf, hpow, Bool.false_eq_true, if_false, bind, Except.bind] at hA' he ⊢
  simp only [hA', he]
  exact hp

theorem root_back (h : LinearArg v (sum ts)) (hq : q.den ≠ 1) (c : ℚ) (hc : c ≠ 0) (n : Nat) :
    replaceOld O (n + 4) (scale c (varPow x q)) (sym x) (sum ts) = .ok (scale c (pow (sum ts) (rat q))) := by
  have e : varPow x q = pow (sym x) (rat q) := by simp [varPow, frac_ne_one hq]
  have h1 := fun n => root_replace (O := O) (LinearArg.var (v := x)) (RU.pow_ctor (O := O) (ts := ts) hq (n + 1))
  rw [e]
  unfold scale
  simp only [hc, if_false]
  split
  · exact h1 (n + 1)
  · have hr : replaceE O (replacePerf O (sym x) (sum ts)) (n + 3) (rat c) = .ok (rat c) := rfl
    have h1' : replaceE O (replacePerf O (sym x) (sum ts)) (n + 3) (pow (sym x) (rat q)) = .ok (pow (sum ts) (rat q)) := h1 n
    have hp : replacePerf O (sym x) (sum ts) (n + 3) (prod [rat c, pow (sym x) (rat q)]) = .ok .pass := rfl
    have := RU.rat_unit (O := O) (C := ctors O (n + 2)) (.mk h hq) c
    simp only [scale, hc, if_false, *] at this
    unfold replaceOld
    rw [replaceE]
    simp only [hp, mapR, hr, h1', bind, Except.bind]
    exact this

theorem root_sub (hO : O.Exact) (h : Linear v a b (sum ts)) (hq : q.den ≠ 1) (n : Nat) :
    linearUSub O (n + 6) v x (pow (sum ts) (rat q)) = .ok (some (sum ts, scale a⁻¹ (varPow x q))) := by
  have hcnt : ¬ count O (sym v) (pow (sum ts) (rat q)) < 1 := by
    cases h <;> simp [count, generalCount, generalCountL, sameClass, beq]
  have hv : (ctors O (n + 5)).pow (sym x) (rat q) = .ok (varPow x q) := pow_var' (n + 4) (frac_ne_zero hq)
  have hr := root_replace (O := O) h.arg hv
  have hpc := varPow_piece (v := x) (frac_ne_zero hq)
  have hd : opDiv (ctors O (n + 6)) (varPow x q) (rat a) = .ok (scale a⁻¹ (varPow x q)) := by
    have hi : (ctors O (n + 6)).pow (rat a) (rat (-1)) = .ok (rat (1 / a)) := inv_rat (n + 5) h.ne
    have hp : (ctors O (n + 6)).prod [varPow x q, rat (1 / a)] = .ok (scale (1 / a) (varPow x q)) := prod_unit_rat hO hpc (1 / a)
    have : opDiv (ctors O (n + 6)) (varPow x q) (rat a) =
        ((ctors O (n + 6)).pow (rat a) (rat (-1)) >>= fun i => (ctors O (n + 6)).prod [varPow x q, i]) := by
      have e : varPow x q = pow (sym x) (rat q) := by simp [varPow, frac_ne_one hq]
      rw [e]; rfl
    rw [this]
    rw [one_div] at hi hp
    simp only [bind, Except.bind, hi, hp]
  have hck : linCheck O (n + 6) v (pow (sum ts) (rat q)) (none, none) = .ok (true, some (sum ts), none) := by
    have hc := h.check (O := O) n
    have hn : linPre O (n + 6) v (pow (sum ts) (rat q)) (none, none) = .ok none := by
      have hcv : (pow (sum ts) (rat q)).contains v = true := by simp [Expr.contains]; simpa [Expr.contains] using contains_arg h.arg
      have hsh : linearShape O (n + 6) v (pow (sum ts) (rat q)) = .ok none := rfl
      simp only [linPre, hcv, hsh, linVerdict, bind, Except.bind, pure, Except.pure, Bool.not_true, Bool.false_eq_true, if_false]
    have hr : linCheck O (n + 6) v (rat q) (some (sum ts), none) = .ok (true, some (sum ts), none) := rfl
    rw [linCheck]
    simp only [hn, hc, hr]
  unfold linearUSub
  simp only [hcnt, if_false, hck, h.diff n, linReplace, hr, hd, bind, Except.bind, if_true, pure, Except.pure]

namespace Tree
open Node

variable {ν : Supply} {as : List Node} {tr : Option Transf} {ty : NType} {s : Option Expr} {f : Bool}

theorem safePlan_root (hO : O.Exact) (h : Linear v a b (sum ts)) (hq : q.den ≠ 1) (n : Nat) :
    safePlan O (n + 8) ν as (mk (pow (sum ts) (rat q)) v tr ty s f []) =
      .ok (some { kids := [leaf (scale a⁻¹ (varPow (ν.own 0 []) q)) (ν.own 0 []) (.linearUSub (sum ts))] }) := by
  have hl := root_sub (O := O) (x := ν.own 0 []) hO h hq (n + 2)
  have he : expandT O (n + 8) (pow (sum ts) (rat q)) = .ok none := by
    simp [expandT, RU.expandable (.mk h.arg hq) (n + 3), bind, Except.bind, pure, Except.pure]
  have h1 : additivityPlan v (pow (sum ts) (rat q)) = .ok none := rfl
  have h2 : pullConstant O (n + 8) v (pow (sum ts) (rat q)) = .ok none := rfl
  have h3 : partialFractions O (n + 8) v (pow (sum ts) (rat q)) = .ok none := by cases h <;> rfl
  have h4 : polyDiv O (n + 8) (n + 8) v (pow (sum ts) (rat q)) = .ok none := by cases h <;> rfl
  simp only [safePlan, Node.expr, Node.var, h1, h2, h3, h4, orElseR, hl, he, Except.map, planOpt]
  split <;> simp_all

theorem safePlan_scaledRoot (h : RU v u) (n : Nat) (c : ℚ) :
    safePlan O (n + 8) ν as (mk (prod [rat c, u]) v tr ty s f []) = .ok (some { kids := [leaf u v (.pullConstant (rat c))] }) := by
  have hs : (ctors O (n + 8)).prod [u] = .ok u := by
    show prodCtor O (ctors O (n + 7)) [u] = _
    cases h
    simp [prodCtor, flatPL, Simpy.flatP, combineProd, combineProdLoop, deconPow, List.filter, Expr.isAcc, bind, Except.bind, pure, Except.pure]
  have h2 : pullConstant O (n + 8) v (prod [rat c, u]) = .ok (some (rat c, u)) := by
    have hv : v ∈ syms u := by cases h with | mk h hq => simpa [syms] using h.mem
    simp [pullConstant, pullLoop, syms, hv, hs, bind, Except.bind, pure, Except.pure]
  simp only [safePlan, Node.expr, Node.var, additivityPlan, h2, orElseR, Except.map, planOpt]

/-- The new integrand is not that of an ancestor. -/
theorem refused_root (h : Linear v a b (sum ts)) (hq : q.den ≠ 1)
    (ha : ∀ p ∈ as, p.expr = pow (sum ts) (rat q) ∨ ∃ c, p.expr = prod [rat c, pow (sum ts) (rat q)]) (c : ℚ) (hc : c ≠ 0) (tr : Option Transf) :
    refused O as (mk (scale c (varPow x q)) x tr .unset none false []) = false := by
  simp only [refused, Node.filler, Bool.not_false, Bool.true_and, List.any_eq_false]
  intro p hm
  have e : varPow x q = pow (sym x) (rat q) := by simp [varPow, frac_ne_one hq]
  have hno : ∀ y, eqWithVar O y x (pow (sum ts) (rat q)) (pow (sym x) (rat q)) = false := by
    intro y
    have := h.noRename (O := O) y x x
    simp [eqWithVar, this, sameClass]
  have hv : ∀ {t : Expr}, (mk t x tr .unset none false []).var = x := rfl
  have he : ∀ {t : Expr}, (mk t x tr .unset none false []).expr = t := rfl
  rw [hv, he, e]
  unfold scale
  simp only [hc, if_false]
  rcases ha p hm with e | ⟨d, e⟩ <;> rw [e] <;> split
  · simp [hno]
  · simp [eqWithVar, sameClass]
  · simp [eqWithVar, sameClass]
  · simp [eqWithVar, eqWithVarL, sameClass]

/-- A multiple of a power of the bare variable, below any ancestors. -/
theorem power_runs_below (h0 : q ≠ 0) (hq : q ≠ -1) (hc : c ≠ 0) (n k : Nat) (bb : Bool)
    (hno : ∀ tr, refused O as (mk (varPow v q) v tr .unset none false []) = false) :
    Runs O (n + 8) bb (k + 2) ν as v tr (scale c (varPow v q)) (scale (c * (q + 1)⁻¹) (varPow v (q + 1))) := by
  have hq1 : q + 1 ≠ 0 := fun h => hq (by linarith)
  have hb := varPow_basic (v := v) h0
  have leafR : ∀ {k ν as tr}, Runs O (n + 8) bb (k + 1) ν as v tr (varPow v q) (scale (q + 1)⁻¹ (varPow v (q + 1))) :=
    runs_leaf (safePlan_unit hb n) (power_table h0 hq (n + 5))
  by_cases h1 : c = 1
  · subst h1
    simpa [scale] using leafR (k := k + 1) (ν := ν) (as := as) (tr := tr)
  · have e : scale c (varPow v q) = prod [rat c, varPow v q] := by simp [scale, hc, h1]
    rw [e]
    have hr : refused O (mk (prod [rat c, varPow v q]) v tr .unset none false [] :: as) (leaf (varPow v q) v (.pullConstant (rat c))) = false := by
      rw [refused_cons]
      have h2 : refused O as (leaf (varPow v q) v (.pullConstant (rat c))) = false := hno _
      have h3 : eqWithVar O v v (prod [rat c, varPow v q]) (varPow v q) = false := by
        unfold varPow
        split_ifs <;> simp [eqWithVar, sameClass]
      rw [h2, Bool.or_false, Bool.and_eq_false_iff]
      exact .inr h3
    exact runs_one (safePlan_scaled hb.fn n c) hr leafR (by simp) (mul_scale (inv_ne_zero hq1) (varPow_piece hq1) c (n + 5))

theorem root_unit_runs (hO : O.Exact) (h : Linear v a b (sum ts)) (hq : q.den ≠ 1)
    (ha : ∀ p ∈ as, ∃ c, p.expr = prod [rat c, pow (sum ts) (rat q)]) (n k : Nat) (bb : Bool) :
    Runs O (n + 8) bb (k + 3) ν as v tr (pow (sum ts) (rat q)) (scale (a⁻¹ * (q + 1)⁻¹) (pow (sum ts) (rat (q + 1)))) := by
  have hai : a⁻¹ ≠ 0 := inv_ne_zero h.ne
  have hq1 : (q + 1)⁻¹ ≠ 0 := inv_ne_zero (frac_ne_zero (frac_succ hq))
  have hov : ∀ {ty cs}, ∀ p ∈ mk (pow (sum ts) (rat q)) v tr ty none false cs :: as,
      p.expr = pow (sum ts) (rat q) ∨ ∃ c, p.expr = prod [rat c, pow (sum ts) (rat q)] := by
    intro ty cs p hp
    rcases List.mem_cons.1 hp with rfl | hp
    · exact .inl rfl
    · exact .inr (ha p hp)
  refine runs_one (safePlan_root hO h hq n) (refused_root h hq hov _ hai _)
    (power_runs_below (frac_ne_zero hq) (frac_ne_neg hq) hai n k bb fun tr => ?_)
    (by simp) (root_back h.arg (frac_succ hq) _ (mul_ne_zero hai hq1) (n + 4))
  have := refused_root (O := O) (x := ν.own 0 []) h hq
    (hov (ty := .unset) (cs := [leaf (scale a⁻¹ (varPow (ν.own 0 []) q)) (ν.own 0 []) (.linearUSub (sum ts))])) 1 one_ne_zero tr
  simpa [scale] using this

theorem root_runs (hO : O.Exact) (h : Linear v a b (sum ts)) (hq : q.den ≠ 1) (hc : c ≠ 0) (n k : Nat) (bb : Bool) :
    Runs O (n + 8) bb (k + 4) ν [] v tr (scale c (pow (sum ts) (rat q))) (scale (c * (a⁻¹ * (q + 1)⁻¹)) (pow (sum ts) (rat (q + 1)))) := by
  by_cases h1 : c = 1
  · subst h1
    simpa [scale] using root_unit_runs (ν := ν) (tr := tr) hO h hq (as := []) (by simp) n (k + 1) bb
  · have hq1 : (q + 1)⁻¹ ≠ 0 := inv_ne_zero (frac_ne_zero (frac_succ hq))
    have hu : RU v (pow (sum ts) (rat q)) := .mk h.arg hq
    have e : scale c (pow (sum ts) (rat q)) = prod [rat c, pow (sum ts) (rat q)] := by simp [scale, hc, h1]
    rw [e]
    have hr : refused O [mk (prod [rat c, pow (sum ts) (rat q)]) v tr .unset none false []] (leaf (pow (sum ts) (rat q)) v (.pullConstant (rat c))) = false := by
      rw [refused_cons]
      have h2 : refused O [] (leaf (pow (sum ts) (rat q)) v (.pullConstant (rat c))) = false := rfl
      have h3 : eqWithVar O v v (prod [rat c, pow (sum ts) (rat q)]) (pow (sum ts) (rat q)) = false := by simp [eqWithVar, sameClass]
      rw [h2, Bool.or_false, Bool.and_eq_false_iff]
      exact .inr h3
    refine runs_one (safePlan_scaledRoot hu n c) hr (root_unit_runs hO h hq ?_ n k bb) (by simp)
      (RU.rat_opMul (.mk h.arg (frac_succ hq)) (mul_ne_zero (inv_ne_zero h.ne) hq1) c (n + 6))
    intro p hp
    simp only [List.mem_singleton] at hp
    subst hp
    exact ⟨_, rfl⟩

end Tree

/-- `integrate(c * (a*x+b)**q)`, as it is written. -/
theorem integrate_root (hO : O.Exact) (h : Linear v a b (sum ts)) (hq : q.den ≠ 1) (hc : c ≠ 0) (n k : Nat) (ν : Supply) (bf fin : Bool) :
    Node.integrate O (n + 15) ν bf k fin v (scale c (pow (sum ts) (rat q))) =
      .ok (some (scale (c * (a⁻¹ * (q + 1)⁻¹)) (pow (sum ts) (rat (q + 1))))) :=
  integrate_of_runs (Tree.root_runs hO h hq hc (n + 7) (n + 11) false) (RU.simplify (.mk h.arg hq) c (n + 9))
    (RU.simplify (.mk h.arg (frac_succ hq)) _ (n + 9))

/-! ## The derivative -/

theorem diff_root (h : Linear v a b (sum ts)) (hq : q.den ≠ 1) (n : Nat) :
    diffE O (n + 7) v (pow (sum ts) (rat q)) = .ok (scale (q * a) (pow (sum ts) (rat (q - 1)))) := by
  have hu : RU v (pow (sum ts) (rat (q - 1))) := .mk h.arg (frac_pred hq)
  have a1 : opSub (ctors O (n + 6)) (rat q) (rat 1) = .ok (rat (q - 1)) := rfl
  have a2 : opPow O (ctors O (n + 6)) (sum ts) (rat (q - 1)) = .ok (pow (sum ts) (rat (q - 1))) := RU.pow_ctor (frac_pred hq) (n + 5)
  have a3 : opMul (ctors O (n + 6)) (rat q) (pow (sum ts) (rat (q - 1))) = .ok (scale q (pow (sum ts) (rat (q - 1)))) := by
    have := hu.rat_opMul (O := O) (a := 1) one_ne_zero q (n + 4)
    simpa [scale] using this
  have a4 := hu.opMul_rat (O := O) (frac_ne_zero hq) a (n + 4)
  have hcx : (rat q).contains v = false := rfl
  rw [diffE]
  simp only [hcx, Bool.not_false, if_true, a1, a2, a3, a4, h.diff n, bind, Except.bind]

theorem diff_scale_root (h : Linear v a b (sum ts)) (hq : q.den ≠ 1) (hc : c ≠ 0) (n : Nat) :
    diffE O (n + 8) v (scale c (pow (sum ts) (rat q))) = .ok (scale (c * (q * a)) (pow (sum ts) (rat (q - 1)))) := by
  by_cases h1 : c = 1
  · subst h1; simpa [scale] using diff_root h hq (n + 1)
  · have hu : RU v (pow (sum ts) (rat q)) := .mk h.arg hq
    have hw : RU v (pow (sum ts) (rat (q - 1))) := .mk h.arg (frac_pred hq)
    have hk : q * a ≠ 0 := mul_ne_zero (frac_ne_zero hq) h.ne
    have hd := diff_root (O := O) h hq n
    have e : scale c (pow (sum ts) (rat q)) = prod [rat c, pow (sum ts) (rat q)] := by simp [scale, hc, h1]
    have hr : diffE O (n + 7) v (rat c) = .ok (rat 0) := by simp [diffE]
    have h2 : (ctors O (n + 7)).prod [rat 0, pow (sum ts) (rat q)] = .ok (rat 0) := by
      have : (ctors O (n + 7)).prod [rat 0, pow (sum ts) (rat q)] = .ok (scale 0 (pow (sum ts) (rat q))) := hu.rat_unit 0
      simpa [scale] using this
    have h3 : (ctors O (n + 7)).prod [scale (q * a) (pow (sum ts) (rat (q - 1))), rat c] = .ok (scale (c * (q * a)) (pow (sum ts) (rat (q - 1)))) := by
      rw [mul_comm c]; exact hw.mul_rat hk c (n + 5)
    have h4 : (ctors O (n + 7)).sum [rat 0, scale (c * (q * a)) (pow (sum ts) (rat (q - 1)))] = .ok (scale (c * (q * a)) (pow (sum ts) (rat (q - 1)))) :=
      hw.sum_zero (mul_ne_zero hc hk) _
    rw [e, diffE]
    simp only [prodDiffTerms, hd, hr, bind, Except.bind, pure, Except.pure, List.nil_append, List.append_nil, h2, h3, h4]

end Lin
end Simpy
