import Verif.Proofs.ExpDiff
import Verif.Proofs.ElemInt

/-! # Lemmas: differences of rational multiples of sines, cosines and logarithms of rational numbers -/

namespace Simpy
namespace Lin
open Expr

variable {O : Oracle} {C : Ctors} {u w t x y : Expr} {k l : ℚ}

/-- The sine or the cosine of a positive rational number, or the logarithm of one other than 1. -/
inductive TU : Expr → Prop
  | ln (r : ℚ) : 0 < r → r ≠ 1 → TU (log (rat r) euler)
  | sin (r : ℚ) : 0 < r → TU (trig .sin (rat r))
  | cos (r : ℚ) : 0 < r → TU (trig .cos (rat r))

theorem TU.isProd (h : TU u) : u.isProd = false := by cases h <;> rfl

/-! ## Products with numbers -/

theorem TU.cmp (h : TU u) (a : ℚ) : cmpLt C (rat a) u = .ok true := by
  cases h <;> simp [cmpLt, Simpy.nwf, Expr.varies, syms, anys, symbolessNest, bind, Except.bind, pure, Except.pure]

theorem TU.sort (h : TU u) (a : ℚ) : sortTerms C [u, rat a] = .ok [rat a, u] := by
  simp [sortTerms, pySorted, countRun, h.cmp, runTail, binarySort, bind, Except.bind, pure, Except.pure]

theorem TU.prodCtor_of (h : TU u) {ts : List Expr} {a : ℚ} {cs : List ℚ} (hcs : cs ≠ [])
    (hl : combineProdLoop O C (flatPL ts).length (flatPL ts) = .ok ([u], cs.map rat)) (ha : cs.prod = a) :
    prodCtor O C ts = .ok (scale a u) := by
  have hacc : accumulateProd O (cs.map rat) = .ok (rat a) := by
    have fold : ∀ (l : List ℚ) (x : ℚ), foldNum (numMul O) (.frac x) ((l.map rat).map value) = .ok (.frac (x * l.prod)) := by
      intro l
      induction l with
      | nil => intro x; simp [foldNum]
      | cons y r ih => intro x; simp only [List.map_cons, value, foldNum, numMul]; rw [ih]; simp [mul_assoc]
    match cs, hcs, ha with
    | [c], _, ha => simp at ha; simp [accumulateProd, ha]
    | c :: d :: r, _, ha =>
      simp only [accumulateProd, List.map_cons]
      have := fold (c :: d :: r) 1
      simp only [List.map_cons] at this
      rw [this]
      simp only [one_mul, ha, const]
  have hne : (cs.map rat).isEmpty = false := by cases cs <;> simp_all
  have hcomb : combineProd O C (flatPL ts) = .ok (if a = 0 then [rat 0] else if a = 1 then [u] else [u, rat a]) := by
    unfold combineProd
    rw [hl]
    simp only [bind, Except.bind, hne, hacc, beq, pure, Except.pure, Bool.false_eq_true, if_false]
    by_cases h0 : a = 0
    · simp [h0]
    · by_cases h1 : a = 1
      · simp [h1]
      · simp [h0, h1]
  unfold prodCtor
  rw [hcomb]
  by_cases h0 : a = 0
  · simp [h0, scale, bind, Except.bind, pure, Except.pure]
  · by_cases h1 : a = 1
    · simp [h1, scale, bind, Except.bind, pure, Except.pure]
    · simp only [h0, h1, if_false, bind, Except.bind, h.sort, scale, pure, Except.pure]
      cases h <;> rfl

theorem TU.prod1 (h : TU u) (a : ℚ) : prodCtor O C [rat a, u] = .ok (scale a u) := by
  refine h.prodCtor_of (cs := [a]) (by simp) ?_ (by simp)
  cases h <;> simp [flatPL, Simpy.flatP, combineProdLoop, deconPow, beq, List.filter_cons, Expr.isAcc, bind, Except.bind, pure, Except.pure]

theorem TU.prod2 (h : TU u) (hC : Squares C) (c a : ℚ) : prodCtor O C [rat c, prod [rat a, u]] = .ok (scale (c * a) u) := by
  by_cases e : a = c
  · subst e
    refine h.prodCtor_of (cs := [a ^ 2]) (by simp) ?_ (by simp [sq])
    have := hC a
    cases h <;> simp [flatPL, Simpy.flatP, combineProdLoop, deconPow, beq, List.filter_cons, Expr.isAcc, bind, Except.bind, pure, Except.pure, foldAdd, opAdd,
      likeFactor, this, show ((1 : ℚ) + 1) = 2 by norm_num]
  · refine h.prodCtor_of (cs := [c, a]) (by simp) ?_ (by simp)
    cases h <;> simp [flatPL, Simpy.flatP, combineProdLoop, deconPow, beq, List.filter_cons, Expr.isAcc, bind, Except.bind, pure, Except.pure, e]

theorem TU.prod_scale (h : TU u) (hC : Squares C) (c : ℚ) {a : ℚ} (ha : a ≠ 0) : prodCtor O C [rat c, scale a u] = .ok (scale (c * a) u) := by
  by_cases h1 : a = 1
  · subst h1; simpa [scale] using h.prod1 (C := C) c
  · have : scale a u = prod [rat a, u] := by simp [scale, ha, h1]
    rw [this]; exact h.prod2 hC c a

theorem TU.prod_neg (h : TU u) (hC : Squares C) (a : ℚ) : prodCtor O C [prod [rat a, u], rat (-1)] = .ok (scale (-a) u) := by
  by_cases e : -1 = a
  · subst e
    refine h.prodCtor_of (cs := [(-1) ^ 2]) (by simp) ?_ (by simp)
    have := hC (-1)
    cases h <;> simp [flatPL, Simpy.flatP, combineProdLoop, deconPow, beq, List.filter_cons, Expr.isAcc, bind, Except.bind, pure, Except.pure, foldAdd, opAdd,
      likeFactor, this, show ((1 : ℚ) + 1) = 2 by norm_num] <;> simpa using this
  · refine h.prodCtor_of (cs := [a, -1]) (by simp) ?_ (by simp)
    cases h <;> simp [flatPL, Simpy.flatP, combineProdLoop, deconPow, beq, List.filter_cons, Expr.isAcc, bind, Except.bind, pure, Except.pure, e]

/-! ## Text -/

theorem intStr_ne (z : ℤ) : intStr z ≠ [] := by
  intro h
  have : (toString z) = "" := by
    unfold intStr at h
    exact String.toList_eq_nil_iff.1 h
  cases z with
  | ofNat m => 
    have := congrArg String.length this
    simp [toString, Int.repr] at this
  | negSucc m => simp [toString, Int.repr] at this

theorem ratStr_ne (q : ℚ) : ratStr q ≠ [] := by
  unfold ratStr
  split
  · exact intStr_ne _
  · simp

theorem TU.repr (h : TU u) (n : Nat) : Ok ((ctors O (n + 2)).repr u) := by
  cases h with
  | ln r _ _ => exact Ok.bind ⟨_, repr_rat n r⟩ fun s hs => by rw [repr_rat] at hs; cases hs; exact wrap_ok (ratStr_ne r)
  | sin r _ => exact Ok.bind ⟨_, repr_rat n r⟩ fun s hs => by rw [repr_rat] at hs; cases hs; exact wrap_ok (ratStr_ne r)
  | cos r _ => exact Ok.bind ⟨_, repr_rat n r⟩ fun s hs => by rw [repr_rat] at hs; cases hs; exact wrap_ok (ratStr_ne r)

theorem TU.numDen (h : TU u) (C : Ctors) : numDenTerm O C u = .ok ([u], []) := by cases h <;> rfl

theorem TU.numDen_scaled (h : TU u) (a : ℚ) : ∃ (p : Expr) (d : ℚ), Simpy.numDen O C [rat a, u] = .ok (p, rat d) ∧
    (p = rat a.num ∨ p = u ∨ p = prod [rat a.num, u]) := by
  have hr : ∀ C, numDenTerm O C (rat a) = .ok (if a.num ≠ 1 then [rat a.num] else [], if a.den ≠ 1 then [rat a.den] else []) := fun _ => rfl
  unfold Simpy.numDen
  have hmk : mkProdSkip [u] = .ok u := by simp [mkProdSkip, h.isProd]
  simp only [numDenLoop, h.numDen _, hr, bind, Except.bind, pure, Except.pure, List.append_nil]
  by_cases h1 : a.num = 1 <;> by_cases h2 : a.den = 1
  · exact ⟨u, 1, by simp [h1, h2, hmk]; rfl, .inr (.inl rfl)⟩
  · exact ⟨u, a.den, by simp [h1, h2, hmk]; rfl, .inr (.inl rfl)⟩
  · exact ⟨prod [rat a.num, u], 1, by simp [h1, h2, mkProdSkip], .inr (.inr rfl)⟩
  · exact ⟨prod [rat a.num, u], a.den, by simp [h1, h2, mkProdSkip, Expr.isProd], .inr (.inr rfl)⟩

theorem TU.prodTerm (h : TU u) (m : Nat) : Ok (prodTermRepr (ctors O (m + 2)) u) := by
  unfold prodTermRepr
  exact Ok.bind (h.repr m) fun s _ => ⟨_, rfl⟩

theorem TU.mapR_unit (h : TU u) (m : Nat) (a : ℚ) : Ok (mapR (prodTermRepr (ctors O (m + 2))) [rat a, u]) := by
  obtain ⟨s1, e1⟩ : Ok (prodTermRepr (ctors O (m + 2)) (rat a)) := Ok.bind ⟨_, repr_rat (m + 1) a⟩ fun s _ => ⟨_, rfl⟩
  obtain ⟨s2, e2⟩ := h.prodTerm (O := O) m
  exact ⟨[s1, s2], by simp [mapR, e1, e2]⟩

theorem TU.repr_int (h : TU u) {a : ℚ} (ha : ¬ a < 0) (hd : a.den = 1) (n : Nat) : Ok ((ctors O (n + 3)).repr (prod [rat a, u])) := by
  show Ok (prodRepr O (ctors O (n + 2)) [rat a, u])
  have hsub : (prod [rat a, u]).isSubtraction = false := by simpa [isSubtraction] using ha
  unfold prodRepr
  rw [hsub]
  simp only [Bool.false_eq_true, if_false]
  have hnd : ∃ p, Simpy.numDen O (ctors O (n + 2)) [rat a, u] = .ok (p, rat 1) := by
    have hr : ∀ C, numDenTerm O C (rat a) = .ok (if a.num ≠ 1 then [rat a.num] else [], if a.den ≠ 1 then [rat a.den] else []) := fun _ => rfl
    have hmk : mkProdSkip [u] = .ok u := by simp [mkProdSkip, h.isProd]
    unfold Simpy.numDen
    simp only [numDenLoop, h.numDen _, hr, bind, Except.bind, pure, Except.pure, List.append_nil]
    by_cases h1 : a.num = 1
    · exact ⟨u, by simp [h1, hd, hmk]; rfl⟩
    · exact ⟨prod [rat a.num, u], by simp [h1, hd, mkProdSkip]⟩
  obtain ⟨p, hpq⟩ := hnd
  refine Ok.bind ⟨_, hpq⟩ fun w hw => ?_
  rw [hpq] at hw
  cases hw
  simp only [beq, beq_self_eq_true, Bool.not_true, Bool.false_eq_true, if_false]
  exact Ok.bind (h.mapR_unit n a) fun _ _ => ⟨_, rfl⟩

theorem TU.repr_pos (h : TU u) {a : ℚ} (ha : ¬ a < 0) (n : Nat) : Ok ((ctors O (n + 4)).repr (prod [rat a, u])) := by
  show Ok (prodRepr O (ctors O (n + 3)) [rat a, u])
  have hsub : (prod [rat a, u]).isSubtraction = false := by simpa [isSubtraction] using ha
  unfold prodRepr
  rw [hsub]
  simp only [Bool.false_eq_true, if_false]
  obtain ⟨p, d, hpq, hp⟩ := h.numDen_scaled (O := O) (C := ctors O (n + 3)) a
  have hpr : Ok ((ctors O (n + 3)).repr p) := by
    rcases hp with rfl | rfl | rfl
    · exact ⟨_, rfl⟩
    · exact h.repr (n + 1)
    · refine h.repr_int ?_ (by simp) n
      have := Rat.num_nonneg.2 (not_lt.1 ha)
      simpa using this
  have prt : ∀ {t}, Ok ((ctors O (n + 3)).repr t) → Ok (prodTermRepr (ctors O (n + 3)) t) := fun ht =>
    Ok.bind ht fun s _ => ⟨_, rfl⟩
  refine Ok.bind ⟨_, hpq⟩ fun w hw => ?_
  rw [hpq] at hw
  cases hw
  dsimp only
  refine Ok.ite ?_ ?_
  · obtain ⟨a2, e2⟩ := prt hpr
    obtain ⟨a1, e1⟩ := hpr
    obtain ⟨b2, e4⟩ := prt (t := rat d) ⟨_, rfl⟩
    cases p.isProd <;> simp [Expr.isProd, e1, e2, e4, bind, Except.bind, pure, Except.pure] <;> exact ⟨_, rfl⟩
  · exact Ok.bind (h.mapR_unit (n + 1) a) fun _ _ => ⟨_, rfl⟩

theorem TU.repr_prod (h : TU u) (a : ℚ) (n : Nat) : Ok ((ctors O (n + 5)).repr (prod [rat a, u])) := by
  by_cases ha : a < 0
  · show Ok (prodRepr O (ctors O (n + 4)) [rat a, u])
    have hsub : (prod [rat a, u]).isSubtraction = true := by simpa [isSubtraction] using ha
    unfold prodRepr
    rw [hsub]
    simp only [if_true]
    have hnp : (ctors O (n + 4)).prod [prod [rat a, u], rat (-1)] = .ok (scale (-a) u) := h.prod_neg (squares_ctors (n + 2)) a
    refine Ok.bind ⟨_, hnp⟩ fun w hw => ?_
    rw [hnp] at hw
    cases hw
    have h0 : ¬ (-a = 0) := by intro h0; have : a = 0 := by linarith
                               rw [this] at ha; exact lt_irrefl _ ha
    by_cases h1 : -a = 1
    · simp only [scale, h0, h1, if_false, if_true, h.isProd, Bool.not_false, one_ne_zero]
      exact Ok.bind (h.prodTerm (n + 2)) fun _ _ => ⟨_, rfl⟩
    · have hs : (prod [rat (-a), u]).isSubtraction = false := by simp [isSubtraction]; linarith
      simp only [scale, h0, h1, if_false, Expr.isProd, Bool.not_true, Bool.false_eq_true, hs]
      exact Ok.bind (h.repr_pos (by linarith) n) fun _ _ => ⟨_, rfl⟩
  · exact h.repr_pos ha (n + 1)

/-! ## Sums of two -/

/-- A rational number, or a rational multiple of a sine, cosine or logarithm. -/
inductive TV : Expr → Prop
  | num (q : ℚ) : TV (rat q)
  | unit {u : Expr} : TU u → TV u
  | scaled (k : ℚ) {u : Expr} : k ≠ 0 → k ≠ 1 → TU u → TV (prod [rat k, u])

theorem TV.ofScale (h : TU u) (a : ℚ) : TV (scale a u) := by
  unfold scale
  split_ifs with h0 h1
  · exact .num 0
  · exact .unit h
  · exact .scaled a h0 h1 h

theorem TV.repr (h : TV t) (n : Nat) : Ok ((ctors O (n + 5)).repr t) := by
  cases h with
  | num q => exact ⟨_, rfl⟩
  | unit h => exact h.repr (n + 3)
  | scaled k _ _ h => exact h.repr_prod k n

theorem TV.nwf (h : TV t) : Simpy.nwf t = .ok 0 := by
  cases h with
  | num q => rfl
  | unit h => cases h <;> rfl
  | scaled k _ _ h => cases h <;> rfl

theorem TV.cmp (hx : TV x) (hy : TV y) (n : Nat) : Ok (cmpLt (ctors O (n + 5)) x y) := by
  obtain ⟨a, ha⟩ := hx.repr (O := O) n
  obtain ⟨b, hb⟩ := hy.repr (O := O) n
  simp only [cmpLt, hx.nwf, hy.nwf, bind, Except.bind, pure, Except.pure, and_self, if_true, ha, hb]
  split <;> exact ⟨_, rfl⟩

theorem TV.sort (hx : TV x) (hy : TV y) (n : Nat) :
    sortTerms (ctors O (n + 5)) [x, y] = .ok [x, y] ∨ sortTerms (ctors O (n + 5)) [x, y] = .ok [y, x] := by
  obtain ⟨b, hb⟩ := hy.cmp hx (O := O) n
  cases b <;> simp [sortTerms, pySorted, countRun, hb, runTail, binarySort, bind, Except.bind, pure, Except.pure]

/-- What a sum of two of them is. -/
inductive TS : Expr → Prop
  | one {t : Expr} : TV t → TS t
  | two {x y : Expr} : TV x → TV y → TS (sum [x, y])

theorem TV.notSum (h : TV t) : flatS t = [t] := by
  cases h with
  | num q => rfl
  | unit h => cases h <;> rfl
  | scaled k _ _ h => rfl

theorem TV.parts (h : TV t) : (∃ q, t = rat q) ∨ ∃ k u, TU u ∧ deconProd t = ([rat k], [u]) ∧ t.isAcc = false := by
  cases h with
  | num q => exact .inl ⟨q, rfl⟩
  | unit h => exact .inr ⟨1, t, h, by cases h <;> rfl, by cases h <;> rfl⟩
  | scaled k _ _ h => exact .inr ⟨k, _, h, by cases h <;> rfl, rfl⟩

theorem TV.combine (hx : TV x) (hy : TV y) : ∃ fs, combineSum O [x, y] = .ok fs ∧ (fs = [] ∨ (∃ t, TV t ∧ fs = [t]) ∨ ∃ s t, TV s ∧ TV t ∧ fs = [s, t]) := by
  have like : ∀ {u : Expr} (k l : ℚ), TU u → ∃ o, likeTerm O [rat k, rat l] [u] = .ok o ∧ ∀ t, o = some t → TV t := by
    intro u k l h
    have hmk : mkProdSkip [u] = .ok u := by simp [mkProdSkip, h.isProd]
    have hmk2 : ∀ c : ℚ, mkProdSkip [rat c, u] = .ok (prod [rat c, u]) := fun c => by simp [mkProdSkip]
    have ha : accumulateSum O [rat k, rat l] = .ok (rat (k + l)) := by simp [accumulateSum, value, foldNum, numAdd, const]
    unfold likeTerm
    simp only [ha, hmk, hmk2, bind, Except.bind, pure, Except.pure, beq]
    by_cases h0 : k + l = 0
    · exact ⟨none, by simp [h0], by simp⟩
    · by_cases h1 : k + l = 1
      · exact ⟨some u, by simp [h1], fun t ht => by cases ht; exact .unit h⟩
      · exact ⟨some (prod [rat (k + l), u]), by simp [h0, h1], fun t ht => by cases ht; exact .scaled _ h0 h1 h⟩
  have ar : ∀ q : ℚ, (rat q).isAcc = true := fun _ => rfl
  have dr : ∀ q : ℚ, deconProd (rat q) = ([rat 1], [rat q]) := fun _ => rfl
  have ac : ∀ q : ℚ, accumulateSum O [rat q] = .ok (rat q) := fun _ => rfl
  rcases hx.parts with ⟨p, rfl⟩ | ⟨k, u, hu, dx, ax⟩ <;> rcases hy.parts with ⟨q, rfl⟩ | ⟨l, w, hw, dy, ay⟩
  · by_cases h : p + q = 0
    · exact ⟨[], by simp [combineSum, combineSumLoop, Expr.isAcc, accumulateSum, foldNum, numAdd, value, const, beq, h, bind, Except.bind, pure, Except.pure], .inl rfl⟩
    · exact ⟨[rat (p + q)], by simp [combineSum, combineSumLoop, Expr.isAcc, accumulateSum, foldNum, numAdd, value, const, beq, h, bind, Except.bind, pure, Except.pure],
        .inr (.inl ⟨_, .num _, rfl⟩)⟩
  · by_cases h : p = 0
    · exact ⟨[y], by simp [combineSum, combineSumLoop, ar, ay, ac, beq, h, bind, Except.bind, pure, Except.pure], .inr (.inl ⟨_, hy, rfl⟩)⟩
    · exact ⟨[y, rat p], by simp [combineSum, combineSumLoop, ar, ay, ac, beq, h, bind, Except.bind, pure, Except.pure],
        .inr (.inr ⟨_, _, hy, .num p, rfl⟩)⟩
  · have dq : ∀ q, beqL O [u] [rat q] = false := fun q => by cases hu <;> rfl
    by_cases h : q = 0
    · exact ⟨[x], by simp [combineSum, combineSumLoop, ar, ax, dx, dr, dq, ac, beq, h, bind, Except.bind, pure, Except.pure],
        .inr (.inl ⟨_, hx, rfl⟩)⟩
    · exact ⟨[x, rat q], by simp [combineSum, combineSumLoop, ar, ax, dx, dr, dq, ac, beq, h, bind, Except.bind, pure, Except.pure],
        .inr (.inr ⟨_, _, hx, .num q, rfl⟩)⟩
  · by_cases h : u = w
    · subst h
      have hb : beqL O [u] [u] = true := by cases hu <;> simp [beqL, beq]
      obtain ⟨o, ho, hev⟩ := like k l hu
      refine ⟨o.toList, by simp [combineSum, combineSumLoop, ax, dx, dy, hb, ho, bind, Except.bind, pure, Except.pure], ?_⟩
      cases o with
      | none => exact .inl rfl
      | some t => exact .inr (.inl ⟨t, hev t rfl, rfl⟩)
    · have hb : beqL O [u] [w] = false := by
        cases hu <;> cases hw <;> simp [beqL, beq] <;> simp_all
      exact ⟨[x, y], by simp [combineSum, combineSumLoop, ax, ay, dx, dy, hb, bind, Except.bind, pure, Except.pure], .inr (.inr ⟨_, _, hx, hy, rfl⟩)⟩

theorem TV.add (hx : TV x) (hy : TV y) (n : Nat) : ∃ r, sumCtor O (ctors O (n + 5)) [x, y] = .ok r ∧ TS r := by
  obtain ⟨fs, hf, h⟩ := TV.combine (O := O) hx hy
  have hfl : flatSL [x, y] = [x, y] := by simp [flatSL, hx.notSum, hy.notSum]
  unfold sumCtor
  rw [hfl, hf]
  rcases h with rfl | ⟨t, ht, rfl⟩ | ⟨s, t, hs, ht, rfl⟩
  · exact ⟨_, rfl, .one (.num 0)⟩
  · exact ⟨_, rfl, .one ht⟩
  · simp only [bind, Except.bind, pure, Except.pure]
    rcases hs.sort ht (O := O) n with e | e
    · rw [e]; exact ⟨_, rfl, .two ht hs⟩
    · rw [e]; exact ⟨_, rfl, .two hs ht⟩

/-! ## Values -/

theorem TU.val (h : TU u) : WF u ∧ ∀ ρ, Dom ρ u := by
  have he : Real.exp 1 ≠ 1 := by rw [Ne, Real.exp_eq_one_iff]; norm_num
  cases h with
  | ln r h0 h1 =>
    have : (0 : ℝ) < r := by exact_mod_cast h0
    exact ⟨by simp [WF], fun ρ => by simp [Dom, DomS, HN, den, h0, h0.le, he, Real.exp_pos]⟩
  | _ => exact ⟨by simp [WF], fun ρ => by simp [Dom, DomS, TrigFn.ok]⟩

theorem TV.val (h : TV t) : WF t ∧ ∀ ρ, Dom ρ t := by
  cases h with
  | num q => exact ⟨by simp, fun ρ => by simp [Dom]⟩
  | unit h => exact h.val
  | scaled k _ _ h =>
    refine ⟨?_, fun ρ => Dom_prod.2 fun t ht => ?_⟩
    · refine WF_prod.2 ⟨by cases h <;> simp [List.filter_cons, Expr.isAcc], fun t ht => ?_⟩
      simp only [List.mem_cons, List.not_mem_nil, or_false] at ht
      rcases ht with rfl | rfl
      · simp
      · exact h.val.1
    · simp only [List.mem_cons, List.not_mem_nil, or_false] at ht
      rcases ht with rfl | rfl
      · simp
      · exact h.val.2 ρ

theorem TS.wf (h : TS t) : WF t := by
  cases h with
  | one h => exact h.val.1
  | two hx hy =>
    refine WF_sum.2 fun t ht => ?_
    simp only [List.mem_cons, List.not_mem_nil, or_false] at ht
    rcases ht with rfl | rfl
    · exact hx.val.1
    · exact hy.val.1

/-! ## `simplify` -/

theorem trig_pos {f : TrigFn} (hf : f = .sin ∨ f = .cos) {r : ℚ} (hr : 0 < r) (n : Nat) : trigCtor O (n + 1) f (rat r) = .ok (trig f (rat r)) := by
  have h0 : beq O (rat r) (rat 0) = false := by simpa [beq] using hr.ne'
  have hn : trigNew O (ctors O n) f (rat r) = .ok (trig f (rat r)) := by
    unfold trigNew
    rw [h0]
    rcases hf with rfl | rfl <;> rfl
  have hs : (rat r).isSubtraction = false := by simpa [isSubtraction] using hr.le
  rcases hf with rfl | rfl <;> simp [trigCtor, hs, hn, bind, Except.bind, pure, Except.pure]

/-- What a pass of a perform through the parts leaves as it is. -/
structure Idle (O : Oracle) (perf : Nat → Expr → R Rep) : Prop where
  num : ∀ n q, replaceE O perf (n + 1) (rat q) = .ok (rat q)
  unit : ∀ {u} n, TU u → replaceE O perf (n + 10) u = .ok u
  prod : ∀ {u} n k, TU u → perf (n + 9) (prod [rat k, u]) = .ok .pass ∨ perf (n + 9) (prod [rat k, u]) = .ok .stop
  sum : ∀ {x y} n, TV x → TV y → perf (n + 9) (sum [x, y]) = .ok .pass ∨ perf (n + 9) (sum [x, y]) = .ok .stop

theorem trigIdle {perf : Nat → Expr → R Rep} (hstop : ∀ n t, containsCls isPlainTrig t = false → perf n t = .ok .stop)
    (htrig : ∀ n f L, f = .sin ∨ f = .cos → perf (n + 9) (trig f L) = .ok .pass) {u : Expr} (n : Nat) (h : TU u) :
    replaceE O perf (n + 10) u = .ok u := by
  have hr : ∀ r, replaceE O perf (n + 9) (rat r) = .ok (rat r) := fun r => replace_stop (hstop _ _ rfl)
  cases h with
  | ln r _ _ => exact replace_stop (hstop _ _ rfl)
  | sin r h0 =>
    rw [replaceE]
    simp only [htrig n _ _ (.inl rfl), bind, Except.bind, hr]
    exact trig_pos (.inl rfl) h0 _
  | cos r h0 =>
    rw [replaceE]
    simp only [htrig n _ _ (.inr rfl), bind, Except.bind, hr]
    exact trig_pos (.inr rfl) h0 _

theorem TV.pass (h : TV t) {perf : Nat → Expr → R Rep} (hp : Idle O perf) (n : Nat) : replaceE O perf (n + 11) t = .ok t := by
  cases h with
  | num q => exact hp.num _ q
  | unit h => exact hp.unit (n + 1) h
  | scaled k h0 h1 h =>
    rcases hp.prod (n + 1) k h with e | e
    · rw [replaceE]
      simp only [e, bind, Except.bind, mapR, hp.num _ k, hp.unit n h]
      have := h.prod1 (O := O) (C := ctors O (n + 9)) k
      simp only [scale, h0, h1, if_false] at this
      exact this
    · exact replace_stop e

/-- A pass in which no rule applies. -/
theorem TS.pass (hO : O.Exact) (h : TS t) {perf : Nat → Expr → R Rep} (hp : Idle O perf) (n : Nat) :
    ∃ r, replaceE O perf (n + 12) t = .ok r ∧ TS r ∧ ∀ ρ, den ρ r = den ρ t ∧ (Dom ρ t → Dom ρ r) := by
  cases h with
  | one h => exact ⟨t, h.pass hp (n + 1), .one h, fun ρ => ⟨rfl, id⟩⟩
  | @two x y hx hy =>
    rcases hp.sum (n + 2) hx hy with e | e
    · obtain ⟨r, hr, hs⟩ := TV.add (O := O) hx hy (n + 5)
      have hrun : replaceE O perf (n + 12) (sum [x, y]) = .ok r := by
        rw [replaceE]
        simp only [e, bind, Except.bind, mapR, hx.pass hp n, hy.pass hp n]
        exact hr
      refine ⟨r, hrun, hs, fun ρ => ?_⟩
      have := (ctors_sound hO (n + 11)).sum (s := false) ρ [x, y] r (by simp [hx.val.1, hy.val.1])
        (by intro t ht; simp only [List.mem_cons, List.not_mem_nil, or_false] at ht; rcases ht with rfl | rfl; exacts [hx.val.2 ρ, hy.val.2 ρ]) hr
      exact ⟨by rw [this.1, den_sum], fun _ => this.2⟩
    · refine ⟨sum [x, y], replace_stop e, .two hx hy, fun ρ => ⟨rfl, id⟩⟩

theorem TV.noCls {p : Expr → Bool} (hr : ∀ q, p (rat q) = false) (he : p euler = false) (hl : ∀ q, p (log (rat q) euler) = false) (hp : ∀ ts, p (prod ts) = false) (ht : ∀ q, p (trig .sin (rat q)) = false ∧ p (trig .cos (rat q)) = false)
    (h : TV t) : containsCls p t = false := by
  have hu : ∀ {u}, TU u → containsCls p u = false := fun h => by cases h <;> simp [containsCls, hr, ht, he, hl]
  cases h with
  | num q => simp [containsCls, hr]
  | unit h => exact hu h
  | scaled k _ _ h => simp [containsCls, containsClsL, hr, hp, hu h]

theorem TV.fracTerm (h : TV t) (C : Ctors) : ∃ nd, Simpy.fracTerm O C false t = .ok (nd, false) := by
  cases h with
  | num q => exact ⟨_, rfl⟩
  | unit h => cases h <;> exact ⟨_, rfl⟩
  | scaled k _ _ h =>
    obtain ⟨p, d, h1, -⟩ := h.numDen_scaled (O := O) (C := C) k
    exact ⟨(p, rat d), by simp [Simpy.fracTerm, h1, syms, bind, Except.bind, pure, Except.pure]⟩

theorem TV.pass1 (hx : TV x) (hy : TV y) (n : Nat) : trigPass1 O (n + 9) (sum [x, y]) = .ok .pass ∨ trigPass1 O (n + 9) (sum [x, y]) = .ok .stop := by
  unfold trigPass1 withTrig
  split
  · rename_i hc
    left
    have no : ∀ {p : Expr → Bool}, (∀ q, p (rat q) = false) → p euler = false → (∀ q, p (log (rat q) euler) = false) → (∀ ts, p (prod ts) = false) → (∀ q, p (trig .sin (rat q)) = false ∧ p (trig .cos (rat q)) = false) →
        (∀ ts, p (sum ts) = false) → containsCls p (sum [x, y]) = false := fun h1 he hl h2 h3 h4 => by
      simp [containsCls, containsClsL, h4, hx.noCls h1 he hl h2 h3, hy.noCls h1 he hl h2 h3]
    have hl : containsCls (listed (toSinCos O)) (sum [x, y]) = false := no (fun _ => rfl) rfl (fun _ => rfl) (fun _ => rfl) (fun _ => ⟨rfl, rfl⟩) fun _ => rfl
    have hq : generalContains (isTrigSquare O) (sum [x, y]) = false := no (fun _ => rfl) rfl (fun _ => rfl) (fun _ => rfl) (fun _ => ⟨rfl, rfl⟩) fun _ => rfl
    have hrc : replaceClass O (toSinCos O) (n + 9) (sum [x, y]) = .ok (sum [x, y]) := by rw [replaceClass]; simp [hl]
    have h1 : pythPerf O (n + 9) (sum [x, y]) = .ok .pass := by
      simp only [pythPerf, hc, hq, Bool.not_true, Bool.not_false, Bool.false_eq_true, if_false, if_true]
    have h2 : pythComplexPerf O (n + 9) (sum [x, y]) = .ok .pass := by
      obtain ⟨a, ha⟩ := hx.fracTerm (O := O) (ctors O (n + 9))
      obtain ⟨b, hb⟩ := hy.fracTerm (O := O) (ctors O (n + 9))
      have ho : oneFraction O (ctors O (n + 9)) false (sum [x, y]) = .ok none := by
        simp [oneFraction, mapR, ha, hb, bind, Except.bind, pure, Except.pure]
      simp only [pythComplexPerf, hrc, ho, bind, Except.bind, pure, Except.pure]
    simp only [firstRep, h1, h2, recipPerf]
  · exact .inr rfl

theorem TV.ptsUnit (h : TV t) (n : Nat) : Simpy.ptsUnit O (n + 1) t none = .ok none := by
  cases h with
  | num q => rfl
  | unit h => cases h <;> rfl
  | scaled k _ _ h => cases h <;> rfl

theorem TV.squared (h : TV t) (f : TrigFn) : isClassSquared f t = .ok false := by
  cases h with
  | num q => rfl
  | unit h => cases h <;> rfl
  | scaled k _ _ h => cases h <;> rfl

theorem TV.pass2 (hx : TV x) (hy : TV y) (n : Nat) : trigPass2 O (n + 9) (sum [x, y]) = .ok .pass ∨ trigPass2 O (n + 9) (sum [x, y]) = .ok .stop := by
  unfold trigPass2 withTrig
  split
  · left
    have h1 : combinePerf O (n + 9) (sum [x, y]) = .ok .pass := rfl
    have h2 : ptsPerf O (n + 9) (sum [x, y]) = .ok .pass := by
      simp [ptsPerf, ptsList, mapR, hx.ptsUnit (O := O) (n + 8), hy.ptsUnit (O := O) (n + 8), bind, Except.bind, pure, Except.pure]
    have h3 : sectanPerf O (n + 9) (sum [x, y]) = .ok .pass := by
      simp [sectanPerf, sectanSplit, hx.squared, hy.squared, bind, Except.bind, pure, Except.pure]
    simp only [firstRep, h1, h2, h3]
  · exact .inr rfl

theorem TV.expandable (h : TV t) (n : Nat) : expandableE O (n + 3) t = .ok false := by
  have hu : ∀ {u m}, TU u → expandableE O (m + 2) u = .ok false := fun h => by cases h <;> rfl
  cases h with
  | num q => rfl
  | unit h => exact hu h
  | @scaled k u _ _ h =>
    obtain ⟨p, d, h1, -⟩ := h.numDen_scaled (O := O) (C := ctors O (n + 2)) k
    have hs : u.isSum = false := by cases h <;> rfl
    rw [expandableE]
    have hk : expandableE O (n + 2) (rat k) = .ok false := rfl
    have hrk : (rat k).isSum = false := rfl
    simp [anyR, hs, hrk, hk, hu h, h1, bind, Except.bind, pure, Except.pure]

theorem TS.noExpand (h : TS t) (n : Nat) : expandOr (expandableE O (n + 12)) (expandE O (n + 12)) t = .ok t := by
  have : expandableE O (n + 12) t = .ok false := by
    cases h with
    | one h => exact h.expandable (n + 9)
    | two hx hy =>
      rw [expandableE]
      simp [anyR, hx.expandable (O := O) (n + 8), hy.expandable (O := O) (n + 8), bind, Except.bind, pure, Except.pure]
  simp [expandOr, this, bind, Except.bind, pure, Except.pure]

theorem ln_rat (hO : O.Exact) {r : ℚ} (h0 : r ≠ 1) : logCtor O (rat r) euler = .ok (log (rat r) euler) := by
  simp [logCtor, beq, h0, hO.isE]

theorem logIdle (hO : O.Exact) : Idle O (logPerf O) := by
  refine ⟨fun n q => rfl, fun n h => ?_, fun n k h => .inl rfl, fun n _ _ => .inl rfl⟩
  have hr : ∀ q, replaceE O (logPerf O) (n + 9) (rat q) = .ok (rat q) := fun q => rfl
  cases h with
  | ln r h0 h1 =>
    rw [replaceE]
    simp only [logPerf, logArg, ln, ln_rat hO h1, bind, Except.bind, pure, Except.pure]
  | sin r h0 =>
    rw [replaceE]
    simp only [logPerf, bind, Except.bind, hr]
    exact trig_pos (.inl rfl) h0 _
  | cos r h0 =>
    rw [replaceE]
    simp only [logPerf, bind, Except.bind, hr]
    exact trig_pos (.inr rfl) h0 _

theorem TS.logs (hO : O.Exact) (h : TS t) (n : Nat) : ∃ r, logPart O (n + 12) t = .ok r ∧ ∀ ρ, den ρ r = den ρ t ∧ (Dom ρ t → Dom ρ r) := by
  unfold logPart
  split
  · obtain ⟨r, h1, h2, h3⟩ := h.pass hO (logIdle hO) n
    exact ⟨r, by simp only [expandLogs, h1, bind, Except.bind]; exact h2.noExpand n, h3⟩
  · exact ⟨t, rfl, fun ρ => ⟨rfl, id⟩⟩

/-- `simplify` of a sum of two. -/
theorem TS.simplify (hO : O.Exact) (h : TS t) (n : Nat) : ∃ r, simplifyE O (n + 12) t = .ok r ∧ ∀ ρ, den ρ r = den ρ t ∧ (Dom ρ t → Dom ρ r) := by
  have hx := h.noExpand (O := O) n
  have i1 : Idle O (trigPass1 O) := by
    have hs : ∀ n t, containsCls isPlainTrig t = false → trigPass1 O n t = .ok .stop := fun n t hc => by simp [trigPass1, withTrig, hc]
    refine ⟨fun n q => replace_stop (hs _ _ rfl), fun n h => trigIdle hs (by rintro n f L (rfl | rfl) <;> rfl) n h, fun n k h => ?_, fun n hx hy => hx.pass1 hy n⟩
    cases h with
    | ln r _ _ => exact .inr rfl
    | _ => exact .inl rfl
  have i2 : Idle O (trigPass2 O) := by
    have hs : ∀ n t, containsCls isPlainTrig t = false → trigPass2 O n t = .ok .stop := fun n t hc => by simp [trigPass2, withTrig, hc]
    refine ⟨fun n q => replace_stop (hs _ _ rfl), fun n h => trigIdle hs (by rintro n f L (rfl | rfl) <;> rfl) n h, fun n k h => ?_, fun n hx hy => hx.pass2 hy n⟩
    cases h with
    | ln r _ _ => exact .inr rfl
    | _ => exact .inl rfl
  obtain ⟨r1, h1, t1, v1⟩ := h.pass hO i1 n
  obtain ⟨r2, h2, t2, v2⟩ := t1.pass hO i2 n
  have h3 : ∃ r b, trigPart O (n + 12) t = .ok (r, b) ∧ TS r ∧ ∀ ρ, den ρ r = den ρ t ∧ (Dom ρ t → Dom ρ r) := by
    unfold trigPart
    split
    · exact ⟨r2, replaceHit (trigPass1 O) (n + 12) t || replaceHit (trigPass2 O) (n + 12) r1,
        by simp only [trigSimplify, h1, h2, bind, Except.bind, pure, Except.pure], t2, fun ρ => ⟨(v2 ρ).1.trans (v1 ρ).1, fun d => (v2 ρ).2 ((v1 ρ).2 d)⟩⟩
    · exact ⟨t, false, rfl, h, fun ρ => ⟨rfl, id⟩⟩
  obtain ⟨r, b, h3, tr, v⟩ := h3
  obtain ⟨r', h4, v'⟩ := tr.logs hO n
  have v : ∀ ρ, den ρ r' = den ρ t ∧ (Dom ρ t → Dom ρ r') := fun ρ => ⟨(v' ρ).1.trans (v ρ).1, fun d => (v' ρ).2 ((v ρ).2 d)⟩
  simp only [simplifyE, hx, h3, h4, bind, Except.bind, pure, Except.pure]
  split
  · exact ⟨r', rfl, v⟩
  · split
    · exact ⟨r', rfl, v⟩
    · exact ⟨t, rfl, fun ρ => ⟨rfl, id⟩⟩

/-! ## A bound for the variable -/

/-- `f(q)` for a sine or a cosine. -/
theorem trig_rat {f : TrigFn} (hf : f = .sin ∨ f = .cos) (q : ℚ) (n : Nat) :
    ∃ t, trigCtor O (n + 4) f (rat q) = .ok t ∧ (TU t ∨ (∃ u, TU u ∧ t = prod [rat (-1), u]) ∨ ∃ c, t = rat c) ∧ ∀ ρ, den ρ t = f.real q := by
  rcases lt_trichotomy q 0 with h | h | h
  · have h0 : beq O (rat q) (rat 0) = false := by simpa [beq] using h.ne
    have hs : (rat q).isSubtraction = true := by simpa [isSubtraction] using h
    have hp : 0 < -q := by linarith
    rcases hf with rfl | rfl
    · have e1 := trig_pos (O := O) (f := .sin) (.inl rfl) hp (n + 2)
      have e2 := (TU.sin _ hp).prod1 (O := O) (C := ctors O (n + 2)) (-1)
      have e3 : scale (-1) (trig .sin (rat (-q))) = prod [rat (-1), trig .sin (rat (-q))] := by unfold scale; norm_num
      rw [e3] at e2
      refine ⟨prod [rat (-1), trig .sin (rat (-q))], ?_, .inr (.inl ⟨_, .sin _ hp, rfl⟩), fun ρ => by simp [den, denP, TrigFn.real]⟩
      rw [trigCtor]
      simp only [hs, if_true, opNeg, e1, bind, Except.bind]
      exact e2
    · have hn : trigNew O (ctors O (n + 3)) .cos (rat q) = .ok (trig .cos (rat q)) := by
        unfold trigNew
        rw [h0]
        rfl
      refine ⟨trig .cos (rat (-q)), ?_, .inl (.cos _ hp), fun ρ => by simp [den, TrigFn.real]⟩
      rw [trigCtor]
      simp only [hn, hs, if_true, opNeg, bind, Except.bind, pure, Except.pure]
  · subst h
    rcases hf with rfl | rfl
    · exact ⟨rat 0, rfl, .inr (.inr ⟨_, rfl⟩), fun ρ => by simp [den, TrigFn.real]⟩
    · exact ⟨rat 1, rfl, .inr (.inr ⟨_, rfl⟩), fun ρ => by simp [den, TrigFn.real]⟩
  · refine ⟨_, trig_pos hf h (n + 3), .inl ?_, fun ρ => by simp [den]⟩
    rcases hf with rfl | rfl
    · exact .sin _ h
    · exact .cos _ h

variable {L : Expr} {v : Str} {a b c : ℚ}

theorem subs_trig {f : TrigFn} (hf : f = .sin ∨ f = .cos) (h : Slope v a b L) (hk : k ≠ 0) (A : ℚ) (n : Nat) :
    ∃ t, subsE O (n + 7) (single v (rat A)) (scale k (trig f L)) = .ok t ∧ TV t ∧ ∀ ρ, den ρ t = k * f.real (a * A + b) := by
  obtain ⟨t, ht, hs, hv⟩ := trig_rat (O := O) hf (a * A + b) (n + 1)
  obtain ⟨t', ht', hs', hv'⟩ := trig_rat (O := O) hf (a * A + b) (n + 2)
  have hv : ∀ ρ, den ρ t = f.real (a * A + b) := fun ρ => by rw [hv]; push_cast; rfl
  have hv' : ∀ ρ, den ρ t' = f.real (a * A + b) := fun ρ => by rw [hv']; push_cast; rfl
  have hp : ∀ m t, trigCtor O (m + 5) f (rat (a * A + b)) = .ok t → subsE O (m + 6) (single v (rat A)) (trig f L) = .ok t := fun m t ht => by
    rw [subsE]
    simp only [subs_arg h, bind, Except.bind]
    exact ht
  have tv : ∀ {t}, (TU t ∨ (∃ u, TU u ∧ t = prod [rat (-1), u]) ∨ ∃ c, t = rat c) → TV t := fun h => by
    rcases h with h | ⟨u, h, rfl⟩ | ⟨c, rfl⟩
    · exact .unit h
    · exact .scaled _ (by norm_num) (by norm_num) h
    · exact .num c
  by_cases h1 : k = 1
  · subst h1
    exact ⟨t', by simpa [scale] using hp (n + 1) t' ht', tv hs', fun ρ => by rw [hv']; simp⟩
  · have e : scale k (trig f L) = prod [rat k, trig f L] := by simp [scale, hk, h1]
    have hr : subsE O (n + 6) (single v (rat A)) (rat k) = .ok (rat k) := by simp [subsE]
    have hpr : ∀ r, (ctors O (n + 6)).prod [rat k, t] = .ok r → subsE O (n + 7) (single v (rat A)) (scale k (trig f L)) = .ok r := fun r h => by
      rw [e, subsE]
      simp only [mapR, hp n t ht, hr, bind, Except.bind, pure, Except.pure]
      exact h
    rcases hs with h | ⟨u, h, rfl⟩ | ⟨c, rfl⟩
    · exact ⟨_, hpr _ (h.prod1 k), TV.ofScale h k, fun ρ => by rw [den_scale, hv]⟩
    · refine ⟨_, hpr _ (h.prod2 (squares_ctors (n + 4)) k (-1)), TV.ofScale h _, fun ρ => ?_⟩
      rw [den_scale, ← hv ρ]; simp [den, denP]
    · refine ⟨_, hpr _ (prod_rats (squares_ctors (n + 4)) k c), .num _, fun ρ => ?_⟩
      rw [← hv ρ]; simp

theorem subs_ln (hO : O.Exact) (hk : k ≠ 0) {A : ℚ} (hA : A ≠ 0) (n : Nat) :
    ∃ t, subsE O (n + 7) (single v (rat A)) (scale k (log (absv (sym v)) euler)) = .ok t ∧ TV t ∧ ∀ ρ, den ρ t = k * Real.log A := by
  have hp : ∀ m, subsE O (m + 6) (single v (rat A)) (log (absv (sym v)) euler) = logCtor O (rat |A|) euler := fun m => by
    have h1 : subsE O (m + 5) (single v (rat A)) (absv (sym v)) = .ok (rat |A|) := by
      rw [subsE]
      have : subsE O (m + 4) (single v (rat A)) (sym v) = .ok (rat A) := by simp [subsE, single]
      simp only [this, bind, Except.bind]
      rfl
    have h2 : subsE O (m + 5) (single v (rat A)) euler = .ok euler := by simp [subsE]
    rw [subsE]
    simp only [h1, h2, bind, Except.bind]
  have hd : ∀ ρ, den ρ (log (rat |A|) euler) = Real.log A := fun ρ => by simp [den, Real.log_abs]
  have hr : subsE O (n + 6) (single v (rat A)) (rat k) = .ok (rat k) := by simp [subsE]
  by_cases ha : |A| = 1
  · have hz : ∀ m, subsE O (m + 6) (single v (rat A)) (log (absv (sym v)) euler) = .ok (rat 0) := fun m => by
      rw [hp, ha]; simp [logCtor, beq]
    have hl : Real.log A = 0 := by
      rw [← Real.log_abs]
      have : |(A : ℝ)| = 1 := by exact_mod_cast ha
      rw [this, Real.log_one]
    refine ⟨rat 0, ?_, .num 0, fun ρ => by simp [hl]⟩
    unfold scale
    rw [if_neg hk]
    split_ifs with h1
    · exact hz (n + 1)
    · rw [subsE]
      simp only [mapR, hz n, hr, bind, Except.bind, pure, Except.pure]
      have := prod_rats (O := O) (C := ctors O (n + 5)) (squares_ctors (n + 4)) k 0
      rw [mul_zero] at this
      exact this
  · have hu : TU (log (rat |A|) euler) := .ln _ (abs_pos.2 hA) ha
    have hz : ∀ m, subsE O (m + 6) (single v (rat A)) (log (absv (sym v)) euler) = .ok (log (rat |A|) euler) := fun m => by rw [hp, ln_rat hO ha]
    refine ⟨scale k (log (rat |A|) euler), ?_, TV.ofScale hu k, fun ρ => by rw [den_scale, hd]⟩
    by_cases h1 : k = 1
    · subst h1; simpa [scale] using hz (n + 1)
    · have e : scale k (log (absv (sym v)) euler) = prod [rat k, log (absv (sym v)) euler] := by simp [scale, hk, h1]
      rw [e, subsE]
      simp only [mapR, hz n, hr, bind, Except.bind, pure, Except.pure]
      exact hu.prod1 k

/-! ## The integral of `c/x` -/

theorem simplify_ln (hk : k ≠ 0) (n : Nat) : simplifyE O (n + 15) (scale k (log (absv (sym v)) euler)) = .ok (scale k (log (absv (sym v)) euler)) := by
  have hx : expandOr (expandableE O (n + 15)) (expandE O (n + 15)) (scale k (log (absv (sym v)) euler)) = .ok (scale k (log (absv (sym v)) euler)) := by
    have := expandable_term (O := O) (scale_term (.lnabs (v := v)) k) (n + 9)
    simp [expandOr, this, bind, Except.bind, pure, Except.pure]
  have hl : replaceE O (logPerf O) (n + 15) (scale k (log (absv (sym v)) euler)) = .ok (scale k (log (absv (sym v)) euler)) := by
    by_cases h1 : k = 1
    · subst h1; exact log_piece (.lnabs (v := v)) rfl (n + 11)
    · have e : scale k (log (absv (sym v)) euler) = prod [rat k, log (absv (sym v)) euler] := by simp [scale, hk, h1]
      have hr : replaceE O (logPerf O) (n + 14) (rat k) = .ok (rat k) := rfl
      have h2 : replaceE O (logPerf O) (n + 14) (log (absv (sym v)) euler) = .ok (log (absv (sym v)) euler) := log_piece .lnabs rfl (n + 10)
      rw [e, replaceE]
      simp only [logPerf, mapR, hr, h2, bind, Except.bind]
      rw [← e]
      exact prod_rat_unit .lnabs k
  have ht : trigPart O (n + 15) (scale k (log (absv (sym v)) euler)) = .ok (scale k (log (absv (sym v)) euler), false) := by
    have : containsCls isPlainTrig (scale k (log (absv (sym v)) euler)) = false := by unfold scale; split_ifs <;> rfl
    simp [trigPart, this]
  have hp : logPart O (n + 15) (scale k (log (absv (sym v)) euler)) = .ok (scale k (log (absv (sym v)) euler)) := by
    unfold logPart
    split
    · simp only [expandLogs, hl, bind, Except.bind, hx]
    · rfl
  simp only [simplifyE, hx, ht, hp, bind, Except.bind, pure, Except.pure]
  simp

theorem inverse_runs {ν : Supply} {tr : Option Transf} (hc : c ≠ 0) (n k : Nat) (bb : Bool) :
    Tree.Runs O (n + 8) bb (k + 2) ν [] v tr (scale c (pow (sym v) (rat (-1)))) (scale c (log (absv (sym v)) euler)) := by
  have hb : Basic v (pow (sym v) (rat (-1))) := .power _ (by norm_num) (by norm_num)
  have tab : checkTable O (n + 8) v (pow (sym v) (rat (-1))) = .ok (some (scale 1 (log (absv (sym v)) euler))) := by
    simp [checkTable, Expr.contains, tablePower, beq, scale, bind, Except.bind]; rfl
  have leafR : ∀ {k ν as tr}, Tree.Runs O (n + 8) bb (k + 1) ν as v tr (pow (sym v) (rat (-1))) (scale 1 (log (absv (sym v)) euler)) :=
    Tree.runs_leaf (Tree.safePlan_unit hb n) tab
  by_cases h1 : c = 1
  · subst h1
    simpa [scale] using leafR (k := k + 1) (ν := ν) (as := []) (tr := tr)
  · have e : scale c (pow (sym v) (rat (-1))) = prod [rat c, pow (sym v) (rat (-1))] := by simp [scale, hc, h1]
    rw [e]
    have hab : ∀ {ty cs}, Tree.Above (pow (sym v) (rat (-1))) [Node.mk (prod [rat c, pow (sym v) (rat (-1))]) v tr ty none false cs] := by
      intro ty cs p hp
      simp only [List.mem_singleton] at hp
      subst hp
      exact .inr ⟨_, rfl⟩
    have hm := mul_scale (O := O) (q := 1) one_ne_zero (.lnabs (v := v)) c (n + 5)
    rw [mul_one] at hm
    generalize scale c (log (absv (sym v)) euler) = F at hm ⊢
    exact Tree.runs_one (Tree.safePlan_scaled hb.fn n c) (Tree.refused_unit hb.fn hab.noUnit _) leafR (by simp) hm

/-- `integrate(c * x**-1)`, as it is written. -/
theorem integrate_inverse (hc : c ≠ 0) (n k : Nat) (ν : Supply) (bf fin : Bool) :
    Node.integrate O (n + 15) ν bf k fin v (scale c (pow (sym v) (rat (-1)))) = .ok (some (scale c (log (absv (sym v)) euler))) := by
  refine integrate_of_runs (inverse_runs hc (n + 7) (n + 13) false) ?_ (simplify_ln hc n)
  refine simplify_quiet (expandable_term (scale_term (.power (-1) (by norm_num) (by norm_num)) c) (n + 9)) ?_ ?_ <;>
    (unfold scale; split_ifs <;> rfl)

/-- The difference of two. -/
theorem TV.diff (hO : O.Exact) (hx : TV x) (hy : TV y) (n : Nat) : ∃ d r, opSub (ctors O (n + 12)) x y = .ok d ∧
    simplifyE O (n + 12) d = .ok r ∧ ∀ ρ, Dom ρ r ∧ den ρ r = den ρ x - den ρ y := by
  have key : ∃ d, opSub (ctors O (n + 12)) x y = .ok d ∧ TS d := by
    have hm : ∃ m, opMul (ctors O (n + 12)) (rat (-1)) y = .ok m ∧ TV m := by
      cases hy with
      | num q => exact ⟨_, rfl, .num _⟩
      | unit h => exact ⟨_, by rw [← h.prod1 (O := O) (C := ctors O (n + 11)) (-1)]; cases h <;> rfl, TV.ofScale h _⟩
      | scaled l hl _ h =>
        have := h.prod_scale (O := O) (C := ctors O (n + 11)) (squares_ctors (n + 10)) (-1) hl
        exact ⟨_, by rw [← this]; simp [scale, *]; rfl, TV.ofScale h _⟩
    obtain ⟨m, hm, em⟩ := hm
    have ha : ∃ d, opAdd (ctors O (n + 12)) x m = .ok d ∧ TS d := by
      obtain ⟨d, hd, e⟩ := TV.add (O := O) hx em (n + 6)
      by_cases hr : ∃ p q, x = rat p ∧ m = rat q
      · obtain ⟨p, q, rfl, rfl⟩ := hr; exact ⟨_, rfl, .one (.num _)⟩
      · refine ⟨d, ?_, e⟩
        have : opAdd (ctors O (n + 12)) x m = (ctors O (n + 12)).sum [x, m] := by
          unfold opAdd; split
          · exact absurd ⟨_, _, rfl, rfl⟩ hr
          · rfl
        rw [this]; exact hd
    by_cases hr : ∃ p q, x = rat p ∧ y = rat q
    · obtain ⟨p, q, rfl, rfl⟩ := hr; exact ⟨_, rfl, .one (.num _)⟩
    · obtain ⟨d, hd, e⟩ := ha
      refine ⟨d, ?_, e⟩
      unfold opSub; split
      · exact absurd ⟨_, _, rfl, rfl⟩ hr
      · rw [hm]; exact hd
  obtain ⟨d, hd, hs⟩ := key
  obtain ⟨r, hr, v⟩ := hs.simplify hO n
  refine ⟨d, r, hd, hr, fun ρ => ?_⟩
  obtain ⟨hv, hdm⟩ := opSub_V (ctors_sound hO (n + 12)) hx.val.1 hy.val.1 (hx.val.2 ρ) (hy.val.2 ρ) hd
  exact ⟨(v ρ).2 hdm, by rw [(v ρ).1, hv]⟩

end Lin
end Simpy
