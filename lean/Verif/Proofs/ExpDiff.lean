import Verif.Proofs.ImproperSub

/-! # Lemmas: differences of rational multiples of powers of e -/

namespace Simpy
namespace Lin
open Expr

variable {O : Oracle} {C : Ctors} {u w t x y : Expr} {k l : ℚ}

theorem EU.isProd (h : EU u) : u.isProd = false := by cases h <;> rfl

theorem EU.isSum (h : EU u) : u.isSum = false := by cases h <;> rfl

/-! ## Text -/

theorem EU.repr_plain (h : EU u) (hp : ∀ r, u = Expr.pow euler (rat r) → 0 < r) (n : Nat) : Ok ((ctors O (n + 2)).repr u) := by
  cases h with
  | e => exact ⟨_, rfl⟩
  | pow r h0 h1 =>
    have hr := hp r rfl
    show Ok (powRepr O (ctors O (n + 1)) euler (rat r))
    unfold powRepr
    have hn : ¬ r = -1 := by intro h; rw [h] at hr; linarith
    rw [show beq O (rat r) (rat (-1)) = false by simp [beq, hn]]
    simp only [Expr.isRat, negNum, not_lt.2 hr.le, decide_false, Bool.true_or, Bool.and_false, Bool.false_eq_true, if_false]
    refine Ok.ite ⟨_, rfl⟩ ?_
    exact Ok.bind (Ok.bind ⟨_, rfl⟩ fun _ _ => ⟨_, rfl⟩) fun _ _ => Ok.bind (Ok.bind ⟨_, repr_rat n r⟩ fun _ _ => ⟨_, rfl⟩) fun _ _ => ⟨_, rfl⟩

theorem eTo_plain {r : ℚ} (h : 0 < r) : EU (eTo r) ∧ ∀ s, eTo r = Expr.pow euler (rat s) → 0 < s := by
  refine ⟨EU.to h.ne', fun s hs => ?_⟩
  unfold eTo at hs
  split_ifs at hs
  cases hs
  exact h

theorem EU.repr (h : EU u) (n : Nat) : Ok ((ctors O (n + 4)).repr u) := by
  cases h with
  | e => exact ⟨_, rfl⟩
  | pow r h0 h1 =>
    by_cases hr : 0 < r
    · exact (EU.pow r h0 h1).repr_plain (fun s hs => by cases hs; exact hr) (n + 2)
    · have hlt : r < 0 := lt_of_le_of_ne (not_lt.1 hr) h0
      show Ok (powRepr O (ctors O (n + 3)) euler (rat r))
      unfold powRepr
      refine Ok.ite (Ok.bind (Ok.bind ⟨_, rfl⟩ fun s _ => ⟨_, rfl⟩) fun s _ => ⟨_, rfl⟩) ?_
      simp only [Expr.isRat, negNum, hlt, decide_true, Bool.true_or, Bool.and_true, if_true]
      refine Ok.bind ⟨rat (-r), rfl⟩ fun w hw => ?_
      cases hw
      have hp := pow_eTo (O := O) (-r) (n + 2)
      refine Ok.bind ⟨_, hp⟩ fun p hp' => ?_
      rw [hp] at hp'
      cases hp'
      have he := eTo_plain (r := -r) (by linarith)
      exact Ok.bind (he.1.repr_plain he.2 (n + 1)) fun _ _ => ⟨_, rfl⟩

/-- Without a negative exponent. -/
def PU (u : Expr) : Prop := EU u ∧ ∀ r, u = Expr.pow euler (rat r) → 0 < r

theorem PU.numDen (h : PU u) (C : Ctors) : numDenTerm O C u = .ok ([u], []) := by
  obtain ⟨h, hp⟩ := h
  cases h with
  | e => rfl
  | pow r _ _ => have := hp r rfl; simp [numDenTerm, deconPow, negNum, not_lt.2 this.le]

theorem EU.numDen (h : EU u) : PU u ∨ ∃ w, PU w ∧ ∀ n, numDenTerm O (ctors O (n + 1)) u = .ok ([], [w]) := by
  cases h with
  | e => exact .inl ⟨.e, fun r h => by cases h⟩
  | pow r h0 h1 =>
    by_cases hr : 0 < r
    · exact .inl ⟨.pow r h0 h1, fun s hs => by cases hs; exact hr⟩
    · have hlt : r < 0 := lt_of_le_of_ne (not_lt.1 hr) h0
      refine .inr ⟨eTo (-r), eTo_plain (by linarith), fun n => ?_⟩
      have hp := pow_eTo (O := O) (-r) n
      by_cases h : r = -1
      · subst h; simp [numDenTerm, deconPow, negNum, beq, eTo]
      · simp [numDenTerm, deconPow, negNum, hlt, beq, h, opNeg, hp, bind, Except.bind, pure, Except.pure]

/-- Numerators and denominators. -/
inductive ESide : Expr → Prop
  | num (c : ℚ) : ESide (rat c)
  | one {w : Expr} : PU w → ESide w
  | many (k : Nat) {w : Expr} : PU w → ESide (prod [rat k, w])

theorem EU.numDen_scaled (h : EU u) {a : ℚ} (ha : ¬ a < 0) (n : Nat) : ∃ p q : Expr,
    Simpy.numDen O (ctors O (n + 1)) [rat a, u] = .ok (p, q) ∧ ESide p ∧ ESide q := by
  have hr : ∀ C, numDenTerm O C (rat a) = .ok (if a.num ≠ 1 then [rat a.num] else [], if a.den ≠ 1 then [rat a.den] else []) := fun _ => rfl
  have hnat : ∃ k : Nat, (a.num : ℚ) = k := by
    obtain ⟨k, hk⟩ := Int.eq_ofNat_of_zero_le (Rat.num_nonneg.2 (not_lt.1 ha))
    exact ⟨k, by rw [hk]; simp⟩
  obtain ⟨k, hk⟩ := hnat
  unfold Simpy.numDen
  rcases h.numDen (O := O) with hp | ⟨w, hw, hp⟩
  · have hmk : mkProdSkip [u] = .ok u := by simp [mkProdSkip, h.isProd]
    simp only [numDenLoop, hp.numDen _, hr, bind, Except.bind, pure, Except.pure, List.append_nil]
    have hs : ESide (prod [rat a.num, u]) := by rw [hk]; exact .many k hp
    by_cases h1 : a.num = 1 <;> by_cases h2 : a.den = 1
    · exact ⟨u, rat 1, by simp [h1, h2, hmk]; rfl, .one hp, .num _⟩
    · exact ⟨u, rat a.den, by simp [h1, h2, hmk]; rfl, .one hp, .num _⟩
    · exact ⟨prod [rat a.num, u], rat 1, by simp [h1, h2, mkProdSkip], hs, .num _⟩
    · exact ⟨prod [rat a.num, u], rat a.den, by simp [h1, h2, mkProdSkip, Expr.isProd], hs, .num _⟩
  · have hmk : mkProdSkip [w] = .ok w := by simp [mkProdSkip, hw.1.isProd]
    simp only [numDenLoop, hp _, hr, bind, Except.bind, pure, Except.pure, List.append_nil]
    have hs : ESide (prod [rat a.den, w]) := .many a.den hw
    by_cases h1 : a.num = 1 <;> by_cases h2 : a.den = 1
    · exact ⟨rat 1, w, by simp [h1, h2, hmk]; rfl, .num _, .one hw⟩
    · exact ⟨rat 1, prod [rat a.den, w], by simp [h1, h2, mkProdSkip], .num _, hs⟩
    · exact ⟨rat a.num, w, by simp [h1, h2, hmk]; rfl, .num _, .one hw⟩
    · exact ⟨rat a.num, prod [rat a.den, w], by simp [h1, h2, mkProdSkip, Expr.isProd], .num _, hs⟩

theorem EU.prodTerm (h : EU u) (m : Nat) : Ok (prodTermRepr (ctors O (m + 4)) u) := by
  unfold prodTermRepr
  exact Ok.bind (h.repr m) fun s _ => ⟨_, rfl⟩

theorem EU.mapR_unit (h : EU u) (m : Nat) (a : ℚ) : Ok (mapR (prodTermRepr (ctors O (m + 4))) [rat a, u]) := by
  obtain ⟨s1, e1⟩ : Ok (prodTermRepr (ctors O (m + 4)) (rat a)) := Ok.bind ⟨_, repr_rat (m + 3) a⟩ fun s _ => ⟨_, rfl⟩
  obtain ⟨s2, e2⟩ := h.prodTerm (O := O) m
  exact ⟨[s1, s2], by simp [mapR, e1, e2, bind, Except.bind, pure, Except.pure]⟩

theorem PU.repr_many (hp : PU u) (k n : Nat) : Ok ((ctors O (n + 5)).repr (prod [rat k, u])) := by
  have h := hp.1
  show Ok (prodRepr O (ctors O (n + 4)) [rat k, u])
  have hsub : (prod [rat (k : ℚ), u]).isSubtraction = false := by simp [isSubtraction]
  unfold prodRepr
  rw [hsub]
  simp only [Bool.false_eq_true, if_false]
  have hnd : ∃ p, Simpy.numDen O (ctors O (n + 4)) [rat (k : ℚ), u] = .ok (p, rat 1) := by
    have hr : numDenTerm O (ctors O (n + 4)) (rat (k : ℚ)) = .ok (if (k : ℚ).num ≠ 1 then [rat (k : ℚ).num] else [],
      if (k : ℚ).den ≠ 1 then [rat (k : ℚ).den] else []) := rfl
    have hmk : mkProdSkip [u] = .ok u := by simp [mkProdSkip, h.isProd]
    unfold Simpy.numDen
    simp only [numDenLoop, hp.numDen _, hr, bind, Except.bind, pure, Except.pure, List.append_nil]
    by_cases h1 : k = 1
    · exact ⟨u, by simp [h1, hmk]; rfl⟩
    · exact ⟨prod [rat k, u], by simp [h1, mkProdSkip]⟩
  obtain ⟨p, hpq⟩ := hnd
  refine Ok.bind ⟨_, hpq⟩ fun w hw => ?_
  rw [hpq] at hw
  cases hw
  simp only [beq, beq_self_eq_true, Bool.not_true, Bool.false_eq_true, if_false]
  exact Ok.bind (h.mapR_unit n k) fun _ _ => ⟨_, rfl⟩

theorem ESide.repr (h : ESide t) (n : Nat) : Ok ((ctors O (n + 5)).repr t) := by
  cases h with
  | num c => exact ⟨_, rfl⟩
  | one h => exact h.1.repr (n + 1)
  | many k h => exact h.repr_many k n

theorem EU.repr_pos (h : EU u) {a : ℚ} (ha : ¬ a < 0) (n : Nat) : Ok ((ctors O (n + 6)).repr (prod [rat a, u])) := by
  show Ok (prodRepr O (ctors O (n + 5)) [rat a, u])
  have hsub : (prod [rat a, u]).isSubtraction = false := by simpa [isSubtraction] using ha
  unfold prodRepr
  rw [hsub]
  simp only [Bool.false_eq_true, if_false]
  obtain ⟨p, q, hpq, hp, hq⟩ := h.numDen_scaled (O := O) ha (n + 4)
  have prt : ∀ {t}, ESide t → Ok (prodTermRepr (ctors O (n + 5)) t) := fun ht =>
    Ok.bind (ht.repr n) fun s _ => ⟨_, rfl⟩
  refine Ok.bind ⟨_, hpq⟩ fun w hw => ?_
  rw [hpq] at hw
  cases hw
  dsimp only
  refine Ok.ite ?_ ?_
  · obtain ⟨a1, e1⟩ := hp.repr (O := O) n
    obtain ⟨a2, e2⟩ := prt hp
    obtain ⟨b1, e3⟩ := hq.repr (O := O) n
    obtain ⟨b2, e4⟩ := prt hq
    cases p.isProd <;> cases q.isProd <;> simp [e1, e2, e3, e4, bind, Except.bind, pure, Except.pure] <;> exact ⟨_, rfl⟩
  · exact Ok.bind (h.mapR_unit (n + 1) a) fun _ _ => ⟨_, rfl⟩

theorem EU.prod_neg (h : EU u) (hO : O.Exact) (hC : Squares C) (a : ℚ) : prodCtor O C [prod [rat a, u], rat (-1)] = .ok (scale (-a) u) := by
  by_cases e : -1 = a
  · subst e
    refine h.prodCtor_of (cs := [(-1) ^ 2]) (by simp) ?_ (by simp)
    have := hC (-1)
    cases h <;> simp [flatPL, Simpy.flatP, combineProdLoop, deconPow, beq, hO.isE, List.filter_cons, Expr.isAcc, bind, Except.bind, pure, Except.pure, foldAdd, opAdd,
      likeFactor, this, show ((1 : ℚ) + 1) = 2 by norm_num] <;> simpa using this
  · refine h.prodCtor_of (cs := [a, -1]) (by simp) ?_ (by simp)
    cases h <;> simp [flatPL, Simpy.flatP, combineProdLoop, deconPow, beq, hO.isE, List.filter_cons, Expr.isAcc, bind, Except.bind, pure, Except.pure, e]

theorem EU.repr_prod (h : EU u) (hO : O.Exact) (a : ℚ) (n : Nat) : Ok ((ctors O (n + 7)).repr (prod [rat a, u])) := by
  by_cases ha : a < 0
  · show Ok (prodRepr O (ctors O (n + 6)) [rat a, u])
    have hsub : (prod [rat a, u]).isSubtraction = true := by simpa [isSubtraction] using ha
    unfold prodRepr
    rw [hsub]
    simp only [if_true]
    have hnp : (ctors O (n + 6)).prod [prod [rat a, u], rat (-1)] = .ok (scale (-a) u) := h.prod_neg hO (squares_ctors (n + 4)) a
    refine Ok.bind ⟨_, hnp⟩ fun w hw => ?_
    rw [hnp] at hw
    cases hw
    have h0 : ¬ (-a = 0) := by intro h0; have : a = 0 := by linarith
                               rw [this] at ha; exact lt_irrefl _ ha
    by_cases h1 : -a = 1
    · simp only [scale, h0, h1, if_false, if_true, h.isProd, Bool.not_false, one_ne_zero]
      exact Ok.bind (h.prodTerm (n + 2)) fun _ _ => ⟨_, rfl⟩
    · have hs : (prod [rat (-a), u]).isSubtraction = false := by simp [isSubtraction]; linarith
      simp only [scale, h0, h1, if_false, Expr.isProd, Bool.not_true, Bool.false_eq_true, hs]
      exact Ok.bind (h.repr_pos (by linarith) n) fun _ _ => ⟨_, rfl⟩
  · exact h.repr_pos ha (n + 1)

/-! ## Sums of two -/

/-- A rational number, or a rational multiple of a power of `e`. -/
inductive EV : Expr → Prop
  | num (q : ℚ) : EV (rat q)
  | unit {u : Expr} : EU u → EV u
  | scaled (k : ℚ) {u : Expr} : k ≠ 0 → k ≠ 1 → EU u → EV (prod [rat k, u])

theorem EV.eMul (k r : ℚ) : EV (eMul k r) := by
  unfold Lin.eMul scale
  split_ifs with h0 h1 h2
  · exact .num _
  · exact .num _
  · exact .unit (EU.to h0)
  · exact .scaled k h1 h2 (EU.to h0)

theorem EV.repr (h : EV t) (hO : O.Exact) (n : Nat) : Ok ((ctors O (n + 7)).repr t) := by
  cases h with
  | num q => exact ⟨_, rfl⟩
  | unit h => exact h.repr (n + 3)
  | scaled k _ _ h => exact h.repr_prod hO k n

theorem EV.nwf (h : EV t) : Simpy.nwf t = .ok 0 := by
  cases h with
  | num q => rfl
  | unit h => cases h <;> rfl
  | scaled k _ _ h => cases h <;> rfl

theorem EV.cmp (hx : EV x) (hy : EV y) (hO : O.Exact) (n : Nat) : Ok (cmpLt (ctors O (n + 7)) x y) := by
  obtain ⟨a, ha⟩ := hx.repr hO n
  obtain ⟨b, hb⟩ := hy.repr hO n
  simp only [cmpLt, hx.nwf, hy.nwf, bind, Except.bind, pure, Except.pure, and_self, if_true, ha, hb]
  split <;> exact ⟨_, rfl⟩

theorem EV.sort (hx : EV x) (hy : EV y) (hO : O.Exact) (n : Nat) :
    sortTerms (ctors O (n + 7)) [x, y] = .ok [x, y] ∨ sortTerms (ctors O (n + 7)) [x, y] = .ok [y, x] := by
  obtain ⟨b, hb⟩ := hy.cmp hx hO n
  cases b <;> simp [sortTerms, pySorted, countRun, hb, runTail, binarySort, bind, Except.bind, pure, Except.pure]

/-- What a sum of two of them is. -/
inductive ES : Expr → Prop
  | one {t : Expr} : EV t → ES t
  | two {x y : Expr} : EV x → EV y → ES (sum [x, y])

theorem EV.notSum (h : EV t) : flatS t = [t] := by
  cases h with
  | num q => rfl
  | unit h => cases h <;> rfl
  | scaled k _ _ h => rfl

theorem EV.parts (h : EV t) : (∃ q, t = rat q) ∨ ∃ k u, EU u ∧ deconProd t = ([rat k], [u]) ∧ t.isAcc = false := by
  cases h with
  | num q => exact .inl ⟨q, rfl⟩
  | unit h => exact .inr ⟨1, t, h, by cases h <;> rfl, by cases h <;> rfl⟩
  | scaled k _ _ h => exact .inr ⟨k, _, h, by cases h <;> rfl, rfl⟩

theorem EV.combine (hx : EV x) (hy : EV y) : ∃ fs, combineSum O [x, y] = .ok fs ∧ (fs = [] ∨ (∃ t, EV t ∧ fs = [t]) ∨ ∃ s t, EV s ∧ EV t ∧ fs = [s, t]) := by
  have like : ∀ {u : Expr} (k l : ℚ), EU u → ∃ o, likeTerm O [rat k, rat l] [u] = .ok o ∧ ∀ t, o = some t → EV t := by
    intro u k l h
    have hmk : mkProdSkip [u] = .ok u := by simp [mkProdSkip, h.isProd]
    have hmk2 : ∀ c : ℚ, mkProdSkip [rat c, u] = .ok (prod [rat c, u]) := fun c => by simp [mkProdSkip]
    have ha : accumulateSum O [rat k, rat l] = .ok (rat (k + l)) := by simp [accumulateSum, value, foldNum, numAdd, const]
    unfold likeTerm
    simp only [ha, hmk, hmk2, bind, Except.bind, pure, Except.pure, beq]
    by_cases h0 : k + l = 0
    · exact ⟨none, by simp [h0], by simp⟩
    · by_cases h1 : k + l = 1
      · exact ⟨some u, by simp [h1], fun t ht => by cases ht; exact .unit h⟩
      · exact ⟨some (prod [rat (k + l), u]), by simp [h0, h1], fun t ht => by cases ht; exact .scaled _ h0 h1 h⟩
  have ar : ∀ q : ℚ, (rat q).isAcc = true := fun _ => rfl
  have dr : ∀ q : ℚ, deconProd (rat q) = ([rat 1], [rat q]) := fun _ => rfl
  have ac : ∀ q : ℚ, accumulateSum O [rat q] = .ok (rat q) := fun _ => rfl
  rcases hx.parts with ⟨p, rfl⟩ | ⟨k, u, hu, dx, ax⟩ <;> rcases hy.parts with ⟨q, rfl⟩ | ⟨l, w, hw, dy, ay⟩
  · by_cases h : p + q = 0
    · exact ⟨[], by simp [combineSum, combineSumLoop, Expr.isAcc, accumulateSum, foldNum, numAdd, value, const, beq, h, bind, Except.bind, pure, Except.pure], .inl rfl⟩
    · exact ⟨[rat (p + q)], by simp [combineSum, combineSumLoop, Expr.isAcc, accumulateSum, foldNum, numAdd, value, const, beq, h, bind, Except.bind, pure, Except.pure],
        .inr (.inl ⟨_, .num _, rfl⟩)⟩
  · by_cases h : p = 0
    · exact ⟨[y], by simp [combineSum, combineSumLoop, ar, ay, ac, beq, h, bind, Except.bind, pure, Except.pure], .inr (.inl ⟨_, hy, rfl⟩)⟩
    · exact ⟨[y, rat p], by simp [combineSum, combineSumLoop, ar, ay, ac, beq, h, bind, Except.bind, pure, Except.pure],
        .inr (.inr ⟨_, _, hy, .num p, rfl⟩)⟩
  · have dq : ∀ q, beqL O [u] [rat q] = false := fun q => by cases hu <;> rfl
    by_cases h : q = 0
    · exact ⟨[x], by simp [combineSum, combineSumLoop, ar, ax, dx, dr, dq, ac, beq, h, bind, Except.bind, pure, Except.pure], .inr (.inl ⟨_, hx, rfl⟩)⟩
    · exact ⟨[x, rat q], by simp [combineSum, combineSumLoop, ar, ax, dx, dr, dq, ac, beq, h, bind, Except.bind, pure, Except.pure],
        .inr (.inr ⟨_, _, hx, .num q, rfl⟩)⟩
  · by_cases h : u = w
    · subst h
      have hb : beqL O [u] [u] = true := by cases hu <;> simp [beqL, beq]
      obtain ⟨o, ho, hev⟩ := like k l hu
      refine ⟨o.toList, by simp [combineSum, combineSumLoop, ax, dx, dy, hb, ho, bind, Except.bind, pure, Except.pure], ?_⟩
      cases o with
      | none => exact .inl rfl
      | some t => exact .inr (.inl ⟨t, hev t rfl, rfl⟩)
    · have hb : beqL O [u] [w] = false := by
        cases hu <;> cases hw <;> simp [beqL, beq] <;> simp_all
      exact ⟨[x, y], by simp [combineSum, combineSumLoop, ax, ay, dx, dy, hb, bind, Except.bind, pure, Except.pure], .inr (.inr ⟨_, _, hx, hy, rfl⟩)⟩

theorem EV.sum (hx : EV x) (hy : EV y) (hO : O.Exact) (n : Nat) : ∃ r, sumCtor O (ctors O (n + 7)) [x, y] = .ok r ∧ ES r := by
  obtain ⟨fs, hf, h⟩ := EV.combine (O := O) hx hy
  have hfl : flatSL [x, y] = [x, y] := by simp [flatSL, hx.notSum, hy.notSum]
  unfold sumCtor
  rw [hfl, hf]
  rcases h with rfl | ⟨t, ht, rfl⟩ | ⟨s, t, hs, ht, rfl⟩
  · exact ⟨_, rfl, .one (.num 0)⟩
  · exact ⟨_, rfl, .one ht⟩
  · simp only [bind, Except.bind, pure, Except.pure]
    rcases hs.sort ht hO n with e | e
    · rw [e]; exact ⟨_, rfl, .two ht hs⟩
    · rw [e]; exact ⟨_, rfl, .two hs ht⟩

theorem EV.eq (h : EV t) : ∃ k r, t = Lin.eMul k r := by
  have hu : ∀ {u}, EU u → ∃ r, r ≠ 0 ∧ u = eTo r := fun h => by
    cases h with
    | e => exact ⟨1, by norm_num, by simp [eTo]⟩
    | pow r h0 h1 => exact ⟨r, h0, by simp [eTo, h0, h1]⟩
  cases h with
  | num q => exact ⟨q, 0, by simp [Lin.eMul]⟩
  | unit h => obtain ⟨r, h0, rfl⟩ := hu h; exact ⟨1, r, by simp [Lin.eMul, h0, scale]⟩
  | scaled k hk hk1 h => obtain ⟨r, h0, rfl⟩ := hu h; exact ⟨k, r, by simp [Lin.eMul, h0, scale, hk, hk1]⟩

theorem EV.quiet (h : EV t) : containsCls isPlainTrig t = false ∧ containsCls isLog t = false := by
  cases h with
  | num q => exact ⟨rfl, rfl⟩
  | unit h => cases h <;> exact ⟨rfl, rfl⟩
  | scaled k _ _ h => cases h <;> exact ⟨rfl, rfl⟩

theorem ES.simplify (h : ES t) (n : Nat) : simplifyE O (n + 4) t = .ok t := by
  cases h with
  | one h => obtain ⟨k, r, rfl⟩ := h.eq; exact eMul_simplify k r (n + 1)
  | @two x y hx hy =>
    obtain ⟨k, r, ex⟩ := hx.eq
    obtain ⟨l, s, ey⟩ := hy.eq
    refine simplify_quiet ?_ ?_ ?_
    · have h1 : expandableE O (n + 3) x = .ok false := by rw [ex]; exact eMul_expandable k r n
      have h2 : expandableE O (n + 3) y = .ok false := by rw [ey]; exact eMul_expandable l s n
      rw [expandableE]
      simp [anyR, h1, h2, bind, Except.bind, pure, Except.pure]
    · simp [containsCls, containsClsL, hx.quiet, hy.quiet, isPlainTrig]
    · simp [containsCls, containsClsL, hx.quiet, hy.quiet, isLog]

theorem eMul_wf (k r : ℚ) : WF (Lin.eMul k r) := by
  unfold Lin.eMul scale eTo
  split_ifs <;> simp [WF, WFL, baseOk, isAcc, List.filter_cons]

/-- The difference of two rational multiples of powers of `e`. -/
theorem eMul_diff (hO : O.Exact) (k r l s : ℚ) (n : Nat) : ∃ d, opSub (ctors O (n + 8)) (Lin.eMul k r) (Lin.eMul l s) = .ok d ∧
    simplifyE O (n + 8) d = .ok d ∧ ∀ ρ, Dom ρ d ∧ den ρ d = k * Real.exp r - l * Real.exp s := by
  have key : ∃ d, opSub (ctors O (n + 8)) (Lin.eMul k r) (Lin.eMul l s) = .ok d ∧ ES d := by
    have hx := EV.eMul k r
    have hy := EV.eMul l s
    generalize Lin.eMul k r = x at hx
    generalize Lin.eMul l s = y at hy
    have sc : ∀ {u} (a : ℚ), EU u → EV (scale a u) := fun a h => by
      unfold scale
      split_ifs with h0 h1
      · exact .num 0
      · exact .unit h
      · exact .scaled a h0 h1 h
    have hm : ∃ m, opMul (ctors O (n + 8)) (rat (-1)) y = .ok m ∧ EV m := by
      cases hy with
      | num q => exact ⟨_, rfl, .num _⟩
      | unit h => exact ⟨_, by rw [← h.prod1 (C := ctors O (n + 7)) hO (-1)]; cases h <;> rfl, sc _ h⟩
      | scaled l hl _ h =>
        have := h.prod_scale hO (C := ctors O (n + 7)) (squares_ctors (n + 6)) (-1) hl
        exact ⟨_, by rw [← this]; simp [scale, *]; rfl, sc _ h⟩
    obtain ⟨m, hm, em⟩ := hm
    have ha : ∃ d, opAdd (ctors O (n + 8)) x m = .ok d ∧ ES d := by
      obtain ⟨d, hd, e⟩ := EV.sum (O := O) hx em hO n
      by_cases hr : ∃ p q, x = rat p ∧ m = rat q
      · obtain ⟨p, q, rfl, rfl⟩ := hr; exact ⟨_, rfl, .one (.num _)⟩
      · refine ⟨d, ?_, e⟩
        have : opAdd (ctors O (n + 8)) x m = (ctors O (n + 8)).sum [x, m] := by
          unfold opAdd; split
          · exact absurd ⟨_, _, rfl, rfl⟩ hr
          · rfl
        rw [this]; exact hd
    by_cases hr : ∃ p q, x = rat p ∧ y = rat q
    · obtain ⟨p, q, rfl, rfl⟩ := hr; exact ⟨_, rfl, .one (.num _)⟩
    · obtain ⟨d, hd, e⟩ := ha
      refine ⟨d, ?_, e⟩
      unfold opSub; split
      · exact absurd ⟨_, _, rfl, rfl⟩ hr
      · rw [hm]; exact hd
  obtain ⟨d, hd, hs⟩ := key
  refine ⟨d, hd, hs.simplify _, fun ρ => ?_⟩
  obtain ⟨h1, h2⟩ := den_eMul ρ k r
  obtain ⟨h3, h4⟩ := den_eMul ρ l s
  obtain ⟨hv, hdm⟩ := opSub_V (ctors_sound hO (n + 8)) (eMul_wf k r) (eMul_wf l s) h1 h3 hd
  exact ⟨hdm, by rw [hv, h2, h4]⟩

end Lin
end Simpy
