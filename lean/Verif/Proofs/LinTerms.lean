import Verif.Spec.Combination
import Verif.Proofs.Total
import Verif.Proofs.TotalRun
import Verif.Proofs.Basic
import Verif.Proofs.LinArg

/-! # Lemmas: the constructors return on linear combinations of table functions -/

namespace Simpy
namespace Lin
open Expr

variable {O : Oracle} {C : Ctors} {v : Str} {u t e : Expr}

/-- Functions of the variable that are in the table, and those that are their integrals. -/
inductive Piece (v : Str) : Expr → Prop
  | var : Piece v (sym v)
  | power (q : ℚ) : q ≠ 0 → q ≠ 1 → Piece v (pow (sym v) (rat q))
  | exp {L : Expr} : LinearArg v L → Piece v (pow euler L)
  | sin {L : Expr} : LinearArg v L → L.isSubtraction = false → Piece v (trig .sin L)
  | cos {L : Expr} : LinearArg v L → L.isSubtraction = false → Piece v (trig .cos L)
  | lnabs : Piece v (log (absv (sym v)) euler)

/-- A number, a piece, or a number times a piece. -/
inductive Term (v : Str) : Expr → Prop
  | const (c : ℚ) : Term v (rat c)
  | unit {u : Expr} : Piece v u → Term v u
  | scaled (c : ℚ) {u : Expr} : Piece v u → Term v (prod [rat c, u])

/-- A term, or a sum of terms. -/
def Comb (v : Str) (e : Expr) : Prop := Term v e ∨ ∃ ts, e = sum ts ∧ ts ≠ [] ∧ ∀ t ∈ ts, Term v t

theorem Piece.of (h : TableFn v u) : Piece v u := by
  cases h with
  | var => exact .var
  | power q h0 h1 => exact .power q h0 h1
  | exp h => exact .exp h
  | sin h hs => exact .sin h hs
  | cos h hs => exact .cos h hs

theorem Term.of (h : TableTerm v t) : Term v t := by
  cases h with
  | const c => exact .const c
  | unit h => exact .unit (.of h)
  | scaled c h => exact .scaled c (.of h)

theorem Comb.of (h : IsCombination v e) : Comb v e := by
  rcases h with h | ⟨ts, rfl, hn, h⟩
  · exact .inl (.of h)
  · exact .inr ⟨ts, rfl, hn, fun t ht => .of (h t ht)⟩

theorem Piece.nwf (h : Piece v u) : ∃ k, Simpy.nwf u = .ok (k + 1) := by
  cases h with
  | var => exact ⟨0, rfl⟩
  | power q h0 h1 => exact ⟨1, by simp [Simpy.nwf, varies, syms]; rfl⟩
  | @exp L h =>
    obtain ⟨k, hk⟩ := h.nwf
    have hv : Expr.varies (pow euler L) = true := by have := h.varies; simpa [Expr.varies, syms, anys] using this
    exact ⟨k + 1, by simp only [Simpy.nwf, hv, hk, if_true, bind, Except.bind, pure, Except.pure]; simp; omega⟩
  | @sin L h hs =>
    obtain ⟨k, hk⟩ := h.nwf
    have hv : Expr.varies (trig .sin L) = true := by have := h.varies; simpa [Expr.varies, syms, anys] using this
    exact ⟨k + 1, by simp only [Simpy.nwf, hv, hk, if_true, bind, Except.bind, pure, Except.pure]; simp; omega⟩
  | @cos L h hs =>
    obtain ⟨k, hk⟩ := h.nwf
    have hv : Expr.varies (trig .cos L) = true := by have := h.varies; simpa [Expr.varies, syms, anys] using this
    exact ⟨k + 1, by simp only [Simpy.nwf, hv, hk, if_true, bind, Except.bind, pure, Except.pure]; simp; omega⟩
  | lnabs => exact ⟨2, by simp [Simpy.nwf, varies, syms]; rfl⟩

theorem Piece.varies (h : Piece v u) : varies u = true := by
  cases h with
  | exp h => have := h.varies; simpa [Expr.varies, syms, anys] using this
  | sin h _ => have := h.varies; simpa [Expr.varies, syms, anys] using this
  | cos h _ => have := h.varies; simpa [Expr.varies, syms, anys] using this
  | _ => simp [Expr.varies, syms]

theorem Piece.isProd (h : Piece v u) : u.isProd = false := by cases h <;> rfl
theorem Piece.isSum (h : Piece v u) : u.isSum = false := by cases h <;> rfl
theorem Piece.isAcc (h : Piece v u) : u.isAcc = false := by cases h <;> rfl
theorem Piece.flatP (h : Piece v u) : flatP u = [u] := by cases h <;> rfl
theorem Piece.flatS (h : Piece v u) : flatS u = [u] := by cases h <;> rfl
theorem Piece.decon (h : Piece v u) : deconProd u = ([rat 1], [u]) := by cases h <;> rfl
theorem Piece.beqR (h : Piece v u) (c : ℚ) : beq O u (rat c) = false := by cases h <;> rfl
theorem Piece.base1 (h : Piece v u) (a : ℚ) : beq O (deconPow u).1 (rat a) = false := by cases h <;> rfl
theorem Piece.base2 (hO : O.Exact) (h : Piece v u) (a : ℚ) : beq O (rat a) (deconPow u).1 = false := by
  cases h <;> first | rfl | simp [deconPow, beq, hO.isE]

theorem cmp_rat_unit (h : Piece v u) (a : ℚ) : cmpLt C (rat a) u = .ok true := by
  obtain ⟨k, hk⟩ := h.nwf
  unfold cmpLt
  rw [hk]
  simp [Simpy.nwf, bind, Except.bind, pure, Except.pure]

theorem sort_unit_rat (h : Piece v u) (a : ℚ) : sortTerms C [u, rat a] = .ok [rat a, u] := by
  simp [sortTerms, pySorted, countRun, cmp_rat_unit h, runTail, binarySort, bind, Except.bind, pure, Except.pure]

theorem scale_term (h : Piece v u) (a : ℚ) : Term v (scale a u) := by
  unfold scale
  split
  · exact .const 0
  · split
    · exact .unit h
    · exact .scaled a h

theorem prodCtor_of (h : Piece v u) {ts : List Expr} {a : ℚ} {cs : List ℚ} (hcs : cs ≠ [])
    (hl : combineProdLoop O C (flatPL ts).length (flatPL ts) = .ok ([u], cs.map rat)) (ha : cs.prod = a) :
    prodCtor O C ts = .ok (scale a u) := by
  have hacc : accumulateProd O (cs.map rat) = .ok (rat a) := by
    have fold : ∀ (l : List ℚ) (x : ℚ), foldNum (numMul O) (.frac x) ((l.map rat).map value) = .ok (.frac (x * l.prod)) := by
      intro l
      induction l with
      | nil => intro x; simp [foldNum]
      | cons y r ih => intro x; simp only [List.map_cons, value, foldNum, numMul]; rw [ih]; simp [mul_assoc]
    match cs, hcs, ha with
    | [c], _, ha => simp at ha; simp [accumulateProd, ha]
    | c :: d :: r, _, ha =>
      simp only [accumulateProd, List.map_cons]
      have := fold (c :: d :: r) 1
      simp only [List.map_cons] at this
      rw [this]
      simp only [one_mul, ha, const]
  have hne : (cs.map rat).isEmpty = false := by cases cs <;> simp_all
  have hcomb : combineProd O C (flatPL ts) = .ok (if a = 0 then [rat 0] else if a = 1 then [u] else [u, rat a]) := by
    unfold combineProd
    rw [hl]
    simp only [bind, Except.bind, hne, hacc, beq, pure, Except.pure, Bool.false_eq_true, if_false]
    by_cases h0 : a = 0
    · simp [h0]
    · by_cases h1 : a = 1
      · simp [h1]
      · simp [h0, h1]
  unfold prodCtor
  rw [hcomb]
  by_cases h0 : a = 0
  · simp [h0, scale, bind, Except.bind, pure, Except.pure]
  · by_cases h1 : a = 1
    · simp [h1, scale, bind, Except.bind, pure, Except.pure]
    · simp only [h0, h1, if_false, bind, Except.bind, sort_unit_rat h, scale, pure, Except.pure]
      cases h <;> rfl

theorem prod_rat_unit (h : Piece v u) (a : ℚ) : prodCtor O C [rat a, u] = .ok (scale a u) := by
  refine prodCtor_of h (cs := [a]) (by simp) ?_ (by simp)
  cases h <;> simp [flatPL, Simpy.flatP, combineProdLoop, deconPow, beq, List.filter_cons, Expr.isAcc, bind, Except.bind, pure, Except.pure]

theorem prod_unit_rat (hO : O.Exact) (h : Piece v u) (a : ℚ) : prodCtor O C [u, rat a] = .ok (scale a u) := by
  refine prodCtor_of h (cs := [a]) (by simp) ?_ (by simp)
  cases h <;> simp [flatPL, Simpy.flatP, combineProdLoop, deconPow, beq, hO.isE, List.filter_cons, Expr.isAcc, bind, Except.bind, pure, Except.pure]

theorem prod_rat_prod (hC : Squares C) (h : Piece v u) (c a : ℚ) : prodCtor O C [rat c, prod [rat a, u]] = .ok (scale (c * a) u) := by
  by_cases e : a = c
  · subst e
    refine prodCtor_of h (cs := [a ^ 2]) (by simp) ?_ (by simp [sq])
    have := hC a
    cases h <;> simp [flatPL, Simpy.flatP, combineProdLoop, deconPow, beq, List.filter_cons, Expr.isAcc, bind, Except.bind, pure, Except.pure, foldAdd, opAdd,
      likeFactor, this, show ((1 : ℚ) + 1) = 2 by norm_num]
  · refine prodCtor_of h (cs := [c, a]) (by simp) ?_ (by simp)
    cases h <;> simp [flatPL, Simpy.flatP, combineProdLoop, deconPow, beq, List.filter_cons, Expr.isAcc, bind, Except.bind, pure, Except.pure, e]

theorem prod_prod_neg (hO : O.Exact) (hC : Squares C) (h : Piece v u) (a : ℚ) :
    prodCtor O C [prod [rat a, u], rat (-1)] = .ok (scale (-a) u) := by
  by_cases e : -1 = a
  · subst e
    refine prodCtor_of h (cs := [(-1) ^ 2]) (by simp) ?_ (by simp)
    have := hC (-1)
    cases h <;> simp [flatPL, Simpy.flatP, combineProdLoop, deconPow, beq, hO.isE, List.filter_cons, Expr.isAcc, bind, Except.bind, pure, Except.pure, foldAdd, opAdd,
      likeFactor, this, show ((1 : ℚ) + 1) = 2 by norm_num] <;> simpa using this
  · refine prodCtor_of h (cs := [a, -1]) (by simp) ?_ (by simp)
    cases h <;> simp [flatPL, Simpy.flatP, combineProdLoop, deconPow, beq, hO.isE, List.filter_cons, Expr.isAcc, bind, Except.bind, pure, Except.pure, e]

/-- A product of a term and a number. -/
theorem prod_scale (hC : Squares C) (h : Piece v u) (c a : ℚ) : prodCtor O C [rat c, scale a u] = .ok (scale (c * a) u) ∨ a = 0 := by
  unfold scale
  split
  · exact .inr ‹_›
  · split
    · rename_i h1; subst h1; exact .inl (by simpa [scale] using prod_rat_unit h c)
    · exact .inl (prod_rat_prod hC h c a)

/-! ## repr -/

theorem pow_var (m : Nat) {q : ℚ} (h0 : q ≠ 0) (h1 : q ≠ 1) : (ctors O (m + 1)).pow (sym v) (rat q) = .ok (pow (sym v) (rat q)) := by
  show powCtor O (ctors O m) (sym v) (rat q) = _
  simp [powCtor, beq, h0, h1, Expr.isAcc, powLog, powTail, isSubtraction, powInf, numericBase, Expr.isNum]

/-- `x ** q` as the constructor writes it. -/
def varPow (v : Str) (q : ℚ) : Expr := if q = 1 then sym v else pow (sym v) (rat q)

theorem pow_var' (m : Nat) {q : ℚ} (h0 : q ≠ 0) : (ctors O (m + 1)).pow (sym v) (rat q) = .ok (varPow v q) := by
  unfold varPow
  split
  · rename_i h; subst h; rfl
  · exact pow_var m h0 ‹_›

theorem varPow_piece {q : ℚ} (h0 : q ≠ 0) : Piece v (varPow v q) := by
  unfold varPow
  split
  · exact .var
  · exact .power q h0 ‹_›

theorem wrap_ok {s l : Str} (h : s ≠ []) : ∃ r, wrapRepr s l = .ok r := by
  cases s with
  | nil => exact absurd rfl h
  | cons c r => unfold wrapRepr; dsimp only; split <;> exact ⟨_, rfl⟩

theorem repr_pospow (hv : v ≠ []) {q : ℚ} (h0 : 0 < q) (n : Nat) : Ok ((ctors O (n + 2)).repr (varPow v q)) := by
  unfold varPow
  split
  · exact ⟨_, rfl⟩
  · have h1 : ¬ (q = -1) := by intro h; linarith
    have h2 : ¬ (q < 0) := by linarith
    show Ok (powRepr O (ctors O (n + 1)) (sym v) (rat q))
    unfold powRepr
    simp only [beq, beq_iff_eq, h1, h2, if_false, negNum, decide_false, Bool.and_false, Bool.false_eq_true]
    refine Ok.ite ?_ ?_
    · exact Ok.bind ⟨_, repr_sym n⟩ fun s hs => by
        rw [repr_sym] at hs; cases hs; exact wrap_ok hv
    refine Ok.bind ?_ fun s _ => Ok.bind ?_ fun t _ => ⟨_, rfl⟩
    · exact Ok.bind ⟨_, repr_sym n⟩ fun s _ => ⟨_, rfl⟩
    · exact Ok.bind ⟨_, repr_rat n _⟩ fun s _ => ⟨_, rfl⟩

theorem repr_unit (hv : v ≠ []) (h : Piece v u) (n : Nat) : Ok ((ctors O (n + 7)).repr u) := by
  cases h with
  | var => exact ⟨_, rfl⟩
  | power q h0 h1 =>
    by_cases hq : 0 < q
    · have := repr_pospow (O := O) hv hq (n + 5)
      simpa [varPow, h1] using this
    · have hlt : q < 0 := lt_of_le_of_ne (not_lt.1 hq) h0
      show Ok (powRepr O (ctors O (n + 6)) (sym v) (rat q))
      unfold powRepr
      refine Ok.ite (Ok.bind (Ok.bind ⟨_, repr_sym (n + 5)⟩ fun s _ => ⟨_, rfl⟩) fun s _ => ⟨_, rfl⟩) ?_
      simp only [Expr.isRat, negNum, hlt, decide_true, Bool.true_or, Bool.and_true, if_true]
      refine Ok.bind ⟨rat (-q), rfl⟩ fun w hw => ?_
      cases hw
      refine Ok.bind ⟨_, pow_var' (n + 5) (by simpa using h0)⟩ fun p hp => ?_
      rw [pow_var' (n + 5) (by simpa using h0)] at hp
      cases hp
      exact Ok.bind (repr_pospow hv (by linarith) (n + 4)) fun _ _ => ⟨_, rfl⟩
  | @exp L h =>
    obtain ⟨s, hs, _⟩ := h.repr (O := O) hv n
    show Ok (powRepr O (ctors O (n + 6)) euler _)
    unfold powRepr
    rw [h.beqR, h.beqR]
    have hn : (L.isRat || L.isFlt) = false := by cases h <;> rfl
    simp only [hn, Bool.false_and, Bool.false_eq_true, if_false]
    exact Ok.bind ⟨_, rfl⟩ fun _ _ => Ok.bind (Ok.bind ⟨s, hs⟩ fun _ _ => ⟨_, rfl⟩) fun _ _ => ⟨_, rfl⟩
  | sin h _ =>
    obtain ⟨s, hs, hn⟩ := h.repr (O := O) hv n
    exact Ok.bind ⟨s, hs⟩ fun s' hs' => by rw [hs] at hs'; cases hs'; exact wrap_ok hn
  | cos h _ =>
    obtain ⟨s, hs, hn⟩ := h.repr (O := O) hv n
    exact Ok.bind ⟨s, hs⟩ fun s' hs' => by rw [hs] at hs'; cases hs'; exact wrap_ok hn
  | lnabs =>
    show Ok (do
      let s ← (ctors O (n + 6)).repr (absv (sym v))
      let l ← logLabel O (ctors O (n + 6)) euler
      wrapRepr s l)
    refine Ok.bind ⟨'|' :: v ++ ['|'], rfl⟩ fun s hs => Ok.bind ⟨_, rfl⟩ fun l _ => ?_
    cases hs
    exact wrap_ok (by simp)

/-- Not a negative power. -/
def Plain (O : Oracle) (u : Expr) : Prop := ∀ C : Ctors, numDenTerm O C u = .ok ([u], [])

theorem plain_pos {q : ℚ} (h : 0 < q) : Plain O (varPow v q) := by
  intro C
  unfold varPow
  split
  · rfl
  · simp [numDenTerm, deconPow, negNum, not_lt.2 h.le]

/-- A piece is its own numerator, or one over a positive power. -/
theorem numDen_piece (h : Piece v u) : Plain O u ∨
    ∃ q : ℚ, 0 < q ∧ u = pow (sym v) (rat (-q)) ∧ ∀ n, numDenTerm O (ctors O (n + 1)) u = .ok ([], [varPow v q]) := by
  cases h with
  | var => exact .inl fun _ => rfl
  | @exp L h =>
    refine .inl fun C => ?_
    have hn : negNum L = false := by cases h <;> rfl
    simp [numDenTerm, deconPow, hn]
  | sin _ _ => exact .inl fun _ => rfl
  | cos _ _ => exact .inl fun _ => rfl
  | lnabs => exact .inl fun _ => rfl
  | power q h0 h1 =>
    by_cases hq : 0 < q
    · exact .inl fun C => by simp [numDenTerm, deconPow, negNum, not_lt.2 hq.le]
    · have hlt : q < 0 := lt_of_le_of_ne (not_lt.1 hq) h0
      refine .inr ⟨-q, by linarith, by simp, fun n => ?_⟩
      have hp := pow_var' (O := O) (v := v) n (q := -q) (by simpa using h0)
      by_cases h : q = -1
      · subst h; simp [numDenTerm, deconPow, negNum, beq, varPow]
      · simp [numDenTerm, deconPow, negNum, hlt, beq, h, opNeg, hp, bind, Except.bind, pure, Except.pure]

/-- What numerators and denominators look like. -/
inductive Side (O : Oracle) (v : Str) : Expr → Prop
  | num (c : ℚ) : Side O v (rat c)
  | one {w : Expr} : Piece v w → Plain O w → Side O v w
  | many (k : Nat) {w : Expr} : Piece v w → Plain O w → Side O v (prod [rat k, w])

theorem numDen_scaled (h : Piece v u) {a : ℚ} (ha : ¬ a < 0) (n : Nat) : ∃ p q : Expr,
    numDen O (ctors O (n + 1)) [rat a, u] = .ok (p, q) ∧ Side O v p ∧ Side O v q := by
  have hr : ∀ C, numDenTerm O C (rat a) = .ok (if a.num ≠ 1 then [rat a.num] else [], if a.den ≠ 1 then [rat a.den] else []) := fun _ => rfl
  have hnat : ∃ k : Nat, (a.num : ℚ) = k := by
    obtain ⟨k, hk⟩ := Int.eq_ofNat_of_zero_le (Rat.num_nonneg.2 (not_lt.1 ha))
    exact ⟨k, by rw [hk]; simp⟩
  obtain ⟨k, hk⟩ := hnat
  unfold numDen
  rcases numDen_piece (O := O) h with hp | ⟨q, hq, _, hp⟩
  · have hmk : mkProdSkip [u] = .ok u := by simp [mkProdSkip, h.isProd]
    simp only [numDenLoop, hp _, hr, bind, Except.bind, pure, Except.pure, List.append_nil]
    have hs : Side O v (prod [rat a.num, u]) := by rw [hk]; exact .many k h hp
    by_cases h1 : a.num = 1 <;> by_cases h2 : a.den = 1
    · exact ⟨u, rat 1, by simp [h1, h2, hmk]; rfl, .one h hp, .num _⟩
    · exact ⟨u, rat a.den, by simp [h1, h2, hmk]; rfl, .one h hp, .num _⟩
    · exact ⟨prod [rat a.num, u], rat 1, by simp [h1, h2, mkProdSkip], hs, .num _⟩
    · exact ⟨prod [rat a.num, u], rat a.den, by simp [h1, h2, mkProdSkip, Expr.isProd], hs, .num _⟩
  · have hw := varPow_piece (v := v) hq.ne'
    have hpl := plain_pos (O := O) (v := v) hq
    have hmk : mkProdSkip [varPow v q] = .ok (varPow v q) := by simp [mkProdSkip, hw.isProd]
    simp only [numDenLoop, hp _, hr, bind, Except.bind, pure, Except.pure, List.append_nil]
    have hs : Side O v (prod [rat a.den, varPow v q]) := .many a.den hw hpl
    by_cases h1 : a.num = 1 <;> by_cases h2 : a.den = 1
    · exact ⟨rat 1, varPow v q, by simp [h1, h2, hmk]; rfl, .num _, .one hw hpl⟩
    · exact ⟨rat 1, prod [rat a.den, varPow v q], by simp [h1, h2, mkProdSkip], .num _, hs⟩
    · exact ⟨rat a.num, varPow v q, by simp [h1, h2, hmk]; rfl, .num _, .one hw hpl⟩
    · exact ⟨rat a.num, prod [rat a.den, varPow v q], by simp [h1, h2, mkProdSkip, Expr.isProd], .num _, hs⟩

theorem prodTerm_unit (hv : v ≠ []) (h : Piece v u) (m : Nat) : Ok (prodTermRepr (ctors O (m + 7)) u) := by
  unfold prodTermRepr
  exact Ok.bind (repr_unit hv h m) fun s _ => ⟨_, rfl⟩

theorem prodTerm_rat (m : Nat) (q : ℚ) : Ok (prodTermRepr (ctors O (m + 7)) (rat q)) := by
  unfold prodTermRepr
  exact Ok.bind ⟨_, repr_rat (m + 6) q⟩ fun s _ => ⟨_, rfl⟩

theorem mapR_unit (hv : v ≠ []) (h : Piece v u) (m : Nat) (a : ℚ) : Ok (mapR (prodTermRepr (ctors O (m + 7))) [rat a, u]) := by
  obtain ⟨s1, e1⟩ := prodTerm_rat (O := O) m a
  obtain ⟨s2, e2⟩ := prodTerm_unit (O := O) hv h m
  exact ⟨[s1, s2], by simp [mapR, e1, e2, bind, Except.bind, pure, Except.pure]⟩

theorem repr_many (hv : v ≠ []) (h : Piece v u) (hp : Plain O u) (k n : Nat) : Ok ((ctors O (n + 8)).repr (prod [rat k, u])) := by
  show Ok (prodRepr O (ctors O (n + 7)) [rat k, u])
  have hsub : (prod [rat (k : ℚ), u]).isSubtraction = false := by simp [isSubtraction]
  unfold prodRepr
  rw [hsub]
  simp only [Bool.false_eq_true, if_false]
  have hnd : ∃ p, numDen O (ctors O (n + 7)) [rat (k : ℚ), u] = .ok (p, rat 1) := by
    have hr : numDenTerm O (ctors O (n + 7)) (rat (k : ℚ)) = .ok (if (k : ℚ).num ≠ 1 then [rat (k : ℚ).num] else [],
      if (k : ℚ).den ≠ 1 then [rat (k : ℚ).den] else []) := rfl
    have hmk : mkProdSkip [u] = .ok u := by simp [mkProdSkip, h.isProd]
    unfold numDen
    simp only [numDenLoop, hp _, hr, bind, Except.bind, pure, Except.pure, List.append_nil]
    by_cases h1 : k = 1
    · exact ⟨u, by simp [h1, hmk]; rfl⟩
    · exact ⟨prod [rat k, u], by simp [h1, mkProdSkip]⟩
  obtain ⟨p, hpq⟩ := hnd
  refine Ok.bind ⟨_, hpq⟩ fun w hw => ?_
  rw [hpq] at hw
  cases hw
  simp only [beq, beq_self_eq_true, Bool.not_true, Bool.false_eq_true, if_false]
  exact Ok.bind (mapR_unit hv h n k) fun _ _ => ⟨_, rfl⟩

theorem repr_side (hv : v ≠ []) (h : Side O v t) (n : Nat) : Ok ((ctors O (n + 8)).repr t) := by
  cases h with
  | num c => exact ⟨_, rfl⟩
  | one h _ => exact repr_unit hv h (n + 1)
  | many k h hp => exact repr_many hv h hp k n

theorem repr_pos (hv : v ≠ []) (h : Piece v u) {a : ℚ} (ha : ¬ a < 0) (n : Nat) : Ok ((ctors O (n + 9)).repr (prod [rat a, u])) := by
  show Ok (prodRepr O (ctors O (n + 8)) [rat a, u])
  have hsub : (prod [rat a, u]).isSubtraction = false := by simpa [isSubtraction] using ha
  unfold prodRepr
  rw [hsub]
  simp only [Bool.false_eq_true, if_false]
  obtain ⟨p, q, hpq, hp, hq⟩ := numDen_scaled (O := O) h ha (n + 7)
  have prt : ∀ {t}, Side O v t → Ok (prodTermRepr (ctors O (n + 8)) t) := fun ht =>
    Ok.bind (repr_side hv ht n) fun s _ => ⟨_, rfl⟩
  refine Ok.bind ⟨_, hpq⟩ fun w hw => ?_
  rw [hpq] at hw
  cases hw
  dsimp only
  refine Ok.ite ?_ ?_
  · obtain ⟨a1, e1⟩ := repr_side hv hp n
    obtain ⟨a2, e2⟩ := prt hp
    obtain ⟨b1, e3⟩ := repr_side hv hq n
    obtain ⟨b2, e4⟩ := prt hq
    cases p.isProd <;> cases q.isProd <;> simp [e1, e2, e3, e4, bind, Except.bind, pure, Except.pure] <;> exact ⟨_, rfl⟩
  · exact Ok.bind (mapR_unit hv h (n + 1) a) fun _ _ => ⟨_, rfl⟩

theorem repr_scaled (hO : O.Exact) (hv : v ≠ []) (h : Piece v u) (a : ℚ) (n : Nat) : Ok ((ctors O (n + 10)).repr (prod [rat a, u])) := by
  by_cases ha : a < 0
  · show Ok (prodRepr O (ctors O (n + 9)) [rat a, u])
    have hsub : (prod [rat a, u]).isSubtraction = true := by simpa [isSubtraction] using ha
    unfold prodRepr
    rw [hsub]
    simp only [if_true]
    have hnp : (ctors O (n + 9)).prod [prod [rat a, u], rat (-1)] = .ok (scale (-a) u) := prod_prod_neg hO (squares_ctors (n + 7)) h a
    refine Ok.bind ⟨_, hnp⟩ fun w hw => ?_
    rw [hnp] at hw
    cases hw
    have h0 : ¬ (-a = 0) := by intro h0; have : a = 0 := by linarith
                               rw [this] at ha; exact lt_irrefl _ ha
    by_cases h1 : -a = 1
    · simp only [scale, h0, h1, if_false, if_true, h.isProd, Bool.not_false, one_ne_zero]
      exact Ok.bind (prodTerm_unit hv h (n + 2)) fun _ _ => ⟨_, rfl⟩
    · have hs : (prod [rat (-a), u]).isSubtraction = false := by simp [isSubtraction]; linarith
      simp only [scale, h0, h1, if_false, Expr.isProd, Bool.not_true, Bool.false_eq_true, hs]
      exact Ok.bind (repr_pos hv h (by linarith) n) fun _ _ => ⟨_, rfl⟩
  · exact repr_pos hv h ha (n + 1)

theorem repr_term (hO : O.Exact) (hv : v ≠ []) (h : Term v t) (n : Nat) : Ok ((ctors O (n + 10)).repr t) := by
  cases h with
  | const c => exact ⟨_, rfl⟩
  | unit h => exact repr_unit hv h (n + 3)
  | scaled c h => exact repr_scaled hO hv h c n

/-! ## Sums -/

theorem Term.nwf (h : Term v t) : Ok (Simpy.nwf t) := by
  cases h with
  | const c => exact ⟨_, rfl⟩
  | unit h => obtain ⟨k, hk⟩ := h.nwf; exact ⟨_, hk⟩
  | scaled c h =>
    obtain ⟨k, hk⟩ := h.nwf
    have hv := h.varies
    have hr : Expr.varies (rat c) = false := rfl
    refine ⟨k + 1, ?_⟩
    simp [Simpy.nwf, List.filter, hv, hr, h.isProd, nwfKeep, hk, bind, Except.bind, pure, Except.pure]

theorem Term.constPower (h : Term v t) : Ok (Simpy.constPower t) := by
  have : Ok (removeConstFactor t) := by
    cases h with
    | const c => exact ⟨_, rfl⟩
    | unit h => cases h <;> exact ⟨_, rfl⟩
    | scaled c h =>
      have hr : Expr.varies (rat c) = false := rfl
      exact ⟨_, by simp [removeConstFactor, List.filter, h.varies, hr, mkProdSkip, h.isProd]; rfl⟩
  unfold Simpy.constPower
  refine Ok.bind this fun a _ => ?_
  split <;> exact ⟨_, rfl⟩

theorem cmp_term (hO : O.Exact) (hv : v ≠ []) (h1 : Term v t) (h2 : Term v e) (n : Nat) : Ok (cmpLt (ctors O (n + 10)) t e) := by
  unfold cmpLt
  have r1 := repr_term hO hv h1 n
  have r2 := repr_term hO hv h2 n
  refine Ok.bind h1.nwf fun a _ => Ok.bind h2.nwf fun b _ => ?_
  refine Ok.ite ?_ (Ok.ite ⟨_, rfl⟩ ?_)
  · refine Ok.ite ⟨_, rfl⟩ ?_
    exact Ok.bind r1 fun _ _ => Ok.bind r2 fun _ _ => ⟨_, rfl⟩
  · refine Ok.bind h1.constPower fun _ _ => Ok.bind h2.constPower fun _ _ => Ok.ite ⟨_, rfl⟩ ?_
    exact Ok.bind r1 fun _ _ => Ok.bind r2 fun _ _ => ⟨_, rfl⟩

theorem flatS_term (h : Term v t) : flatS t = [t] := by
  cases h with
  | const c => rfl
  | unit h => exact h.flatS
  | scaled c h => rfl

theorem flatSL_terms : ∀ {ts : List Expr}, (∀ t ∈ ts, Term v t) → flatSL ts = ts
  | [], _ => rfl
  | t :: r, h => by
    simp [flatSL, flatS_term (h t (by simp)), flatSL_terms (ts := r) fun x hx => h x (by simp [hx])]

/-! The sums of a class of terms: `P` says which pieces are allowed. -/

section cls
variable {P : Expr → Prop}

/-- A number, an allowed piece, or a number times an allowed piece. -/
def PTerm (v : Str) (P : Expr → Prop) (t : Expr) : Prop :=
  (∃ c, t = rat c) ∨ (∃ u, Piece v u ∧ P u ∧ t = u) ∨ ∃ c u, Piece v u ∧ P u ∧ t = prod [rat c, u]

theorem PTerm.term (h : PTerm v P t) : Term v t := by
  rcases h with ⟨c, rfl⟩ | ⟨u, h, _, rfl⟩ | ⟨c, u, h, _, rfl⟩
  · exact .const c
  · exact .unit h
  · exact .scaled c h

/-- A term, or a sum of terms, with allowed pieces. -/
def PComb (v : Str) (P : Expr → Prop) (e : Expr) : Prop := PTerm v P e ∨ ∃ ts, e = sum ts ∧ ts ≠ [] ∧ ∀ t ∈ ts, PTerm v P t

theorem PComb.comb (h : PComb v P e) : Comb v e := by
  rcases h with h | ⟨ts, rfl, hn, h⟩
  · exact .inl h.term
  · exact .inr ⟨ts, rfl, hn, fun t ht => (h t ht).term⟩

theorem pscale (h : Piece v u) (hP : P u) (a : ℚ) : PTerm v P (scale a u) := by
  unfold scale
  split
  · exact .inl ⟨0, rfl⟩
  · split
    · exact .inr (.inl ⟨u, h, hP, rfl⟩)
    · exact .inr (.inr ⟨a, u, h, hP, rfl⟩)

/-- Coefficients and the rest, for terms that are not numbers. -/
theorem decon_term (h : PTerm v P t) (hn : t.isAcc = false) : ∃ (c : ℚ) (u : Expr), Piece v u ∧ P u ∧ deconProd t = ([rat c], [u]) := by
  rcases h with ⟨c, rfl⟩ | ⟨u, h, hP, rfl⟩ | ⟨c, u, h, hP, rfl⟩
  · simp [Expr.isAcc] at hn
  · exact ⟨1, _, h, hP, h.decon⟩
  · have hr : (rat c).isAcc = true := rfl
    exact ⟨c, _, h, hP, by simp [deconProd, List.filter, hr, h.isAcc]⟩

theorem likeTerm_term (h : Piece v u) (hP : P u) (cs : List ℚ) : ∃ o, likeTerm O (cs.map rat) [u] = .ok o ∧ ∀ t ∈ o, PTerm v P t := by
  obtain ⟨a, ha⟩ := accumulateSum_rats (O := O) cs
  have hmk : mkProdSkip [u] = .ok u := by simp [mkProdSkip, h.isProd]
  have hmk2 : mkProdSkip [rat a, u] = .ok (prod [rat a, u]) := rfl
  unfold likeTerm
  rw [ha]
  simp only [bind, Except.bind, beq, beq_iff_eq, hmk, hmk2, pure, Except.pure]
  split
  · exact ⟨_, rfl, by simp⟩
  · split
    · exact ⟨_, rfl, by simpa using .inr (.inl ⟨u, h, hP, rfl⟩)⟩
    · exact ⟨_, rfl, by simpa using .inr (.inr ⟨a, u, h, hP, rfl⟩)⟩

theorem combineSumLoop_terms : ∀ (n : Nat) (ts : List Expr), (∀ t ∈ ts, PTerm v P t) →
    ∃ (nc : List Expr) (cs : List ℚ), combineSumLoop O n ts = .ok (nc, cs.map rat) ∧ ∀ t ∈ nc, PTerm v P t
  | 0, ts, _ => ⟨[], [], rfl, by simp⟩
  | n + 1, [], _ => ⟨[], [], rfl, by simp⟩
  | n + 1, t :: r, h => by
    have ht := h t (by simp)
    have hr : ∀ x ∈ r, PTerm v P x := fun x hx => h x (by simp [hx])
    unfold combineSumLoop
    by_cases ha : t.isAcc = true
    · obtain ⟨nc, cs, e, hm⟩ := combineSumLoop_terms n r hr
      simp only [ha, if_true, e, bind, Except.bind, pure, Except.pure]
      have : ∃ c, t = rat c := by
        rcases ht with ⟨c, rfl⟩ | ⟨u, h, _, rfl⟩ | ⟨c, u, h, _, rfl⟩
        · exact ⟨c, rfl⟩
        · rw [h.isAcc] at ha; cases ha
        · simp [Expr.isAcc] at ha
      obtain ⟨c, rfl⟩ := this
      exact ⟨nc, c :: cs, rfl, hm⟩
    · have ha' : t.isAcc = false := by simpa using ha
      simp only [ha', Bool.false_eq_true, if_false]
      obtain ⟨c, u, hu, hPu, hd⟩ := decon_term ht ha'
      have hrest : ∀ x ∈ r.filter (fun u => !beqL O (deconProd t).2 (deconProd u).2), PTerm v P x :=
        fun x hx => hr x (List.mem_filter.1 hx).1
      obtain ⟨nc, cs, e, hm⟩ := combineSumLoop_terms n _ hrest
      split
      · rw [e]
        exact ⟨t :: nc, cs, rfl, fun x hx => by
          rcases List.mem_cons.1 hx with rfl | hx
          · exact ht
          · exact hm x hx⟩
      · have hcs : ∀ l : List Expr, (∀ x ∈ l, PTerm v P x) → (∀ x ∈ l, beqL O (deconProd t).2 (deconProd x).2 = true) →
            ∃ ds : List ℚ, (l.map fun u => (deconProd u).1).flatten = ds.map rat := by
          intro l
          induction l with
          | nil => intro _ _; exact ⟨[], rfl⟩
          | cons x l ih =>
            intro hl hb
            obtain ⟨ds, hds⟩ := ih (fun y hy => hl y (by simp [hy])) (fun y hy => hb y (by simp [hy]))
            have hx : x.isAcc = false := by
              by_contra hx
              have hb := hb x (by simp)
              rcases hl x (by simp) with ⟨c, rfl⟩ | ⟨w, h, _, rfl⟩ | ⟨c, w, h, _, rfl⟩
              · rw [hd] at hb
                simp [deconProd, beqL, hu.beqR] at hb
              · exact hx h.isAcc
              · exact hx rfl
            obtain ⟨c', u', _, _, hd'⟩ := decon_term (hl x (by simp)) hx
            exact ⟨c' :: ds, by simp [hd', hds]⟩
        obtain ⟨ds, hds⟩ := hcs (r.filter (fun u => beqL O (deconProd t).2 (deconProd u).2))
          (fun x hx => hr x (List.mem_filter.1 hx).1) (fun x hx => (List.mem_filter.1 hx).2)
        obtain ⟨o, ho, hom⟩ := likeTerm_term (O := O) hu hPu (c :: ds)
        have hc : (deconProd t).1 ++ (List.map (fun u => (deconProd u).1)
            (r.filter (fun u => beqL O (deconProd t).2 (deconProd u).2))).flatten = (c :: ds).map rat := by
          rw [hds, hd]; rfl
        rw [hc]
        have hd2 : (deconProd t).2 = [u] := by rw [hd]
        rw [hd2, ho]
        rw [hd2] at e
        simp only [bind, Except.bind, e, pure, Except.pure]
        refine ⟨o.toList ++ nc, cs, rfl, fun x hx => ?_⟩
        rcases List.mem_append.1 hx with hx | hx
        · exact hom x (by simpa using hx)
        · exact hm x hx

theorem flatSL_combs : ∀ {ts : List Expr}, (∀ t ∈ ts, PComb v P t) → ∀ u ∈ flatSL ts, PTerm v P u
  | [], _, u, hu => by simp [flatSL] at hu
  | t :: r, h, u, hu => by
    simp only [flatSL, List.mem_append] at hu
    rcases hu with hu | hu
    · rcases h t (by simp) with ht | ⟨ss, rfl, _, hs⟩
      · rw [flatS_term ht.term] at hu
        simp at hu
        exact hu ▸ ht
      · have : flatS (sum ss) = ss := by simp [flatS, flatSL_terms fun t ht => (hs t ht).term]
        rw [this] at hu
        exact hs u hu
    · exact flatSL_combs (fun x hx => h x (by simp [hx])) u hu

/-- `Sum` of combinations returns a combination, and it allows the same pieces. -/
theorem sum_combs (hO : O.Exact) (hv : v ≠ []) {ts : List Expr} (h : ∀ t ∈ ts, PComb v P t) (n : Nat) :
    ∃ S, (ctors O (n + 11)).sum ts = .ok S ∧ PComb v P S := by
  show ∃ S, sumCtor O (ctors O (n + 10)) ts = .ok S ∧ _
  obtain ⟨nc, cs, e, hm⟩ := combineSumLoop_terms (O := O) (flatSL ts).length (flatSL ts) (flatSL_combs h)
  have hcomb : ∃ fs, combineSum O (flatSL ts) = .ok fs ∧ ∀ t ∈ fs, PTerm v P t := by
    unfold combineSum
    rw [e]
    simp only [bind, Except.bind, pure, Except.pure]
    by_cases hcs : (cs.map rat).isEmpty = true
    · simp only [hcs, if_true]; exact ⟨nc, rfl, hm⟩
    · obtain ⟨a, ha⟩ := accumulateSum_rats (O := O) cs
      simp only [hcs, Bool.false_eq_true, if_false, ha]
      split
      · exact ⟨nc, rfl, hm⟩
      · exact ⟨nc ++ [rat a], rfl, fun x hx => by
          rcases List.mem_append.1 hx with hx | hx
          · exact hm x hx
          · simp at hx; subst hx; exact .inl ⟨a, rfl⟩⟩
  obtain ⟨fs, hfs, hfm⟩ := hcomb
  unfold sumCtor
  rw [hfs]
  simp only [bind, Except.bind, pure, Except.pure]
  match fs, hfm with
  | [], _ => exact ⟨rat 0, rfl, .inl (.inl ⟨0, rfl⟩)⟩
  | [t], hfm => exact ⟨t, rfl, .inl (hfm t (by simp))⟩
  | a :: b :: r, hfm =>
    obtain ⟨s, hs⟩ := pySorted_total (lt := cmpLt (ctors O (n + 10))) (l := a :: b :: r)
      fun x hx y hy => cmp_term hO hv (hfm x hx).term (hfm y hy).term n
    have hperm := pySorted_perm hs
    have hs' : sortTerms (ctors O (n + 10)) (a :: b :: r) = .ok s := hs
    simp only [hs']
    refine ⟨sum s.reverse, rfl, .inr ⟨_, rfl, ?_, fun x hx => hfm x (hperm.subset (by simpa using hx))⟩⟩
    intro hnil
    have : s = [] := by simpa using hnil
    rw [this] at hperm
    have := hperm.length_eq
    simp at this

end cls

end Lin
end Simpy
