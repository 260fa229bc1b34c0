import Verif.Proofs.LinTerms
import Verif.Props.Rationals

/-! # Lemmas: products and quotients of monomials `c * x ** q` -/

namespace Simpy
namespace Mono1
open Expr Lin

variable {O : Oracle} {C : Ctors} {v : Str}

/-- `c * x ** q` as the constructors write it (`c ≠ 0`). -/
def mq (v : Str) (c q : ℚ) : Expr := if q = 0 then rat c else scale c (Lin.varPow v q)

theorem decon_varPow (q : ℚ) : deconPow (Lin.varPow v q) = (sym v, rat q) := by
  unfold Lin.varPow
  split
  · rename_i h; subst h; rfl
  · rfl

theorem acc_varPow (q : ℚ) : (Lin.varPow v q).isAcc = false := by
  unfold Lin.varPow; split <;> rfl

theorem flat_varPow (q : ℚ) : flatP (Lin.varPow v q) = [Lin.varPow v q] := by
  unfold Lin.varPow; split <;> rfl

/-- The result of a product whose like factors have been combined. -/
theorem prodCtor_mq {ts : List Expr} {a s : ℚ} {cs : List ℚ} (ha0 : a ≠ 0)
    (hl : combineProdLoop O C (flatPL ts).length (flatPL ts) = .ok (if s = 0 then [] else [Lin.varPow v s], cs.map rat))
    (ha : cs.prod = a) : prodCtor O C ts = .ok (mq v a s) := by
  have hacc : cs ≠ [] → accumulateProd O (cs.map rat) = .ok (rat a) := by
    intro hcs
    have fold : ∀ (l : List ℚ) (x : ℚ), foldNum (numMul O) (.frac x) ((l.map rat).map value) = .ok (.frac (x * l.prod)) := by
      intro l
      induction l with
      | nil => intro x; simp [foldNum]
      | cons y r ih => intro x; simp only [List.map_cons, value, foldNum, numMul]; rw [ih]; simp [mul_assoc]
    match cs, hcs, ha with
    | [c], _, ha => simp at ha; simp [accumulateProd, ha]
    | c :: d :: r, _, ha =>
      simp only [accumulateProd, List.map_cons]
      have := fold (c :: d :: r) 1
      simp only [List.map_cons] at this
      rw [this]
      simp only [one_mul, ha, const]
  have hcomb : combineProd O C (flatPL ts) = .ok ((if s = 0 then [] else [Lin.varPow v s]) ++ if a = 1 then [] else [rat a]) := by
    unfold combineProd
    rw [hl]
    by_cases hcs : cs = []
    · subst hcs
      simp only [List.prod_nil] at ha
      simp [← ha, bind, Except.bind, pure, Except.pure]
    · have hne : (cs.map rat).isEmpty = false := by cases cs <;> simp_all
      simp only [bind, Except.bind, hne, hacc hcs, beq, pure, Except.pure, Bool.false_eq_true, if_false]
      by_cases h1 : a = 1
      · simp [h1]
      · simp [ha0, h1]
  unfold prodCtor
  rw [hcomb]
  unfold mq
  by_cases h0 : s = 0
  · by_cases h1 : a = 1
    · simp [h0, h1, bind, Except.bind, pure, Except.pure]
    · simp [h0, h1, bind, Except.bind, pure, Except.pure]
  · have hp := varPow_piece (v := v) h0
    by_cases h1 : a = 1
    · simp [h0, h1, scale, bind, Except.bind, pure, Except.pure]
    · simp only [h0, h1, if_false, bind, Except.bind, List.cons_append, List.nil_append, Lin.sort_unit_rat hp, scale, pure,
        Except.pure, ha0]
      generalize Lin.varPow v s = u at hp
      cases hp <;> rfl

theorem fold2 (i j : ℚ) : foldAdd C (rat i) [rat j] = .ok (rat (i + j)) := by
  simp [foldAdd, opAdd]

theorem like_var (m : Nat) (q : ℚ) : likeFactor O (ctors O (m + 1)) (sym v) (rat q) =
    .ok (if q = 0 then none else some (Lin.varPow v q)) := by
  unfold likeFactor
  simp only [beq, beq_iff_eq]
  by_cases h0 : q = 0
  · simp [h0]
  · by_cases h1 : q = 1
    · simp [h1, Lin.varPow]
    · simp [h0, h1, pow_var' m h0]

theorem flat_mq {a q : ℚ} (h0 : a ≠ 0) : flatP (mq v a q) = if q = 0 then [rat a] else if a = 1 then [Lin.varPow v q] else [rat a, Lin.varPow v q] := by
  unfold mq
  split
  · rfl
  · unfold scale
    simp only [h0, if_false]
    split
    · exact flat_varPow q
    · simp [flatP, flatPL, flat_varPow]

theorem sq_pow (m : Nat) (a : ℚ) : likeFactor O (ctors O (m + 1)) (rat a) (rat (1 + 1)) = .ok (some (rat (a * a))) := by
  have := squares_ctors (O := O) m a
  unfold likeFactor
  rw [show (1 : ℚ) + 1 = 2 by norm_num, this, sq]
  simp [beq]

/-- The product of two monomials. -/
theorem prod_mq (m : Nat) {a b i j : ℚ} (ha : a ≠ 0) (hb : b ≠ 0) :
    (ctors O (m + 2)).prod [mq v a i, mq v b j] = .ok (mq v (a * b) (i + j)) := by
  show prodCtor O (ctors O (m + 1)) _ = _
  have hab : a * b ≠ 0 := mul_ne_zero ha hb
  have hf : flatPL [mq v a i, mq v b j] = flatP (mq v a i) ++ flatP (mq v b j) := by simp [flatPL]
  have hli := like_var (O := O) (v := v) m (i + j)
  have hsq := sq_pow (O := O) m a
  have r1 : ∀ (x y : ℚ), beq O (rat x) (rat y) = decide (x = y) := fun x y => by simp [beq]; rfl
  have r2 : ∀ (x : ℚ), beq O (sym v) (rat x) = false := fun x => rfl
  have r3 : ∀ (x : ℚ), beq O (rat x) (sym v) = false := fun x => rfl
  have r4 : beq O (sym v) (sym v) = true := by simp [beq]
  have r5 : ∀ (x : ℚ), deconPow (rat x) = (rat x, rat 1) := fun x => rfl
  have r6 : ∀ (x : ℚ), (rat x).isAcc = true := fun x => rfl
  by_cases hi : i = 0 <;> by_cases hj : j = 0
  · subst hi; subst hj
    have := rational_prod_exact O m [a, b]
    simp only [List.map_cons, List.map_nil, List.prod_cons, List.prod_nil, mul_one] at this
    simp only [mq, if_true, add_zero]
    exact this
  all_goals
    have key : ∃ cs : List ℚ, cs.prod = a * b ∧ combineProdLoop O (ctors O (m + 1)) (flatPL [mq v a i, mq v b j]).length
        (flatPL [mq v a i, mq v b j]) = .ok (if i + j = 0 then [] else [Lin.varPow v (i + j)], cs.map rat) := by
      rw [hf, flat_mq ha, flat_mq hb]
      by_cases e : a = b
      · subst e
        by_cases h1 : a = 1
        all_goals
          refine ⟨?cs, ?_, ?_⟩
          case cs => exact if a = 1 then (if i = 0 ∨ j = 0 then [1] else []) else [a * a]
          · by_cases hi : i = 0 <;> by_cases hj : j = 0 <;> simp_all
          · by_cases hij : i + j = 0 <;> simp_all [combineProdLoop, decon_varPow, acc_varPow, bind, Except.bind, pure, Except.pure, fold2]
      · have e' : ¬ b = a := fun h => e h.symm
        by_cases h1 : a = 1 <;> by_cases h2 : b = 1
        all_goals
          refine ⟨?cs, ?_, ?_⟩
          case cs => exact (if a = 1 ∧ i ≠ 0 then [] else [a]) ++ (if b = 1 ∧ j ≠ 0 then [] else [b])
          · by_cases hi : i = 0 <;> by_cases hj : j = 0 <;> simp_all
          · by_cases hij : i + j = 0 <;> simp_all [combineProdLoop, decon_varPow, acc_varPow, bind, Except.bind, pure, Except.pure, fold2]
    obtain ⟨cs, hc, hk⟩ := key
    exact prodCtor_mq hab hk hc

theorem inv_rat (m : Nat) {a : ℚ} (h : a ≠ 0) : (ctors O (m + 1)).pow (rat a) (rat (-1)) = .ok (rat (1 / a)) := by
  have := rational_power_exact O m a (-1) (.inl h)
  simpa using this

theorem inv_var (m : Nat) {q : ℚ} (h : q ≠ 0) : (ctors O (m + 2)).pow (Lin.varPow v q) (rat (-1)) = .ok (Lin.varPow v (-q)) := by
  by_cases h1 : q = 1
  · subst h1
    have := pow_var' (O := O) (v := v) (m + 1) (q := -1) (by norm_num)
    simpa [Lin.varPow] using this
  · have e : Lin.varPow v q = pow (sym v) (rat q) := by simp [Lin.varPow, h1]
    rw [e]
    show powCtor O (ctors O (m + 1)) (pow (sym v) (rat q)) (rat (-1)) = _
    have hne : (-1 : ℚ) ≠ 0 := by norm_num
    have hne1 : (-1 : ℚ) ≠ 1 := by norm_num
    have hp := pow_var' (O := O) (v := v) m (q := -q) (by simpa using h)
    have hm : (q * -1 : ℚ) = -q := by ring
    have hop : opPow O (ctors O (m + 1)) (sym v) (rat (-q)) = .ok (Lin.varPow v (-q)) := hp
    unfold powCtor multiplyExponents
    simp only [beq, beq_iff_eq, hne, hne1, if_false, Expr.isAcc, Bool.false_and, Bool.false_eq_true, opMul, bind, Except.bind, hm, hop]
    split
    · rename_i he
      split
      · rename_i h2
        exfalso
        norm_num at h2
        subst h2
        simp [ratEven] at he
      · rfl
    · rfl

theorem neg_mq (m : Nat) {a q : ℚ} (ha : a ≠ 0) : opNeg (ctors O (m + 2)) (mq v a q) = .ok (mq v (-a) q) := by
  by_cases hq : q = 0
  · subst hq; simp [mq, opNeg]
  have h := prod_mq (O := O) (v := v) m (a := -1) (b := a) (i := 0) (j := q) (by norm_num) ha
  rw [zero_add, neg_one_mul] at h
  rw [← h]
  have e : mq v (-1) 0 = rat (-1) := by simp [mq]
  rw [e]
  have hp := varPow_piece (v := v) hq
  have : mq v a q = scale a (Lin.varPow v q) := by simp [mq, hq]
  rw [this]
  generalize Lin.varPow v q = u at hp
  unfold scale
  simp only [ha, if_false]
  split
  · cases hp <;> simp only [opNeg]
  · simp only [opNeg]

/-- The inverse of a monomial. -/
theorem inv_mq (m : Nat) {a q : ℚ} (ha : a ≠ 0) : (ctors O (m + 5)).pow (mq v a q) (rat (-1)) = .ok (mq v (1 / a) (-q)) := by
  have hne : (-1 : ℚ) ≠ 0 := by norm_num
  have hne1 : (-1 : ℚ) ≠ 1 := by norm_num
  by_cases hq : q = 0
  · subst hq
    simpa [mq] using inv_rat (O := O) (m + 4) ha
  have hq' : -q ≠ 0 := by simpa using hq
  have pos : ∀ (m : Nat) (a : ℚ), 0 < a → (ctors O (m + 4)).pow (mq v a q) (rat (-1)) = .ok (mq v (1 / a) (-q)) := by
    intro m a ha
    have ha0 : a ≠ 0 := ne_of_gt ha
    by_cases h1 : a = 1
    · subst h1
      simpa [mq, hq, scale] using inv_var (O := O) (v := v) (m + 2) hq
    · have e : mq v a q = prod [rat a, Lin.varPow v q] := by simp [mq, hq, scale, ha0, h1]
      rw [e]
      show powCtor O (ctors O (m + 3)) (prod [rat a, Lin.varPow v q]) (rat (-1)) = _
      have i1 := inv_rat (O := O) (m + 2) ha0
      have i2 := inv_var (O := O) (v := v) (m + 1) hq
      have hs : (prod [rat a, Lin.varPow v q]).isSubtraction = false := by
        have : ¬ a < 0 := not_lt.2 ha.le
        simp [isSubtraction, this]
      have hpr := Lin.prod_rat_unit (O := O) (C := ctors O (m + 2)) (varPow_piece (v := v) hq') (1 / a)
      unfold powCtor
      simp only [beq, beq_iff_eq, hne, hne1, if_false, Expr.isAcc, Bool.false_and, Bool.false_eq_true, hs, Bool.not_false, if_true, powEach, mapR,
        i1, i2, bind, Except.bind]
      simp only [mq, hq', if_false]
      exact hpr
  rcases lt_or_gt_of_ne ha with hneg | hpos
  · have ha1 : a ≠ 1 := by intro h; linarith
    have e : mq v a q = prod [rat a, Lin.varPow v q] := by simp [mq, hq, scale, ha, ha1]
    have hp := varPow_piece (v := v) hq
    rw [e]
    show powCtor O (ctors O (m + 4)) (prod [rat a, Lin.varPow v q]) (rat (-1)) = _
    have hs : (prod [rat a, Lin.varPow v q]).isSubtraction = true := by simp [isSubtraction, hneg]
    have hn : opNeg (ctors O (m + 4)) (prod [rat a, Lin.varPow v q]) = .ok (mq v (-a) q) := by
      rw [← e]; exact neg_mq (m + 2) ha
    have hi := pos m (-a) (by linarith)
    have hn2 : opNeg (ctors O (m + 4)) (mq v (1 / -a) (-q)) = .ok (mq v (1 / a) (-q)) := by
      rw [neg_mq (m + 2) (by simpa using ha)]
      congr 2
      field_simp
    unfold powCtor powLog powTail
    simp only [beq, beq_iff_eq, hne, hne1, if_false, Expr.isAcc, Bool.false_and, Bool.false_eq_true, hs, Bool.not_true,
        bind, Except.bind, hn, hi, hn2]
    rfl
  · exact pos (m + 1) a hpos

/-- The quotient of two monomials. -/
theorem div_mq (m : Nat) {a b i j : ℚ} (ha : a ≠ 0) (hb : b ≠ 0) :
    opDiv (ctors O (m + 5)) (mq v a i) (mq v b j) = .ok (mq v (a / b) (i - j)) := by
  have h1 := inv_mq (O := O) (v := v) m (a := b) (q := j) hb
  have h2 := prod_mq (O := O) (v := v) (m + 3) (a := a) (b := 1 / b) (i := i) (j := -j) ha (by simpa using hb)
  rw [← sub_eq_add_neg, mul_one_div] at h2
  have gen : (do
      let i' ← (ctors O (m + 5)).pow (mq v b j) (rat (-1))
      (ctors O (m + 5)).prod [mq v a i, i'] : R Expr) = .ok (mq v (a / b) (i - j)) := by
    rw [h1]; exact h2
  by_cases hi : i = 0
  · by_cases hj : j = 0
    · subst hi; subst hj; simp [mq, opDiv, hb]
    · rw [← gen]
      subst hi
      have hp := varPow_piece (v := v) hj
      simp only [mq, hj, if_true, if_false]
      generalize Lin.varPow v j = u at hp
      unfold scale
      simp only [hb, if_false]
      split
      · cases hp <;> rfl
      · rfl
  · rw [← gen]
    have hp := varPow_piece (v := v) hi
    have : mq v a i = scale a (Lin.varPow v i) := by simp [mq, hi]
    rw [this]
    generalize Lin.varPow v i = u at hp
    unfold scale
    simp only [ha, if_false]
    split
    · cases hp <;> rfl
    · rfl

end Mono1
end Simpy
