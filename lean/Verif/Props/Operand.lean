import Verif.Spec.Operand
import Verif.Proofs.ExactOracle
import Verif.Proofs.Built
import Verif.Proofs.TrigSound
import Verif.Props.Defaults

/-!
# C74: numbers and expressions can be mixed

`castV x` is `_cast(x)`; `binop O C op a b` is `a op b` for operands that are numbers or expressions.
-/

namespace Simpy
open Expr

/-! ## Casting -/

open PyVal in
mutual
theorem castV_get : ∀ {x y : PyVal}, castV x = .ok y → ∀ p,
    (∀ u, x.get p = some u → ∃ w, y.get p = some w ∧ Became u w) ∧ (x.get p = Option.none → y.get p = Option.none)
  | .none, y, h, p => by
    simp only [castV, Except.ok.injEq] at h; subst h
    cases p with
    | nil => simp [PyVal.get]; exact .none
    | cons => simp [PyVal.get]
  | .bool b, y, h, p => by
    simp only [castV, Except.ok.injEq] at h; subst h
    cases p with
    | nil => simp [PyVal.get]; exact .bool b
    | cons => simp [PyVal.get]
  | .num c, y, h, p => by
    simp only [castV, Except.ok.injEq] at h; subst h
    cases p with
    | nil => simp [PyVal.get]; exact .num c
    | cons => simp [PyVal.get]
  | .expr e, y, h, p => by
    simp only [castV, Except.ok.injEq] at h; subst h
    cases p with
    | nil => simp [PyVal.get]; exact .expr e
    | cons => simp [PyVal.get]
  | .cls c, y, h, p => by
    simp only [castV, Except.ok.injEq] at h; subst h
    cases p with
    | nil => simp [PyVal.get]; exact .cls c
    | cons => simp [PyVal.get]
  | .other, y, h, p => by simp [castV] at h
  | .tuple xs, y, h, p => by
    rw [castV] at h
    split at h
    · cases h
    · rename_i ys hys
      simp only [Except.ok.injEq] at h; subst h
      cases p with
      | nil =>
        refine ⟨fun u hu => ⟨_, rfl, ?_⟩, by simp [PyVal.get]⟩
        simp only [PyVal.get, Option.some.injEq] at hu; subst hu
        exact .tuple _ _ (castL_get hys 0 []).1
      | cons s p =>
        cases s with
        | key i k => simp [PyVal.get]
        | idx i => simp only [PyVal.get]; exact (castL_get hys i p).2
  | .list xs, y, h, p => by
    rw [castV] at h
    split at h
    · cases h
    · rename_i ys hys
      simp only [Except.ok.injEq] at h; subst h
      cases p with
      | nil =>
        refine ⟨fun u hu => ⟨_, rfl, ?_⟩, by simp [PyVal.get]⟩
        simp only [PyVal.get, Option.some.injEq] at hu; subst hu
        exact .list _ _ (castL_get hys 0 []).1
      | cons s p =>
        cases s with
        | key i k => simp [PyVal.get]
        | idx i => simp only [PyVal.get]; exact (castL_get hys i p).2
  | .dict kvs, y, h, p => by
    rw [castV] at h
    split at h
    · cases h
    · rename_i ys hys
      simp only [Except.ok.injEq] at h; subst h
      cases p with
      | nil =>
        refine ⟨fun u hu => ⟨_, rfl, ?_⟩, by simp [PyVal.get]⟩
        simp only [PyVal.get, Option.some.injEq] at hu; subst hu
        exact .dict _ _ (castKV_get hys 0 [] []).1
      | cons s p =>
        cases s with
        | idx i => simp [PyVal.get]
        | key i k => simp only [PyVal.get]; exact (castKV_get hys i k p).2
theorem castL_get : ∀ {xs ys : List PyVal}, castL xs = .ok ys → ∀ (i : Nat) (p : List PyVal.Step), xs.length = ys.length ∧
    (∀ u, (xs[i]?.bind fun z : PyVal => z.get p) = some u →
      ∃ w, (ys[i]?.bind fun z : PyVal => z.get p) = some w ∧ Became u w) ∧
    ((xs[i]?.bind fun z : PyVal => z.get p) = Option.none →
      (ys[i]?.bind fun z : PyVal => z.get p) = Option.none)
  | [], ys, h, i, p => by simp only [castL, Except.ok.injEq] at h; subst h; simp
  | x :: xs, ys, h, i, p => by
    rw [castL] at h
    split at h
    · cases h
    · rename_i y hy
      split at h
      · cases h
      · rename_i ys' hys
        simp only [Except.ok.injEq] at h; subst h
        cases i with
        | zero =>
          have := castL_get hys 0 []
          simp only [List.getElem?_cons_zero, Option.bind_some, List.length_cons, this.1, true_and]
          exact castV_get hy p
        | succ i =>
          have := castL_get hys i p
          simp only [List.getElem?_cons_succ, List.length_cons, this.1, true_and]
          exact this.2
theorem castKV_get : ∀ {xs ys : List (Str × PyVal)}, castKV xs = .ok ys → ∀ (i : Nat) (k : Str) (p : List PyVal.Step), xs.map Prod.fst = ys.map Prod.fst ∧
    (∀ u, (xs[i]?.bind fun e : Str × PyVal => if k = e.1 then e.2.get p else Option.none) = some u →
      ∃ w, (ys[i]?.bind fun e : Str × PyVal => if k = e.1 then e.2.get p else Option.none) = some w ∧
        Became u w) ∧
    ((xs[i]?.bind fun e : Str × PyVal => if k = e.1 then e.2.get p else Option.none) = Option.none →
      (ys[i]?.bind fun e : Str × PyVal => if k = e.1 then e.2.get p else Option.none) = Option.none)
  | [], ys, h, i, k, p => by simp only [castKV, Except.ok.injEq] at h; subst h; simp
  | (k', x) :: xs, ys, h, i, k, p => by
    rw [castKV] at h
    split at h
    · cases h
    · rename_i y hy
      split at h
      · cases h
      · rename_i ys' hys
        simp only [Except.ok.injEq] at h; subst h
        cases i with
        | zero =>
          have := castKV_get hys 0 [] []
          simp only [List.getElem?_cons_zero, Option.bind_some, List.map_cons, this.1, true_and]
          by_cases hk : k = k'
          · simp only [hk, if_true]; exact castV_get hy p
          · simp [hk]
        | succ i =>
          have := castKV_get hys i k p
          simp only [List.getElem?_cons_succ, List.map_cons, this.1, true_and]
          exact this.2
end

/-- **C74** Casting changes, at every place of a nested container, numbers to expressions and nothing else, and makes no new
places: keys, order and lengths stay. -/
theorem cast_pointwise {x y : PyVal} (h : castV x = .ok y) (p : List PyVal.Step) :
    (∀ u, x.get p = some u → ∃ w, y.get p = some w ∧ PyVal.Became u w) ∧ (x.get p = none → y.get p = none) :=
  castV_get h p

mutual
theorem castV_fails : ∀ {x : PyVal} {e : Err}, castV x = .error e → e = .notImplemented ∧ ∃ p, x.get p = some .other
  | .none, _, h | .bool _, _, h | .num _, _, h | .expr _, _, h | .cls _, _, h => by simp [castV] at h
  | .other, _, h => by simp only [castV, Except.error.injEq] at h; exact ⟨h.symm, [], rfl⟩
  | .tuple xs, _, h => by
    rw [castV] at h
    split at h
    · rename_i e he
      simp only [Except.error.injEq] at h; subst h
      obtain ⟨h1, i, p, h2⟩ := castL_fails he
      exact ⟨h1, .idx i :: p, by simpa only [PyVal.get] using h2⟩
    · cases h
  | .list xs, _, h => by
    rw [castV] at h
    split at h
    · rename_i e he
      simp only [Except.error.injEq] at h; subst h
      obtain ⟨h1, i, p, h2⟩ := castL_fails he
      exact ⟨h1, .idx i :: p, by simpa only [PyVal.get] using h2⟩
    · cases h
  | .dict xs, _, h => by
    rw [castV] at h
    split at h
    · rename_i e he
      simp only [Except.error.injEq] at h; subst h
      obtain ⟨h1, i, k, p, h2⟩ := castKV_fails he
      exact ⟨h1, .key i k :: p, by simpa only [PyVal.get] using h2⟩
    · cases h
theorem castL_fails : ∀ {xs : List PyVal} {e : Err}, castL xs = .error e → e = .notImplemented ∧
    ∃ (i : Nat) (p : List PyVal.Step), (xs[i]?.bind fun z : PyVal => z.get p) = some .other
  | [], _, h => by simp [castL] at h
  | x :: xs, _, h => by
    rw [castL] at h
    split at h
    · rename_i e he
      simp only [Except.error.injEq] at h; subst h
      obtain ⟨h1, p, h2⟩ := castV_fails he
      exact ⟨h1, 0, p, by simpa using h2⟩
    · split at h
      · rename_i e he
        simp only [Except.error.injEq] at h; subst h
        obtain ⟨h1, i, p, h2⟩ := castL_fails he
        exact ⟨h1, i + 1, p, by simpa using h2⟩
      · cases h
theorem castKV_fails : ∀ {xs : List (Str × PyVal)} {e : Err}, castKV xs = .error e → e = .notImplemented ∧
    ∃ (i : Nat) (k : Str) (p : List PyVal.Step), (xs[i]?.bind fun e : Str × PyVal => if k = e.1 then e.2.get p else Option.none) =
      some .other
  | [], _, h => by simp [castKV] at h
  | (k, x) :: xs, _, h => by
    rw [castKV] at h
    split at h
    · rename_i e he
      simp only [Except.error.injEq] at h; subst h
      obtain ⟨h1, p, h2⟩ := castV_fails he
      exact ⟨h1, 0, k, p, by simpa using h2⟩
    · split at h
      · rename_i e he
        simp only [Except.error.injEq] at h; subst h
        obtain ⟨h1, i, k, p, h2⟩ := castKV_fails he
        exact ⟨h1, i + 1, k, p, by simpa using h2⟩
      · cases h
end

/-- **C74** Casting raises exactly if there is something foreign at some place, and then `NotImplementedError`. -/
theorem cast_fails_iff (x : PyVal) : castV x = .error .notImplemented ↔ ∃ p, x.get p = some .other := by
  constructor
  · exact fun h => (castV_fails h).2
  · rintro ⟨p, hp⟩
    cases h : castV x with
    | error e => rw [(castV_fails h).1]
    | ok y =>
      obtain ⟨w, -, hw⟩ := (cast_pointwise h p).1 _ hp
      cases hw

theorem cast_raises_only {x : PyVal} {e : Err} (h : castV x = .error e) : e = .notImplemented := (castV_fails h).1

mutual
theorem castV_idem : ∀ {x y : PyVal}, castV x = .ok y → castV y = .ok y
  | .none, _, h | .bool _, _, h | .num _, _, h | .expr _, _, h | .cls _, _, h => by
    simp only [castV, Except.ok.injEq] at h; subst h; rfl
  | .other, _, h => by simp [castV] at h
  | .tuple xs, _, h => by
    rw [castV] at h
    split at h
    · cases h
    · rename_i ys hys
      simp only [Except.ok.injEq] at h; subst h
      simp [castV, castL_idem hys]
  | .list xs, _, h => by
    rw [castV] at h
    split at h
    · cases h
    · rename_i ys hys
      simp only [Except.ok.injEq] at h; subst h
      simp [castV, castL_idem hys]
  | .dict xs, _, h => by
    rw [castV] at h
    split at h
    · cases h
    · rename_i ys hys
      simp only [Except.ok.injEq] at h; subst h
      simp [castV, castKV_idem hys]
theorem castL_idem : ∀ {xs ys : List PyVal}, castL xs = .ok ys → castL ys = .ok ys
  | [], ys, h => by simp only [castL, Except.ok.injEq] at h; subst h; rfl
  | x :: xs, ys, h => by
    rw [castL] at h
    split at h
    · cases h
    · rename_i y hy
      split at h
      · cases h
      · rename_i ys' hys
        simp only [Except.ok.injEq] at h; subst h
        simp [castL, castV_idem hy, castL_idem hys]
theorem castKV_idem : ∀ {xs ys : List (Str × PyVal)}, castKV xs = .ok ys → castKV ys = .ok ys
  | [], ys, h => by simp only [castKV, Except.ok.injEq] at h; subst h; rfl
  | (k, x) :: xs, ys, h => by
    rw [castKV] at h
    split at h
    · cases h
    · rename_i y hy
      split at h
      · cases h
      · rename_i ys' hys
        simp only [Except.ok.injEq] at h; subst h
        simp [castKV, castV_idem hy, castKV_idem hys]
end

/-- **C74** Casting again changes nothing. (Every method casts, and passes cast values on to methods that cast.) -/
theorem cast_idempotent {x y : PyVal} (h : castV x = .ok y) : castV y = .ok y := castV_idem h

/-- Nested containers, a number inside, and a class. -/
example : castV (.dict [(['x'], .list [.num (.frac 2), .bool true]), (['y'], .tuple [.cls ['S'], .none])]) =
    .ok (.dict [(['x'], .list [.expr (rat 2), .bool true]), (['y'], .tuple [.cls ['S'], .none])]) := rfl
example : PyVal.get (.dict [(['x'], .list [.num (.frac 2), .other])]) [.key 0 ['x'], .idx 1] = some .other := rfl

/-- `True` is an `int` for Python, but it is not cast to `1`. -/
theorem bools_are_not_cast (b : Bool) : castV (.bool b) = .ok (.bool b) := rfl

/-! ## Mixed arithmetic -/

variable {O : Oracle} {C : Ctors}

theorem cast_operand (a : Operand) : castV a.toVal = .ok (.expr a.cast) := by cases a <;> rfl

theorem rMul_eq (a b : Expr) : rMul C b a = opMul C a b := by
  unfold rMul opMul
  split <;> split <;> simp_all

/-- The reflected methods compute the forward operation with the operands the other way round. -/
theorem reflected_eq_forward (op : BinOp) (a b : Expr) : reflected O C op b a = forward O C op a b := by
  cases op <;> simp only [reflected, forward]
  · unfold rAdd opAdd; split <;> split <;> simp_all
  · unfold rSub opSub; split <;> split <;> simp_all [rMul_eq]
  · exact rMul_eq a b
  · unfold rDiv opDiv; split <;> split <;> simp_all
  · unfold rPow opPow; split <;> split <;> simp_all

/-- **C74** A number on the left, or on the right, is as good as the expression `Const(number)`: the same result, or the same
exception. -/
theorem mixed_is_const (op : BinOp) (c : PyNum) (e : Expr) :
    binop O C op (.num c) (.expr e) = binop O C op (.expr (const c)) (.expr e) ∧
    binop O C op (.expr e) (.num c) = binop O C op (.expr e) (.expr (const c)) :=
  ⟨reflected_eq_forward op _ _, rfl⟩

theorem operand_wf (hO : O.Exact) {a : Operand} (h : a.Ok O) : WF a.cast := by
  cases a with
  | num c => obtain ⟨q, rfl⟩ := h; simp [Operand.cast, const]
  | expr e => exact Built.wf hO h

theorem operand_val {a : Operand} (h : a.Ok O) (ρ : Str → ℝ) : den ρ a.cast = a.val ρ := by
  cases a with
  | num c => obtain ⟨q, rfl⟩ := h; simp [Operand.cast, const, Operand.val, den]
  | expr e => rfl

theorem operand_dom {a : Operand} (h : a.Ok O) {ρ : Str → ℝ} (hd : a.Defined ρ) : Dom ρ a.cast := by
  cases a with
  | num c => obtain ⟨q, rfl⟩ := h; simp [Operand.cast, const, Dom]
  | expr e => exact hd

/-- **C74** `a op b`, of which one may be a rational Python number, has the value of the operation wherever that is defined
(on the principal domain, see C02, C03 for what is missing there). -/
theorem mixed_value_partial (hO : O.Exact) (n : Nat) (op : BinOp) {a b : Operand} (ha : a.Ok O) (hb : b.Ok O) {r : Expr}
    (h : binop O (ctors O n) op a b = .ok r) (ρ : Str → ℝ) (hd : op.Defined ρ a b) :
    den ρ r = op.real (a.val ρ) (b.val ρ) ∧ Dom ρ r := by
  have h : forward O (ctors O n) op a.cast b.cast = .ok r := by
    cases a with
    | expr e => exact h
    | num c =>
      cases b with
      | num c => cases h
      | expr e => rw [← reflected_eq_forward]; exact h
  have wa := operand_wf hO ha
  have wb := operand_wf hO hb
  have hC := ctors_sound hO n
  rw [← operand_val ha, ← operand_val hb]
  cases op with
  | add => exact opAdd_V hC wa wb (operand_dom ha hd.1) (operand_dom hb hd.2) h
  | sub => exact opSub_V hC wa wb (operand_dom ha hd.1) (operand_dom hb hd.2) h
  | mul => exact opMul_V hC wa wb (operand_dom ha hd.1) (operand_dom hb hd.2) h
  | div => exact opDiv_V hC wa wb (operand_dom ha hd.1) (operand_dom hb hd.2.1) (by rw [operand_val hb]; exact hd.2.2) h
  | pow => exact opPow_V hC wa wb hd h

section
private abbrev x : Expr := sym ['x']

/-- `3 - x` and `x - 3`, at 5. -/
example : ∃ r, binop exactOracle (ctors exactOracle 10) .sub (.num (.frac 3)) (.expr x) = .ok r ∧
    BinOp.Defined (fun _ => 5) .sub (.num (.frac 3)) (.expr x) ∧ den (fun _ => 5) r = -2 := by
  refine ⟨sum [prod [rat (-1), x], rat 3], by set_option maxRecDepth 10000 in decide +kernel, ?_, ?_⟩
  · simp [BinOp.Defined, Operand.Defined, Dom, DomS]
  · simp [den, denS, denP]; norm_num

/-- `2 ** x` and `1 / x`: the reflected methods of an expression. -/
example : binop exactOracle (ctors exactOracle 10) .pow (.num (.frac 2)) (.expr x) = .ok (pow (rat 2) x) ∧
    binop exactOracle (ctors exactOracle 10) .div (.num (.frac 1)) (.expr x) = .ok (pow x (rat (-1))) := by
  set_option maxRecDepth 10000 in decide +kernel
end

end Simpy
