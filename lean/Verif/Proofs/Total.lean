import Verif.Spec.Polynomial
import Verif.Proofs.Mono
import Verif.Proofs.Sort
import Verif.Proofs.Basic
import Verif.Props.Rationals

/-! # Lemmas: the constructors return on polynomials -/

namespace Simpy
open Expr

/-- It returns. -/
def Ok {α : Type} (x : R α) : Prop := ∃ a, x = .ok a

theorem Ok.bind {α β : Type} {x : R α} {f : α → R β} (h : Ok x) (k : ∀ a, x = .ok a → Ok (f a)) : Ok (x >>= f) := by
  obtain ⟨a, ha⟩ := h
  obtain ⟨b, hb⟩ := k a ha
  exact ⟨b, bind_ok.2 ⟨a, ha, hb⟩⟩

theorem Ok.pure {α : Type} (a : α) : Ok (Pure.pure a : R α) := ⟨a, rfl⟩
theorem Ok.ok {α : Type} (a : α) : Ok (.ok a : R α) := ⟨a, rfl⟩
theorem Ok.ite {α : Type} {c : Prop} [Decidable c] {x y : R α} (h : Ok x) (k : Ok y) : Ok (if c then x else y) := by
  split <;> assumption

theorem RLe.total {α : Type} {x y : R α} (h : RLe x y) (k : Ok x) : Ok y := by
  obtain ⟨a, ha⟩ := k
  exact ⟨a, h a ha⟩

/-! ## Sorting -/

section sort
variable {α : Type} {lt : α → α → R Bool}

theorem runTail_total {l : List α} (desc : Bool) : ∀ {prev : α} {r : List α}, prev ∈ l → (∀ x ∈ r, x ∈ l) →
    (∀ a ∈ l, ∀ b ∈ l, Ok (lt a b)) → Ok (runTail lt desc prev r)
  | prev, [], _, _, _ => ⟨_, rfl⟩
  | prev, x :: r, hp, hr, h => by
    unfold runTail
    refine Ok.bind (h x (hr x (by simp)) prev hp) fun b _ => ?_
    split
    · refine Ok.bind (runTail_total desc (hr x (by simp)) (fun y hy => hr y (by simp [hy])) h) fun p _ => ⟨_, rfl⟩
    · exact ⟨_, rfl⟩

theorem countRun_total {l : List α} (h : ∀ a ∈ l, ∀ b ∈ l, Ok (lt a b)) : Ok (countRun lt l) := by
  match l, h with
  | [], _ => exact ⟨_, rfl⟩
  | [x], _ => exact ⟨_, rfl⟩
  | x :: y :: r, h =>
    unfold countRun
    refine Ok.bind (h y (by simp) x (by simp)) fun d _ => ?_
    refine Ok.bind (runTail_total d (l := x :: y :: r) (by simp) (fun z hz => by simp [hz]) h) fun p _ => ?_
    dsimp only
    exact Ok.ite ⟨_, rfl⟩ ⟨_, rfl⟩

theorem bsearch_total {p : α} {a : List α} (h : ∀ b ∈ a, Ok (lt p b)) : ∀ (n l r : Nat), r ≤ a.length → Ok (bsearch lt p a n l r)
  | 0, l, r, _ => ⟨_, rfl⟩
  | n + 1, l, r, hr => by
    unfold bsearch
    split
    · rename_i hlr
      dsimp only
      have hm : l + (r - l) / 2 < a.length := by omega
      rw [List.getElem?_eq_getElem hm]
      refine Ok.bind (h _ (List.getElem_mem hm)) fun b _ => ?_
      split
      · exact bsearch_total h n _ _ (by omega)
      · exact bsearch_total h n _ _ hr
    · exact ⟨_, rfl⟩

theorem binarySort_total {l : List α} (h : ∀ a ∈ l, ∀ b ∈ l, Ok (lt a b)) : ∀ (r pre : List α), (∀ x ∈ pre, x ∈ l) →
    (∀ x ∈ r, x ∈ l) → Ok (binarySort lt pre r)
  | [], pre, _, _ => ⟨_, rfl⟩
  | p :: r, pre, hp, hr => by
    unfold binarySort
    refine Ok.bind (bsearch_total (fun b hb => h p (hr p (by simp)) b (hp b hb)) _ _ _ le_rfl) fun i _ => ?_
    refine binarySort_total h r _ (fun x hx => ?_) (fun x hx => hr x (by simp [hx]))
    rcases List.mem_append.1 hx with hx | hx
    · exact hp x (List.mem_of_mem_take hx)
    · rcases List.mem_cons.1 hx with rfl | hx
      · exact hr _ (by simp)
      · exact hp x (List.mem_of_mem_drop hx)

theorem runTail_mem {l : List α} (desc : Bool) : ∀ {prev : α} {r : List α} {p : List α × List α}, (∀ x ∈ r, x ∈ l) →
    runTail lt desc prev r = .ok p → (∀ x ∈ p.1, x ∈ l) ∧ ∀ x ∈ p.2, x ∈ l
  | prev, [], p, hr, h => by cases h; simp
  | prev, x :: r, p, hr, h => by
    unfold runTail at h
    obtain ⟨b, _, h⟩ := bind_ok.1 h
    split at h
    · obtain ⟨q, hq, h⟩ := bind_ok.1 h
      cases h
      have := runTail_mem desc (fun y hy => hr y (by simp [hy])) hq
      refine ⟨fun y hy => ?_, this.2⟩
      rcases List.mem_cons.1 hy with rfl | hy
      · exact hr _ (by simp)
      · exact this.1 y hy
    · cases h
      exact ⟨by simp, hr⟩

theorem pySorted_total {l : List α} (h : ∀ a ∈ l, ∀ b ∈ l, Ok (lt a b)) : Ok (pySorted lt l) := by
  unfold pySorted
  refine Ok.bind (countRun_total h) fun p hp => ?_
  have hm : (∀ x ∈ p.1, x ∈ l) ∧ ∀ x ∈ p.2, x ∈ l := by
    match l, h, hp with
    | [], _, hp => cases hp; simp
    | [x], _, hp => cases hp; simp
    | x :: y :: r, h, hp =>
      unfold countRun at hp
      obtain ⟨d, _, hp⟩ := bind_ok.1 hp
      obtain ⟨q, hq, hp⟩ := bind_ok.1 hp
      have := runTail_mem d (l := x :: y :: r) (fun z hz => by simp [hz]) hq
      dsimp only at hp
      split at hp <;> cases hp
      · refine ⟨fun z hz => ?_, this.2⟩
        simp only [List.mem_reverse, List.mem_cons] at hz
        rcases hz with rfl | rfl | hz
        · simp
        · simp
        · exact this.1 z hz
      · refine ⟨fun z hz => ?_, this.2⟩
        simp only [List.mem_cons] at hz
        rcases hz with rfl | rfl | hz
        · simp
        · simp
        · exact this.1 z hz
  exact binarySort_total h p.2 p.1 hm.1 hm.2

end sort

/-! ## Monomials -/

variable {O : Oracle} {C : Ctors} {v : Str} {u t e : Expr}

theorem VarPower.nwf (h : VarPower v u) : ∃ k, nwf u = .ok (k + 1) := by
  cases h with
  | var => exact ⟨0, rfl⟩
  | power k hk => exact ⟨1, by simp [Simpy.nwf, varies, syms]; rfl⟩

theorem VarPower.varies (h : VarPower v u) : varies u = true := by
  cases h <;> simp [Expr.varies, syms]

theorem VarPower.isProd (h : VarPower v u) : u.isProd = false := by cases h <;> rfl
theorem VarPower.isSum (h : VarPower v u) : u.isSum = false := by cases h <;> rfl
theorem VarPower.isAcc (h : VarPower v u) : u.isAcc = false := by cases h <;> rfl
theorem VarPower.flatP (h : VarPower v u) : flatP u = [u] := by cases h <;> rfl
theorem VarPower.flatS (h : VarPower v u) : flatS u = [u] := by cases h <;> rfl
theorem VarPower.base (h : VarPower v u) : (deconPow u).1 = sym v := by cases h <;> rfl

theorem cmp_rat_unit (h : VarPower v u) (a : ℚ) : cmpLt C (rat a) u = .ok true := by
  obtain ⟨k, hk⟩ := h.nwf
  unfold cmpLt
  rw [hk]
  simp [Simpy.nwf, bind, Except.bind, pure, Except.pure]

theorem cmp_unit_rat (h : VarPower v u) (a : ℚ) : cmpLt C u (rat a) = .ok false := by
  obtain ⟨k, hk⟩ := h.nwf
  unfold cmpLt
  rw [hk]
  simp [Simpy.nwf, bind, Except.bind, pure, Except.pure]

theorem sort_unit_rat (h : VarPower v u) (a : ℚ) : sortTerms C [u, rat a] = .ok [rat a, u] := by
  simp [sortTerms, pySorted, countRun, cmp_rat_unit h, runTail, binarySort, bind, Except.bind, pure, Except.pure]

/-- `a * u`, as the constructor writes it. -/
def scale (a : ℚ) (u : Expr) : Expr := if a = 0 then rat 0 else if a = 1 then u else prod [rat a, u]

theorem scale_mono (h : VarPower v u) (a : ℚ) : Monomial v (scale a u) := by
  unfold scale
  split
  · exact .const 0
  · split
    · exact .unit h
    · exact .scaled a h

theorem prodCtor_of (h : VarPower v u) {ts : List Expr} {a : ℚ} {cs : List ℚ} (hcs : cs ≠ [])
    (hl : combineProdLoop O C (flatPL ts).length (flatPL ts) = .ok ([u], cs.map rat)) (ha : cs.prod = a) :
    prodCtor O C ts = .ok (scale a u) := by
  have hacc : accumulateProd O (cs.map rat) = .ok (rat a) := by
    have fold : ∀ (l : List ℚ) (x : ℚ), foldNum (numMul O) (.frac x) ((l.map rat).map value) = .ok (.frac (x * l.prod)) := by
      intro l
      induction l with
      | nil => intro x; simp [foldNum]
      | cons y r ih => intro x; simp only [List.map_cons, value, foldNum, numMul]; rw [ih]; simp [mul_assoc]
    match cs, hcs, ha with
    | [c], _, ha => simp at ha; simp [accumulateProd, ha]
    | c :: d :: r, _, ha =>
      simp only [accumulateProd, List.map_cons]
      have := fold (c :: d :: r) 1
      simp only [List.map_cons] at this
      rw [this]
      simp only [one_mul, ha, const]
  have hne : (cs.map rat).isEmpty = false := by cases cs <;> simp_all
  have hcomb : combineProd O C (flatPL ts) = .ok (if a = 0 then [rat 0] else if a = 1 then [u] else [u, rat a]) := by
    unfold combineProd
    rw [hl]
    simp only [bind, Except.bind, hne, hacc, beq, pure, Except.pure, Bool.false_eq_true, if_false]
    by_cases h0 : a = 0
    · simp [h0]
    · by_cases h1 : a = 1
      · simp [h1]
      · simp [h0, h1]
  unfold prodCtor
  rw [hcomb]
  by_cases h0 : a = 0
  · simp [h0, scale, bind, Except.bind, pure, Except.pure]
  · by_cases h1 : a = 1
    · simp [h1, scale, bind, Except.bind, pure, Except.pure]
    · simp only [h0, h1, if_false, bind, Except.bind, sort_unit_rat h, scale, pure, Except.pure]
      cases h <;> rfl

theorem beq_base_rat (a : ℚ) : beq O (sym v) (rat a) = false := rfl
theorem beq_rat_base (a : ℚ) : beq O (rat a) (sym v) = false := rfl

theorem prod_rat_unit (h : VarPower v u) (a : ℚ) : prodCtor O C [rat a, u] = .ok (scale a u) := by
  refine prodCtor_of h (cs := [a]) (by simp) ?_ (by simp)
  cases h <;> simp [flatPL, flatP, combineProdLoop, deconPow, beq, List.filter_cons, Expr.isAcc, bind, Except.bind, pure, Except.pure]

/-- Squares of numbers. -/
def Squares (C : Ctors) : Prop := ∀ a : ℚ, C.pow (rat a) (rat 2) = .ok (rat (a ^ 2))

theorem squares_ctors (n : Nat) : Squares (ctors O (n + 1)) := fun a => by
  have := rational_power_exact O n a 2 (.inr (by norm_num))
  simpa using this

theorem prod_rat_prod (hC : Squares C) (h : VarPower v u) (c a : ℚ) : prodCtor O C [rat c, prod [rat a, u]] = .ok (scale (c * a) u) := by
  by_cases e : a = c
  · subst e
    refine prodCtor_of h (cs := [a ^ 2]) (by simp) ?_ (by simp [sq])
    have := hC a
    cases h <;> simp [flatPL, flatP, combineProdLoop, deconPow, beq, List.filter_cons, Expr.isAcc, bind, Except.bind, pure, Except.pure, foldAdd, opAdd,
      likeFactor, this, show ((1 : ℚ) + 1) = 2 by norm_num]
  · refine prodCtor_of h (cs := [c, a]) (by simp) ?_ (by simp)
    cases h <;> simp [flatPL, flatP, combineProdLoop, deconPow, beq, List.filter_cons, Expr.isAcc, bind, Except.bind, pure, Except.pure, e]

theorem prod_prod_neg (hC : Squares C) (h : VarPower v u) (a : ℚ) : prodCtor O C [prod [rat a, u], rat (-1)] = .ok (scale (-a) u) := by
  by_cases e : -1 = a
  · subst e
    refine prodCtor_of h (cs := [(-1) ^ 2]) (by simp) ?_ (by simp)
    have := hC (-1)
    cases h <;> simp [flatPL, flatP, combineProdLoop, deconPow, beq, List.filter_cons, Expr.isAcc, bind, Except.bind, pure, Except.pure, foldAdd, opAdd,
      likeFactor, this, show ((1 : ℚ) + 1) = 2 by norm_num] <;> simpa using this
  · refine prodCtor_of h (cs := [a, -1]) (by simp) ?_ (by simp)
    cases h <;> simp [flatPL, flatP, combineProdLoop, deconPow, beq, List.filter_cons, Expr.isAcc, bind, Except.bind, pure, Except.pure, e]

/-! ## repr -/

theorem repr_rat (n : Nat) (a : ℚ) : (ctors O (n + 1)).repr (rat a) = .ok (ratStr a) := rfl
theorem repr_sym (n : Nat) : (ctors O (n + 1)).repr (sym v) = .ok v := rfl

theorem repr_unit (h : VarPower v u) (n : Nat) : Ok ((ctors O (n + 2)).repr u) := by
  cases h with
  | var => exact ⟨_, rfl⟩
  | power k hk =>
    have h1 : ¬ ((k : ℚ) = -1) := by
      have : (0 : ℚ) ≤ k := by positivity
      linarith
    have h2 : ¬ ((k : ℚ) < 0) := by
      have : (0 : ℚ) ≤ k := by positivity
      linarith
    have h3 : ¬ ((k : ℚ) = 1 / 2) := by
      have : (2 : ℚ) ≤ k := by exact_mod_cast hk
      linarith
    show Ok (powRepr O (ctors O (n + 1)) (sym v) (rat k))
    unfold powRepr
    simp only [beq, beq_iff_eq, h1, h2, h3, if_false, negNum, decide_false, Bool.and_false, Bool.false_eq_true]
    refine Ok.bind ?_ fun s _ => Ok.bind ?_ fun t _ => ⟨_, rfl⟩
    · exact Ok.bind ⟨_, repr_sym n⟩ fun s _ => ⟨_, rfl⟩
    · exact Ok.bind ⟨_, repr_rat n _⟩ fun s _ => ⟨_, rfl⟩

/-- Numerator and denominator of `a * u`. -/
theorem numDen_unit (h : VarPower v u) (a : ℚ) : ∃ p q : Expr, numDen O C [rat a, u] = .ok (p, q) ∧
    (p = u ∨ p = prod [rat a.num, u]) ∧ (a.den = 1 ∧ q = rat 1 ∨ q = rat a.den) := by
  have hneg : negNum (deconPow u).2 = false := by
    cases h with
    | var => rfl
    | power k hk => simp [deconPow, negNum]
  have ht : numDenTerm O C u = .ok ([u], []) := by
    cases h with
    | var => rfl
    | power k hk => simp [numDenTerm, deconPow, negNum]
  have hr : numDenTerm O C (rat a) = .ok (if a.num ≠ 1 then [rat a.num] else [], if a.den ≠ 1 then [rat a.den] else []) := rfl
  have hp := h.isProd
  have hmk : mkProdSkip [u] = .ok u := by simp [mkProdSkip, hp]
  unfold numDen
  simp only [numDenLoop, ht, hr, bind, Except.bind, pure, Except.pure, List.append_nil]
  by_cases h1 : a.num = 1 <;> by_cases h2 : a.den = 1
  · exact ⟨u, rat 1, by simp [h1, h2, hmk]; rfl, .inl rfl, .inl ⟨h2, rfl⟩⟩
  · exact ⟨u, rat a.den, by simp [h1, h2, hmk]; rfl, .inl rfl, .inr rfl⟩
  · exact ⟨prod [rat a.num, u], rat 1, by simp [h1, h2, mkProdSkip], .inr rfl, .inl ⟨h2, rfl⟩⟩
  · exact ⟨prod [rat a.num, u], rat a.den, by simp [h1, h2, mkProdSkip, Expr.isProd], .inr rfl, .inr rfl⟩

theorem prodTerm_unit (h : VarPower v u) (m : Nat) : Ok (prodTermRepr (ctors O (m + 2)) u) := by
  unfold prodTermRepr
  exact Ok.bind (repr_unit h m) fun s _ => ⟨_, rfl⟩

theorem prodTerm_rat (m : Nat) (q : ℚ) : Ok (prodTermRepr (ctors O (m + 2)) (rat q)) := by
  unfold prodTermRepr
  exact Ok.bind ⟨_, repr_rat (m + 1) q⟩ fun s _ => ⟨_, rfl⟩

theorem mapR_unit (h : VarPower v u) (m : Nat) (a : ℚ) : Ok (mapR (prodTermRepr (ctors O (m + 2))) [rat a, u]) := by
  obtain ⟨s1, e1⟩ := prodTerm_rat (O := O) m a
  obtain ⟨s2, e2⟩ := prodTerm_unit (O := O) h m
  exact ⟨[s1, s2], by simp [mapR, e1, e2, bind, Except.bind, pure, Except.pure]⟩

theorem repr_pos_int (h : VarPower v u) {a : ℚ} (ha : ¬ a < 0) (hd : a.den = 1) (n : Nat) : Ok ((ctors O (n + 3)).repr (prod [rat a, u])) := by
  show Ok (prodRepr O (ctors O (n + 2)) [rat a, u])
  have hsub : (prod [rat a, u]).isSubtraction = false := by simpa [isSubtraction] using ha
  unfold prodRepr
  rw [hsub]
  simp only [Bool.false_eq_true, if_false]
  obtain ⟨p, q, hpq, hp, hq⟩ := numDen_unit (O := O) (C := ctors O (n + 2)) h a
  have hq : q = rat 1 := by
    rcases hq with ⟨_, hq⟩ | hq
    · exact hq
    · rw [hq, hd]; rfl
  refine Ok.bind ⟨_, hpq⟩ fun w hw => ?_
  rw [hpq] at hw
  cases hw
  subst hq
  simp only [beq, beq_self_eq_true, Bool.not_true, Bool.false_eq_true, if_false]
  exact Ok.bind (mapR_unit h n a) fun _ _ => ⟨_, rfl⟩

theorem repr_pos (h : VarPower v u) {a : ℚ} (ha : ¬ a < 0) (n : Nat) : Ok ((ctors O (n + 4)).repr (prod [rat a, u])) := by
  show Ok (prodRepr O (ctors O (n + 3)) [rat a, u])
  have hsub : (prod [rat a, u]).isSubtraction = false := by simpa [isSubtraction] using ha
  unfold prodRepr
  rw [hsub]
  simp only [Bool.false_eq_true, if_false]
  obtain ⟨p, q, hpq, hp, hq⟩ := numDen_unit (O := O) (C := ctors O (n + 3)) h a
  refine Ok.bind ⟨_, hpq⟩ fun w hw => ?_
  rw [hpq] at hw
  cases hw
  dsimp only
  refine Ok.ite ?_ ?_
  · have hqp : q.isProd = false := by rcases hq with ⟨_, rfl⟩ | rfl <;> rfl
    have hqo : Ok (prodTermRepr (ctors O (n + 3)) q) := by
      rcases hq with ⟨_, rfl⟩ | rfl
      · exact prodTerm_rat (n + 1) 1
      · exact prodTerm_rat (n + 1) _
    simp only [hqp, Bool.false_eq_true, if_false]
    rcases hp with rfl | rfl
    · rw [h.isProd]
      simp only [Bool.false_eq_true, if_false]
      exact Ok.bind (prodTerm_unit h (n + 1)) fun _ _ => Ok.bind hqo fun _ _ => ⟨_, rfl⟩
    · simp only [Expr.isProd, if_true]
      refine Ok.bind (repr_pos_int h ?_ (by simp) n) fun _ _ => Ok.bind hqo fun _ _ => ⟨_, rfl⟩
      have h0 : 0 ≤ a.num := Rat.num_nonneg.2 (not_lt.1 ha)
      have : (0 : ℚ) ≤ a.num := by exact_mod_cast h0
      linarith
  · exact Ok.bind (mapR_unit h (n + 1) a) fun _ _ => ⟨_, rfl⟩

theorem repr_scaled (h : VarPower v u) (a : ℚ) (n : Nat) : Ok ((ctors O (n + 5)).repr (prod [rat a, u])) := by
  by_cases ha : a < 0
  · show Ok (prodRepr O (ctors O (n + 4)) [rat a, u])
    have hsub : (prod [rat a, u]).isSubtraction = true := by simpa [isSubtraction] using ha
    unfold prodRepr
    rw [hsub]
    simp only [if_true]
    have hnp : (ctors O (n + 4)).prod [prod [rat a, u], rat (-1)] = .ok (scale (-a) u) := prod_prod_neg (squares_ctors (n + 2)) h a
    refine Ok.bind ⟨_, hnp⟩ fun w hw => ?_
    rw [hnp] at hw
    cases hw
    have h0 : ¬ (-a = 0) := by intro h0; have : a = 0 := by linarith
                               rw [this] at ha; exact lt_irrefl _ ha
    by_cases h1 : -a = 1
    · simp only [scale, h0, h1, if_false, if_true, h.isProd, Bool.not_false, one_ne_zero]
      exact Ok.bind (prodTerm_unit h (n + 2)) fun _ _ => ⟨_, rfl⟩
    · have hs : (prod [rat (-a), u]).isSubtraction = false := by simp [isSubtraction]; linarith
      simp only [scale, h0, h1, if_false, Expr.isProd, Bool.not_true, Bool.false_eq_true, hs]
      exact Ok.bind (repr_pos h (by linarith) n) fun _ _ => ⟨_, rfl⟩
  · exact repr_pos h ha (n + 1)

theorem repr_mono (h : Monomial v t) (n : Nat) : Ok ((ctors O (n + 5)).repr t) := by
  cases h with
  | const c => exact ⟨_, rfl⟩
  | unit h => exact repr_unit h (n + 3)
  | scaled c h => exact repr_scaled h c n

/-! ## Sums -/

theorem Monomial.nwf (h : Monomial v t) : Ok (nwf t) := by
  cases h with
  | const c => exact ⟨_, rfl⟩
  | unit h => obtain ⟨k, hk⟩ := h.nwf; exact ⟨_, hk⟩
  | scaled c h =>
    obtain ⟨k, hk⟩ := h.nwf
    have hv := h.varies
    have hr : Expr.varies (rat c) = false := rfl
    refine ⟨k + 1, ?_⟩
    simp [Simpy.nwf, List.filter, hv, hr, h.isProd, nwfKeep, hk, bind, Except.bind, pure, Except.pure]

theorem Monomial.constPower (h : Monomial v t) : Ok (constPower t) := by
  have : Ok (removeConstFactor t) := by
    cases h with
    | const c => exact ⟨_, rfl⟩
    | unit h => cases h <;> exact ⟨_, rfl⟩
    | scaled c h =>
      have hr : Expr.varies (rat c) = false := rfl
      exact ⟨_, by simp [removeConstFactor, List.filter, h.varies, hr, mkProdSkip, h.isProd]; rfl⟩
  unfold Simpy.constPower
  refine Ok.bind this fun a _ => ?_
  split <;> exact ⟨_, rfl⟩

theorem cmp_mono (h1 : Monomial v t) (h2 : Monomial v e) (n : Nat) : Ok (cmpLt (ctors O (n + 5)) t e) := by
  unfold cmpLt
  have r1 := repr_mono (O := O) h1 n
  have r2 := repr_mono (O := O) h2 n
  refine Ok.bind h1.nwf fun a _ => Ok.bind h2.nwf fun b _ => ?_
  refine Ok.ite ?_ (Ok.ite ⟨_, rfl⟩ ?_)
  · refine Ok.ite ⟨_, rfl⟩ ?_
    exact Ok.bind r1 fun _ _ => Ok.bind r2 fun _ _ => ⟨_, rfl⟩
  · refine Ok.bind h1.constPower fun _ _ => Ok.bind h2.constPower fun _ _ => Ok.ite ⟨_, rfl⟩ ?_
    exact Ok.bind r1 fun _ _ => Ok.bind r2 fun _ _ => ⟨_, rfl⟩

theorem flatSL_mono : ∀ {ts : List Expr}, (∀ t ∈ ts, Monomial v t) → flatSL ts = ts
  | [], _ => rfl
  | t :: r, h => by
    have ht : flatS t = [t] := by
      cases h t (by simp) with
      | const c => rfl
      | unit h => exact h.flatS
      | scaled c h => rfl
    simp [flatSL, ht, flatSL_mono (ts := r) fun x hx => h x (by simp [hx])]

/-- Coefficients and the rest, for terms that are not numbers. -/
theorem decon_mono (h : Monomial v t) (hn : t.isAcc = false) : ∃ (c : ℚ) (u : Expr), VarPower v u ∧ deconProd t = ([rat c], [u]) := by
  cases h with
  | const c => simp [Expr.isAcc] at hn
  | unit h => exact ⟨1, _, h, by cases h <;> rfl⟩
  | scaled c h =>
    have hr : (rat c).isAcc = true := rfl
    exact ⟨c, _, h, by simp [deconProd, List.filter, hr, h.isAcc]⟩

theorem accumulateSum_rats (cs : List ℚ) : ∃ a, accumulateSum O (cs.map rat) = .ok (rat a) := by
  have fold : ∀ (l : List ℚ) (x : ℚ), foldNum (numAdd O) (.frac x) ((l.map rat).map value) = .ok (.frac (x + l.sum)) := by
    intro l
    induction l with
    | nil => intro x; simp [foldNum]
    | cons y r ih => intro x; simp only [List.map_cons, value, foldNum, numAdd]; rw [ih]; simp [add_assoc]
  match cs with
  | [c] => exact ⟨c, rfl⟩
  | [] => exact ⟨_, rfl⟩
  | c :: d :: r =>
    refine ⟨0 + (c :: d :: r).sum, ?_⟩
    have := fold (c :: d :: r) 0
    simp only [List.map_cons] at this
    simp only [accumulateSum, List.map_cons]
    rw [this]
    rfl

theorem likeTerm_mono (h : VarPower v u) (cs : List ℚ) : ∃ o, likeTerm O (cs.map rat) [u] = .ok o ∧ ∀ t ∈ o, Monomial v t := by
  obtain ⟨a, ha⟩ := accumulateSum_rats (O := O) cs
  have hmk : mkProdSkip [u] = .ok u := by simp [mkProdSkip, h.isProd]
  have hmk2 : mkProdSkip [rat a, u] = .ok (prod [rat a, u]) := rfl
  unfold likeTerm
  rw [ha]
  simp only [bind, Except.bind, beq, beq_iff_eq, hmk, hmk2, pure, Except.pure]
  split
  · exact ⟨_, rfl, by simp⟩
  · split
    · exact ⟨_, rfl, by simpa using Monomial.unit h⟩
    · exact ⟨_, rfl, by simpa using Monomial.scaled a h⟩

theorem combineSumLoop_mono : ∀ (n : Nat) (ts : List Expr), (∀ t ∈ ts, Monomial v t) →
    ∃ (nc : List Expr) (cs : List ℚ), combineSumLoop O n ts = .ok (nc, cs.map rat) ∧ ∀ t ∈ nc, Monomial v t
  | 0, ts, _ => ⟨[], [], rfl, by simp⟩
  | n + 1, [], _ => ⟨[], [], rfl, by simp⟩
  | n + 1, t :: r, h => by
    have ht := h t (by simp)
    have hr : ∀ x ∈ r, Monomial v x := fun x hx => h x (by simp [hx])
    unfold combineSumLoop
    by_cases ha : t.isAcc = true
    · obtain ⟨nc, cs, e, hm⟩ := combineSumLoop_mono n r hr
      simp only [ha, if_true, e, bind, Except.bind, pure, Except.pure]
      have : ∃ c, t = rat c := by
        cases ht with
        | const c => exact ⟨c, rfl⟩
        | unit h => rw [h.isAcc] at ha; cases ha
        | scaled c h => simp [Expr.isAcc] at ha
      obtain ⟨c, rfl⟩ := this
      exact ⟨nc, c :: cs, rfl, hm⟩
    · have ha' : t.isAcc = false := by simpa using ha
      simp only [ha', Bool.false_eq_true, if_false]
      obtain ⟨c, u, hu, hd⟩ := decon_mono ht ha'
      have hrest : ∀ x ∈ r.filter (fun u => !beqL O (deconProd t).2 (deconProd u).2), Monomial v x :=
        fun x hx => hr x (List.mem_filter.1 hx).1
      obtain ⟨nc, cs, e, hm⟩ := combineSumLoop_mono n _ hrest
      split
      · rw [e]
        exact ⟨t :: nc, cs, rfl, fun x hx => by
          rcases List.mem_cons.1 hx with rfl | hx
          · exact ht
          · exact hm x hx⟩
      · have hcs : ∀ l : List Expr, (∀ x ∈ l, Monomial v x) → (∀ x ∈ l, beqL O (deconProd t).2 (deconProd x).2 = true) →
            ∃ ds : List ℚ, (l.map fun u => (deconProd u).1).flatten = ds.map rat := by
          intro l
          induction l with
          | nil => intro _ _; exact ⟨[], rfl⟩
          | cons x l ih =>
            intro hl hb
            obtain ⟨ds, hds⟩ := ih (fun y hy => hl y (by simp [hy])) (fun y hy => hb y (by simp [hy]))
            have hx : x.isAcc = false := by
              by_contra hx
              have hb := hb x (by simp)
              cases hl x (by simp) with
              | const c =>
                rw [hd] at hb
                cases hu <;> simp [deconProd, beqL, beq] at hb
              | unit h => exact hx h.isAcc
              | scaled c h => exact hx rfl
            obtain ⟨c', u', _, hd'⟩ := decon_mono (hl x (by simp)) hx
            exact ⟨c' :: ds, by simp [hd', hds]⟩
        obtain ⟨ds, hds⟩ := hcs (r.filter (fun u => beqL O (deconProd t).2 (deconProd u).2))
          (fun x hx => hr x (List.mem_filter.1 hx).1) (fun x hx => (List.mem_filter.1 hx).2)
        obtain ⟨o, ho, hom⟩ := likeTerm_mono (O := O) hu (c :: ds)
        have hc : (deconProd t).1 ++ (List.map (fun u => (deconProd u).1)
            (r.filter (fun u => beqL O (deconProd t).2 (deconProd u).2))).flatten = (c :: ds).map rat := by
          rw [hds, hd]; rfl
        rw [hc]
        have hd2 : (deconProd t).2 = [u] := by rw [hd]
        rw [hd2, ho]
        rw [hd2] at e
        simp only [bind, Except.bind, e, pure, Except.pure]
        refine ⟨o.toList ++ nc, cs, rfl, fun x hx => ?_⟩
        rcases List.mem_append.1 hx with hx | hx
        · exact hom x (by simpa using hx)
        · exact hm x hx

theorem flatSL_poly : ∀ {ts : List Expr}, (∀ t ∈ ts, IsPolynomial v t) → ∀ u ∈ flatSL ts, Monomial v u
  | [], _, u, hu => by simp [flatSL] at hu
  | t :: r, h, u, hu => by
    simp only [flatSL, List.mem_append] at hu
    rcases hu with hu | hu
    · rcases h t (by simp) with ht | ⟨ss, rfl, _, hs⟩
      · have : flatS t = [t] := by
          cases ht with
          | const c => rfl
          | unit h => exact h.flatS
          | scaled c h => rfl
        rw [this] at hu
        simp at hu
        exact hu ▸ ht
      · have : flatS (sum ss) = ss := by simp [flatS, flatSL_mono hs]
        rw [this] at hu
        exact hs u hu
    · exact flatSL_poly (fun x hx => h x (by simp [hx])) u hu

/-- `Sum` of polynomials returns a polynomial. -/
theorem sum_poly {ts : List Expr} (h : ∀ t ∈ ts, IsPolynomial v t) (n : Nat) :
    ∃ S, (ctors O (n + 6)).sum ts = .ok S ∧ IsPolynomial v S := by
  show ∃ S, sumCtor O (ctors O (n + 5)) ts = .ok S ∧ _
  obtain ⟨nc, cs, e, hm⟩ := combineSumLoop_mono (O := O) (flatSL ts).length (flatSL ts) (flatSL_poly h)
  have hcomb : ∃ fs, combineSum O (flatSL ts) = .ok fs ∧ ∀ t ∈ fs, Monomial v t := by
    unfold combineSum
    rw [e]
    simp only [bind, Except.bind, pure, Except.pure]
    by_cases hcs : (cs.map rat).isEmpty = true
    · simp only [hcs, if_true]; exact ⟨nc, rfl, hm⟩
    · obtain ⟨a, ha⟩ := accumulateSum_rats (O := O) cs
      simp only [hcs, Bool.false_eq_true, if_false, ha]
      split
      · exact ⟨nc, rfl, hm⟩
      · exact ⟨nc ++ [rat a], rfl, fun x hx => by
          rcases List.mem_append.1 hx with hx | hx
          · exact hm x hx
          · simp at hx; subst hx; exact .const a⟩
  obtain ⟨fs, hfs, hfm⟩ := hcomb
  unfold sumCtor
  rw [hfs]
  simp only [bind, Except.bind, pure, Except.pure]
  match fs, hfm with
  | [], _ => exact ⟨rat 0, rfl, .inl (.const 0)⟩
  | [t], hfm => exact ⟨t, rfl, .inl (hfm t (by simp))⟩
  | a :: b :: r, hfm =>
    obtain ⟨s, hs⟩ := pySorted_total (lt := cmpLt (ctors O (n + 5))) (l := a :: b :: r)
      fun x hx y hy => cmp_mono (hfm x hx) (hfm y hy) n
    have hperm := pySorted_perm hs
    have hs' : sortTerms (ctors O (n + 5)) (a :: b :: r) = .ok s := hs
    simp only [hs']
    refine ⟨sum s.reverse, rfl, .inr ⟨_, rfl, ?_, fun x hx => hfm x (hperm.subset (by simpa using hx))⟩⟩
    intro hnil
    have : s = [] := by simpa using hnil
    rw [this] at hperm
    have := hperm.length_eq
    simp at this

/-- `Sum` of monomials returns a polynomial. -/
theorem sum_mono {ts : List Expr} (h : ∀ t ∈ ts, Monomial v t) (n : Nat) :
    ∃ S, (ctors O (n + 6)).sum ts = .ok S ∧ IsPolynomial v S := sum_poly (fun t ht => .inl (h t ht)) n

end Simpy
