import Verif.Proofs.PythSound

/-! What a successful match of `regex.Eq` means. -/

namespace Simpy
open Expr

variable {O : Oracle}

/-! ### One query factor against one factor -/

/-- `_eq(d, f)` with `_is_divide=True`, settled. -/
def mt (O : Oracle) (f d : Expr) : Option Log := (eqD O d f).bind (settle O)

theorem divRow_eq (f : Expr) : ∀ ds : List Expr,
    divRow O f ds = (ds.filter (fun d => (mt O f d).isNone), ds.flatMap (fun d => (mt O f d).getD []), ds.any (fun d => (mt O f d).isSome))
  | [] => rfl
  | d :: r => by
    rw [divRow, divRow_eq f r]
    change (match mt O f d with
      | some m => _
      | none => _) = _
    cases h : mt O f d <;> simp [h]

theorem sqArg_some {f : TrigFn} {d i : Expr} : sqArg f d = some i ↔ d = pow (trig f i) (rat 2) := by
  unfold sqArg
  split
  · rename_i g j q
    split
    · rename_i h; simp [h.1, h.2]
    · rename_i h; simp; rintro rfl - rfl; exact h ⟨rfl, rfl⟩
  · rename_i hne
    simp; rintro rfl; exact hne _ _ _ rfl

theorem trigArg_some {f : TrigFn} {d i : Expr} : trigArg f d = some i ↔ d = trig f i := by
  unfold trigArg
  split
  · rename_i g j
    split
    · rename_i h; simp [h]
    · rename_i h; simp; rintro rfl; exact absurd rfl h
  · rename_i hne
    simp; rintro rfl; exact hne _ _ rfl

theorem beq_any {d : Expr} {k : Str} : beq O d (any k) = true ↔ d = any k := by
  cases d <;> simp [beq]

theorem settle_nil : settle O [] = some [] := rfl

theorem settle_one {k : Str} {e : Expr} : settle O [(k, e)] = some [(k, e)] := by
  simp [settle, Log.keys, Log.at, allSame]

theorem settle_two {k l : Str} {a b : Expr} (h : k ≠ l) : settle O [(k, a), (l, b)] = some [(k, a), (l, b)] := by
  simp [settle, Log.keys, Log.at, allSame, h, Ne.symm h]

theorem mt_any {k : Str} {d : Expr} (h : d ≠ any k) : mt O (any k) d = some [(k, d)] := by
  have : beq O d (any k) = false := by rw [Bool.eq_false_iff]; exact fun hb => h (beq_any.1 hb)
  unfold mt
  rw [eqD, this]
  exact settle_one

theorem beq_rat (hO : O.Exact) {d : Expr} (hd : NoFlt d) {q : ℚ} : beq O d (rat q) = decide (d = rat q) :=
  beq_decide hO hd (by simp [NoFlt])

theorem mt_rat (hO : O.Exact) {q : ℚ} {d : Expr} (hd : NoFlt d) : mt O (rat q) d = if d = rat q then some [] else none := by
  have hb := beq_rat hO hd (q := q)
  have : eqD O d (rat q) = if beq O d (rat q) then some [] else none := by cases d <;> rfl
  unfold mt
  rw [this, hb]
  by_cases h : d = rat q <;> simp [h, settle_nil]

theorem eqD_trig {f : TrigFn} {d : Expr} (hd : ∀ i, d = trig f i → i ≠ any anyKey) :
    eqD O d (trig f (any anyKey)) = (trigArg f d).map (fun i => [(anyKey, i)]) := by
  cases d with
  | trig g i =>
    rw [eqD]
    by_cases hg : g = f
    · subst hg
      have h1 : beq O i (any anyKey) = false := by
        rw [Bool.eq_false_iff]; exact fun hb => hd i rfl (beq_any.1 hb)
      have h2 : hasAny (trig g (any anyKey)) = true := by simp [hasAny, containsCls, isAny]
      simp only [beq, beq_self_eq_true, h1, Bool.and_false, Bool.false_eq_true, if_false, h2, Bool.and_self, if_true, trigArg]
      rw [eqD, h1]; rfl
    · have : (g == f) = false := by simp [hg]
      simp [beq, this, trigArg, hg]
  | _ => simp [eqD, beq, trigArg]

theorem mt_trig {f : TrigFn} {d : Expr} (hd : ∀ i, d = trig f i → i ≠ any anyKey) :
    mt O (trig f (any anyKey)) d = (trigArg f d).map (fun i => [(anyKey, i)]) := by
  unfold mt
  rw [eqD_trig hd]
  cases trigArg f d
  · rfl
  · exact settle_one

theorem mt_sq (hO : O.Exact) {f : TrigFn} {d : Expr} (hf : NoFlt d) (hd : ∀ i x, d = pow (trig f i) x → i ≠ any anyKey) :
    mt O (sqQ f) d = (sqArg f d).map (fun i => [(anyKey, i)]) := by
  have key : eqD O d (sqQ f) = (sqArg f d).map (fun i => [(anyKey, i)]) := by
    cases d with
    | pow a b =>
      rw [sqQ, eqD]
      have hd' : ∀ i, a = trig f i → i ≠ any anyKey := fun i h => hd i b (by rw [h])
      have h2 : hasAny (pow (trig f (any anyKey)) (rat 2)) = true := by simp [hasAny, containsCls, isAny]
      have h3 : beq O (pow a b) (pow (trig f (any anyKey)) (rat 2)) = false := by
        rw [Bool.eq_false_iff]
        intro hb
        simp only [beq, Bool.and_eq_true] at hb
        cases a <;> simp [beq] at hb
        exact hd' _ (by rw [hb.1.1]) (beq_any.1 hb.1.2)
      have hfb : NoFlt b := by simp only [NoFlt] at hf; exact hf.2
      have h4 : eqD O b (rat 2) = if beq O b (rat 2) then some [] else none := by cases b <;> rfl
      rw [h3, if_neg (by simp), if_pos h2, eqD_trig hd', h4, beq_rat hO hfb]
      by_cases hb : b = rat 2
      · subst hb
        cases a <;> simp [trigArg, sqArg]
        rename_i g i
        by_cases hg : g = f <;> simp [hg]
      · cases a <;> simp [trigArg, sqArg, hb]
        rename_i g i
        by_cases hg : g = f <;> simp [hg]
        all_goals split <;> simp_all
    | _ => simp [eqD, sqQ, beq, sqArg]
  unfold mt
  rw [key]
  cases sqArg f d
  · rfl
  · exact settle_one

/-! ### No patterns in an expression with a value -/

mutual
theorem DomS.noAny {st : Bool} {ρ : Str → ℝ} : ∀ {e : Expr}, DomS st ρ e → hasAny e = false
  | sum ts, h => by
    simp only [DomS] at h
    simp [hasAny, containsCls, isAny, DomSL.noAny h]
  | prod ts, h => by
    simp only [DomS] at h
    simp [hasAny, containsCls, isAny, DomSL.noAny h]
  | pow b x, h => by
    simp only [DomS] at h
    have h1 := DomS.noAny h.1
    have h2 := DomS.noAny h.2.1
    simp only [hasAny] at h1 h2
    simp [hasAny, containsCls, isAny, h1, h2]
  | log b x, h => by
    simp only [DomS] at h
    have h1 := DomS.noAny h.1
    have h2 := DomS.noAny h.2.1
    simp only [hasAny] at h1 h2
    simp [hasAny, containsCls, isAny, h1, h2]
  | trig f i, h => by
    simp only [DomS] at h
    have h1 := DomS.noAny h.1
    simp only [hasAny] at h1
    simp [hasAny, containsCls, isAny, h1]
  | absv i, h => by
    simp only [DomS] at h
    have h1 := DomS.noAny h.1
    simp only [hasAny] at h1
    simp [hasAny, containsCls, isAny, h1]
  | rat _, _ => by simp [hasAny, containsCls, isAny]
  | flt _, h => by simp [DomS] at h
  | pi, _ => by simp [hasAny, containsCls, isAny]
  | euler, _ => by simp [hasAny, containsCls, isAny]
  | inf, h => by simp [DomS] at h
  | neginf, h => by simp [DomS] at h
  | sym _, _ => by simp [hasAny, containsCls, isAny]
  | any _, h => by simp [DomS] at h
theorem DomSL.noAny {st : Bool} {ρ : Str → ℝ} : ∀ {ts : List Expr}, DomSL st ρ ts → containsClsL isAny ts = false
  | [], _ => rfl
  | t :: r, h => by
    simp only [DomSL] at h
    have h1 := DomS.noAny h.1
    simp only [hasAny] at h1
    simp [containsClsL, h1, DomSL.noAny h.2]
end

theorem not_any {st : Bool} {ρ : Str → ℝ} {d : Expr} (h : DomS st ρ d) (k : Str) : d ≠ any k := by
  rintro rfl; simp [DomS] at h

theorem matchFactors_dom {st : Bool} {ρ : Str → ℝ} {t : Expr} (h : DomS st ρ t) : matchFactors t = .ok (scFactors t) := by
  unfold matchFactors
  split
  · rename_i ts
    have hd := Dom_prod.1 h
    have e1 : ts.filter isAny = [] := by
      rw [List.filter_eq_nil_iff]; intro d hm; have := not_any (hd d hm); cases d <;> simp_all [isAny]
    have e2 : ts.filter (fun t => !hasAny t) = ts := by
      rw [List.filter_eq_self]; intro d hm; simp [(hd d hm).noAny]
    have e3 : ts.filter (fun t => hasAny t && !isAnyFactor t) = [] := by
      rw [List.filter_eq_nil_iff]; intro d hm; simp [(hd d hm).noAny]
    have e4 : ts.filter isAnyFactor = [] := by
      rw [List.filter_eq_nil_iff]; intro d hm; have := not_any (hd d hm); cases d <;> simp_all [isAnyFactor]
    rw [e1, e2, e3, e4]; simp [scFactors]
  · rename_i hne
    unfold scFactors
    split
    · rename_i ts; exact absurd rfl (hne ts)
    · rfl

/-! ### The quotient -/

/-- What `_eq` makes of the query factors `nf` that were not found, when no factor of the expression is left. -/
def quot (O : Oracle) (C : Ctors) (nf : List Expr) (l : Log) : R (Option Log) := do
  let a ← C.prod nf
  let b ← C.prod []
  let one ← opDiv C a b
  eqQuot O C one l

section
set_option maxRecDepth 10000
set_option linter.unusedTactic false
set_option linter.unreachableTactic false

theorem quot_nil {n : Nat} {l : Log} {r} (h : quot O (ctors O n) [] l = .ok r) : r = some l := by
  rcases n with _ | n
  · cases h
  · have h1 : (ctors O (n + 1)).prod [] = .ok (rat 1) := rfl
    simp only [quot, h1, bind, Except.bind, opDiv] at h
    rw [if_pos (by norm_num)] at h
    simp only [div_self (one_ne_zero), eqQuot, beq, beq_self_eq_true, if_true] at h
    exact (Except.ok.inj h).symm

theorem quot_F {n : Nat} {l : Log} {r} (h : quot O (ctors O n) [any factorKey] l = .ok r) : r = some ((factorKey, rat 1) :: l) := by
  rcases n with _ | _ | _ | _ | n
  · cases h
  all_goals with_unfolding_all first | exact (Except.ok.inj h).symm | cases h

theorem quot_neg {n : Nat} {l : Log} {r} (h : quot O (ctors O n) [rat (-1)] l = .ok r) : r = none := by
  rcases n with _ | _ | _ | _ | n
  · cases h
  all_goals with_unfolding_all first | exact (Except.ok.inj h).symm | cases h

theorem quot_negF {n : Nat} {l : Log} {r} (h : quot O (ctors O n) [rat (-1), any factorKey] l = .ok r) :
    r = some (l ++ [(factorKey, rat (-1))]) := by
  rcases n with _ | _ | _ | _ | _ | n
  · cases h
  all_goals with_unfolding_all first | exact (Except.ok.inj h).symm | cases h

theorem quot_P {n : Nat} {f : TrigFn} {l : Log} {r} (h : quot O (ctors O n) [sqQ f] l = .ok r) : r = none := by
  rcases n with _ | _ | _ | _ | _ | n
  · cases h
  all_goals with_unfolding_all first | exact (Except.ok.inj h).symm | cases h

theorem quot_negP {n : Nat} {f : TrigFn} {l : Log} {r} (h : quot O (ctors O n) [rat (-1), sqQ f] l = .ok r) : r = none := by
  rcases n with _ | _ | _ | _ | _ | n
  · cases h
  all_goals with_unfolding_all first | exact (Except.ok.inj h).symm | cases h

theorem quot_PF {n : Nat} {f : TrigFn} {l : Log} {r} (h : quot O (ctors O n) [sqQ f, any factorKey] l = .ok r) : r = none := by
  rcases n with _ | _ | _ | _ | _ | n
  · cases h
  all_goals with_unfolding_all first | exact (Except.ok.inj h).symm | cases h

theorem quot_negPF {n : Nat} {f : TrigFn} {l : Log} {r} (h : quot O (ctors O n) [rat (-1), sqQ f, any factorKey] l = .ok r) :
    r = none := by
  rcases n with _ | _ | _ | _ | _ | n
  · cases h
  all_goals with_unfolding_all first | exact (Except.ok.inj h).symm | cases h

end

/-! ### Settling -/

theorem Log.at_append (l m : Log) (k : Str) : Log.at (l ++ m) k = Log.at l k ++ Log.at m k := by simp [Log.at]

theorem Log.at_keys {l : Log} {k : Str} (h : k ∉ Log.keys l) : Log.at l k = [] := by
  induction l with
  | nil => rfl
  | cons p r ih =>
    obtain ⟨k', e⟩ := p
    simp only [Log.keys, List.mem_cons, List.mem_filter, bne_iff_ne, not_or, not_and, not_not] at h
    obtain ⟨h1, h2⟩ := h
    have : k ∉ Log.keys r := fun hm => h1 (h2 hm)
    have := ih this
    simp only [Log.at] at this ⊢
    rw [List.filter_cons_of_neg (by simpa using Ne.symm h1)]
    exact this

theorem settle_same {l m : Log} (h : settle O l = some m) (k : Str) : allSame O (Log.at l k) = true := by
  unfold settle at h
  split at h
  · rename_i hall
    by_cases hk : k ∈ Log.keys l
    · exact List.all_eq_true.1 hall k hk
    · rw [Log.at_keys hk]; rfl
  · cases h

theorem allSame_nodup (hO : O.Exact) {l : List Expr} (hn : l.Nodup) (hf : ∀ e ∈ l, NoFlt e) (h : allSame O l = true) :
    l = [] ∨ ∃ e, l = [e] := by
  match l, hn, hf, h with
  | [], _, _, _ => exact .inl rfl
  | [e], _, _, _ => exact .inr ⟨e, rfl⟩
  | a :: b :: r, hn, hf, h =>
    simp only [allSame, Bool.and_eq_true] at h
    have := (beq_iff hO (hf a (by simp)) (hf b (by simp))).1 h.1
    subst this
    simp at hn

/-! ### The rows -/

theorem row_rat (hO : O.Exact) {q : ℚ} {ds : List Expr} (hf : ∀ d ∈ ds, NoFlt d) :
    divRow O (rat q) ds = (ds.filter (fun d => decide (d ≠ rat q)), [], decide (rat q ∈ ds)) := by
  rw [divRow_eq]
  refine Prod.ext ?_ (Prod.ext ?_ ?_)
  · refine List.filter_congr fun d hd => ?_
    rw [mt_rat hO (hf d hd)]
    by_cases h : d = rat q <;> simp [h]
  · rw [List.flatMap_eq_nil_iff]
    intro d hd
    rw [mt_rat hO (hf d hd)]
    by_cases h : d = rat q <;> simp [h]
  · rw [Bool.eq_iff_iff, List.any_eq_true, decide_eq_true_iff]
    constructor
    · rintro ⟨d, hd, h⟩
      rw [mt_rat hO (hf d hd)] at h
      split at h
      · rename_i e; rw [← e]; exact hd
      · cases h
    · intro h
      exact ⟨_, h, by rw [mt_rat hO (hf _ h)]; simp⟩

theorem row_any {k : Str} {ds : List Expr} (hf : ∀ d ∈ ds, d ≠ any k) :
    divRow O (any k) ds = ([], ds.map (fun d => (k, d)), !ds.isEmpty) := by
  rw [divRow_eq]
  refine Prod.ext ?_ (Prod.ext ?_ ?_)
  · rw [List.filter_eq_nil_iff]
    intro d hd
    rw [mt_any (hf d hd)]; simp
  · simp only
    induction ds with
    | nil => rfl
    | cons a r ih =>
      rw [List.flatMap_cons, ih fun d hd => hf d (by simp [hd]), mt_any (hf a (by simp))]; rfl
  · cases ds with
    | nil => rfl
    | cons a r => simp [mt_any (hf a (by simp))]

/-- The pattern `f` binds `any_` to `arg d` in the factor `d`. -/
def Binds (O : Oracle) (f : Expr) (arg : Expr → Option Expr) (ds : List Expr) : Prop :=
  ∀ d ∈ ds, mt O f d = (arg d).map (fun i => [(anyKey, i)])

theorem row_arg {f : Expr} {arg : Expr → Option Expr} {ds : List Expr} (hf : Binds O f arg ds) :
    divRow O f ds = (ds.filter (fun d => (arg d).isNone), (ds.filterMap arg).map (fun i => (anyKey, i)), !(ds.filterMap arg).isEmpty) := by
  induction ds with
  | nil => rfl
  | cons a r ih =>
    have ha := hf a (by simp)
    have ih := ih fun d hd => hf d (by simp [hd])
    rw [divRow, ih]
    change (match mt O f a with
      | some m => _
      | none => _) = _
    rw [ha]
    cases h : arg a with
    | none => simp [h]
    | some i => simp [h]

theorem at_arg (l : List Expr) : Log.at (l.map (fun i => (anyKey, i))) anyKey = l ∧ Log.at (l.map (fun i => (anyKey, i))) factorKey = [] := by
  have hk : (anyKey == factorKey) = false := by decide
  constructor
  · induction l with
    | nil => rfl
    | cons a r ih => simp only [Log.at] at ih ⊢; simp [ih]
  · induction l with
    | nil => rfl
    | cons a r ih => simp only [Log.at] at ih ⊢; simp [ih, hk]

theorem at_factor (l : List Expr) :
    Log.at (l.map (fun i => (factorKey, i))) factorKey = l ∧ Log.at (l.map (fun i => (factorKey, i))) anyKey = [] := by
  have hk : (factorKey == anyKey) = false := by decide
  constructor
  · induction l with
    | nil => rfl
    | cons a r ih => simp only [Log.at] at ih ⊢; simp [ih]
  · induction l with
    | nil => rfl
    | cons a r ih => simp only [Log.at] at ih ⊢; simp [ih, hk]

theorem beqL_any {k : Str} : ∀ {ts qs : List Expr}, beqL O ts qs = true → any k ∈ qs → any k ∈ ts
  | [], [], _, h => h
  | [], _ :: _, h, _ => by simp [beqL] at h
  | _ :: _, [], h, _ => by simp [beqL] at h
  | a :: r, b :: s, h, hm => by
    simp only [beqL, Bool.and_eq_true] at h
    rcases List.mem_cons.1 hm with rfl | hm
    · exact List.mem_cons.2 (.inl (beq_any.1 h.1).symm)
    · exact List.mem_cons.2 (.inr (beqL_any h.2 hm))

/-- A product with `any_factor` as query: either the division decides, or the factors are compared. -/
theorem eqN_prod {C : Ctors} {st : Bool} {ρ : Str → ℝ} {t : Expr} {qs N nf : List Expr} {l l' : Log} (d : DomS st ρ t)
    (hF : any factorKey ∈ qs) (hN : matchFactors (prod qs) = .ok N) (hr : divRows O N (scFactors t) = (nf, [], l))
    (h : eqN O C t (prod qs) = .ok (some l')) :
    quot O C nf l = .ok (some l') ∨ quot O C nf l = .ok none ∧ ∃ ts, t = prod ts ∧ eqNL O C ts qs = .ok (some l') := by
  have hb : beq O t (prod qs) = false := by
    rw [Bool.eq_false_iff]
    intro hb
    cases t <;> simp [beq] at hb
    exact not_any (Dom_prod.1 d _ (beqL_any hb hF)) _ rfl
  have ha : hasAny (prod qs) = true := by
    simp only [hasAny, containsCls, isAny, Bool.false_or]
    exact containsClsL_iff.2 ⟨_, hF, by simp [containsCls, isAny]⟩
  have hq : eqPre O C t (prod qs) = (do let r ← quot O C nf l; return r.map some) := by
    unfold eqPre
    rw [hb]
    simp only [Bool.false_eq_true, if_false, ha, if_true, divideAnys, hN, matchFactors_dom d, hr, quot]
    simp only [bind, Except.bind, pure, Except.pure]
    rw [hr]
    dsimp only
    rcases C.prod nf with er | a
    · rfl
    rcases C.prod [] with er | b
    · rfl
    simp only
    rcases opDiv C a b with er | one
    · rfl
    rfl
  have gen : ∀ {v : R (Option Log)}, (match eqPre O C t (prod qs) with
      | .error er => (Except.error er : R (Option Log))
      | .ok (some v) => .ok v
      | .ok none => v) = .ok (some l') → quot O C nf l = .ok (some l') ∨ quot O C nf l = .ok none ∧ v = .ok (some l') := by
    intro v hv
    rw [hq] at hv
    cases hqq : quot O C nf l with
    | error er => simp [hqq, bind, Except.bind] at hv
    | ok o =>
      cases o with
      | none => simp [hqq, bind, Except.bind, pure, Except.pure] at hv; exact .inr ⟨rfl, hv⟩
      | some m => simp [hqq, bind, Except.bind, pure, Except.pure] at hv; exact .inl (by rw [hv])
  cases t with
  | prod ts =>
    rw [eqN] at h
    rcases gen h with h | ⟨h1, h2⟩
    · exact .inl h
    · exact .inr ⟨h1, ts, rfl, h2⟩
  | _ =>
    rw [eqN] at h
    · rcases gen h with h | ⟨h1, h2⟩
      · exact .inl h
      · cases h2
    all_goals simp

theorem logAnd_some {a b : R (Option Log)} {l : Log} (h : logAnd a b = .ok (some l)) :
    ∃ x y, a = .ok (some x) ∧ b = .ok (some y) ∧ l = x ++ y := by
  unfold logAnd at h
  obtain ⟨o, ho, h⟩ := bind_ok.1 h
  match o, ho, h with
  | none, ho, h => cases pure_ok.1 h
  | some x, ho, h =>
    obtain ⟨p, hp, h⟩ := bind_ok.1 h
    have := pure_ok.1 h
    cases p with
    | none => cases this
    | some y => simp at this; exact ⟨x, y, ho, hp, this.symm⟩

theorem eqNL_cons {C : Ctors} {ts qs : List Expr} {q : Expr} {l : Log} (h : eqNL O C ts (q :: qs) = .ok (some l)) :
    ∃ t r x y, ts = t :: r ∧ eqN O C t q = .ok (some x) ∧ eqNL O C r qs = .ok (some y) := by
  cases ts with
  | nil => simp [eqNL] at h
  | cons t r =>
    rw [eqNL] at h
    split at h
    · obtain ⟨x, y, h1, h2, -⟩ := logAnd_some h
      exact ⟨t, r, x, y, rfl, h1, h2⟩
    · cases h

/-- A number only matches itself. -/
theorem eqN_rat (hO : O.Exact) {C : Ctors} {t : Expr} {q : ℚ} {l : Log} (hf : NoFlt t) (h : eqN O C t (rat q) = .ok (some l)) :
    t = rat q := by
  have hp : ∀ {v : R (Option Log)}, (match eqPre O C t (rat q) with
      | .error er => (Except.error er : R (Option Log))
      | .ok (some v) => .ok v
      | .ok none => v) = .ok (some l) → t = rat q := by
    intro v hv
    unfold eqPre at hv
    have : hasAny (rat q) = false := by simp [hasAny, containsCls, isAny]
    rw [this, beq_rat hO hf] at hv
    by_cases ht : t = rat q
    · exact ht
    · simp [ht] at hv
  have : eqN O C t (rat q) = (match eqPre O C t (rat q) with
      | .error er => .error er
      | .ok (some v) => .ok v
      | .ok none => .ok none) := by
    cases t <;> rfl
  rw [this] at h
  exact hp h

theorem eqCall_some {C : Ctors} {t q : Expr} {m : Log} (h : eqCall O C t q = .ok (some m)) :
    ∃ l, eqN O C t q = .ok (some l) ∧ settle O l = some m := by
  unfold eqCall at h
  obtain ⟨o, ho, h⟩ := bind_ok.1 h
  have := pure_ok.1 h
  cases o with
  | none => cases this
  | some l => exact ⟨l, ho, this⟩

theorem match_any {C : Ctors} {st : Bool} {ρ : Str → ℝ} {t : Expr} (d : DomS st ρ t) {m : Log}
    (h : eqCall O C t (any factorKey) = .ok (some m)) : m = [(factorKey, t)] := by
  obtain ⟨l, h1, h2⟩ := eqCall_some h
  have hb : beq O t (any factorKey) = false := by
    rw [Bool.eq_false_iff]; exact fun hb => not_any d _ (beq_any.1 hb)
  have : eqN O C t (any factorKey) = .ok (some [(factorKey, t)]) := by
    have hp : eqPre O C t (any factorKey) = .ok (some (some [(factorKey, t)])) := by unfold eqPre; rw [hb]; rfl
    cases t <;> (rw [eqN]; · rw [hp]) <;> simp
  rw [this] at h1
  cases h1
  rw [settle_one] at h2
  exact (Option.some.inj h2).symm

theorem perm_erase_rat {q : ℚ} {ds : List Expr} (hn : ds.Nodup) (h : rat q ∈ ds) :
    ds.Perm (rat q :: ds.filter (fun d => decide (d ≠ rat q))) := by
  have := List.perm_cons_erase h
  rw [hn.erase_eq_filter] at this
  convert this using 3
  funext d
  by_cases hd : d = rat q <;> simp [hd]

/-- `-any_factor`. -/
theorem match_neg (hO : O.Exact) {n : Nat} {st : Bool} {ρ : Str → ℝ} {t : Expr} (d : DomS st ρ t) (hn : (scFactors t).Nodup) {m : Log}
    (h : eqCall O (ctors O n) t (prod [rat (-1), any factorKey]) = .ok (some m)) :
    ∃ c, m = [(factorKey, c)] ∧ ((scFactors t).Perm [rat (-1), c] ∨ scFactors t = [rat (-1)] ∧ c = rat 1 ∨
      scFactors t = [] ∧ c = rat (-1)) := by
  obtain ⟨l, h1, h2⟩ := eqCall_some h
  have dd : ∀ x ∈ scFactors t, DomS st ρ x := fun x hx => scFactors_dom d hx
  have hf : ∀ x ∈ scFactors t, NoFlt x := fun x hx => (dd x hx).noFlt
  have hF : ∀ x ∈ scFactors t, x ≠ any factorKey := fun x hx => not_any (dd x hx) _
  have e2 := row_any (O := O) (k := factorKey) (ds := (scFactors t).filter (fun d => decide (d ≠ rat (-1))))
    (fun x hx => hF x (List.mem_of_mem_filter hx))
  have hrows : divRows O [rat (-1), any factorKey] (scFactors t) =
      ((if rat (-1) ∈ scFactors t then [] else [rat (-1)]) ++
        (if ((scFactors t).filter (fun d => decide (d ≠ rat (-1)))).isEmpty then [any factorKey] else []), [],
        ((scFactors t).filter (fun d => decide (d ≠ rat (-1)))).map (fun d => (factorKey, d))) := by
    rw [divRows, row_rat hO hf]
    dsimp only
    rw [divRows, e2]
    dsimp only
    rw [divRows]
    generalize (scFactors t).filter (fun d => decide (d ≠ rat (-1))) = ds
    by_cases ha : rat (-1) ∈ scFactors t <;> by_cases hb : ds.isEmpty = true <;> simp only [ha, hb] <;> simp
  have hS := eqN_prod (C := ctors O n) d (by simp) (by rfl) hrows h1
  generalize hds : (scFactors t).filter (fun d => decide (d ≠ rat (-1))) = ds at *
  have hnd : ds.Nodup := by rw [← hds]; exact hn.filter _
  have hfd : ∀ x ∈ ds, NoFlt x := by rw [← hds]; exact fun x hx => hf x (List.mem_of_mem_filter hx)
  by_cases ha : rat (-1) ∈ scFactors t
  · have hp := perm_erase_rat hn ha
    rw [hds] at hp
    rw [if_pos ha] at hS
    cases ds with
    | nil =>
      simp only [List.isEmpty_nil, if_true, List.nil_append, List.map_nil] at hS
      rcases hS with hS | ⟨hS, -⟩
      · have := quot_F hS
        cases this
        rw [settle_one] at h2
        exact ⟨rat 1, (Option.some.inj h2).symm, .inr (.inl ⟨List.perm_singleton.1 hp, rfl⟩)⟩
      · cases quot_F hS
    | cons a r =>
      simp only [List.isEmpty_cons, Bool.false_eq_true, if_false, List.append_nil] at hS
      rcases hS with hS | ⟨hS, -⟩
      · have := quot_nil hS
        cases this
        have hs := settle_same h2 factorKey
        rw [(at_factor _).1] at hs
        rcases allSame_nodup hO hnd hfd hs with h | ⟨e, h⟩
        · cases h
        · rw [h] at h2 hp
          simp only [List.map_cons, List.map_nil] at h2
          rw [settle_one] at h2
          exact ⟨e, (Option.some.inj h2).symm, .inl hp⟩
      · cases quot_nil hS
  · rw [if_neg ha] at hS
    have hds' : ds = scFactors t := by
      rw [← hds, List.filter_eq_self]; intro x hx; simp; rintro rfl; exact ha hx
    cases ds with
    | nil =>
      simp only [List.isEmpty_nil, if_true, List.singleton_append, List.map_nil] at hS
      rcases hS with hS | ⟨hS, -⟩
      · have := quot_negF hS
        cases this
        simp only [List.nil_append] at h2
        rw [settle_one] at h2
        exact ⟨rat (-1), (Option.some.inj h2).symm, .inr (.inr ⟨hds'.symm, rfl⟩)⟩
      · cases quot_negF hS
    | cons a r =>
      simp only [List.isEmpty_cons, Bool.false_eq_true, if_false, List.append_nil] at hS
      rcases hS with hS | ⟨-, ts, rfl, hS⟩
      · cases quot_neg hS
      · obtain ⟨x, r', l1, l2, rfl, hx, -⟩ := eqNL_cons hS
        have := eqN_rat hO (hf x (by simp [scFactors])) hx
        subst this
        exact absurd (by simp [scFactors]) ha

theorem nodup_filterMap {arg : Expr → Option Expr} (hi : ∀ a b i, arg a = some i → arg b = some i → a = b) {ds : List Expr}
    (hn : ds.Nodup) : (ds.filterMap arg).Nodup := by
  refine hn.filterMap fun a b i ha hb => ?_
  simp only [Option.mem_def] at ha hb
  exact hi a b i ha hb

theorem perm_arg {arg : Expr → Option Expr} : ∀ {ds : List Expr} {i : Expr}, ds.filterMap arg = [i] →
    ∃ d ∈ ds, arg d = some i ∧ ds.Perm (d :: ds.filter (fun d => (arg d).isNone))
  | [], i, h => by simp at h
  | a :: r, i, h => by
    cases ha : arg a with
    | none =>
      rw [List.filterMap_cons_none ha] at h
      obtain ⟨d, hd, h1, h2⟩ := perm_arg h
      refine ⟨d, by simp [hd], h1, ?_⟩
      rw [List.filter_cons_of_pos (by simp [ha])]
      exact (h2.cons a).trans (List.Perm.swap _ _ _)
    | some j =>
      rw [List.filterMap_cons_some ha] at h
      injection h with h1 h2
      subst h1
      refine ⟨a, by simp, ha, ?_⟩
      rw [List.filter_cons_of_neg (by simp [ha])]
      have : r.filter (fun d => (arg d).isNone) = r := by
        rw [List.filter_eq_self]
        intro x hx
        by_contra hc
        have hs : (arg x).isSome = true := by cases hax : arg x <;> simp_all
        obtain ⟨y, hy⟩ := Option.isSome_iff_exists.1 hs
        have : y ∈ r.filterMap arg := List.mem_filterMap.2 ⟨x, hx, hy⟩
        rw [h2] at this; simp at this
      rw [this]

theorem sq_binds (hO : O.Exact) {st : Bool} {ρ : Str → ℝ} {f : TrigFn} {ds : List Expr} (dd : ∀ x ∈ ds, DomS st ρ x) :
    Binds O (sqQ f) (sqArg f) ds := by
  intro x hx
  refine mt_sq hO (dd x hx).noFlt ?_
  rintro i y rfl rfl
  have := dd _ hx
  simp [DomS] at this

theorem sqArg_inj {f : TrigFn} (a b i : Expr) (ha : sqArg f a = some i) (hb : sqArg f b = some i) : a = b := by
  rw [sqArg_some.1 ha, sqArg_some.1 hb]

theorem filterMap_nil_none {arg : Expr → Option Expr} {ds : List Expr} (h : ds.filterMap arg = []) :
    ∀ x ∈ ds, arg x = none := by
  intro x hx
  by_contra hc
  obtain ⟨y, hy⟩ := Option.isSome_iff_exists.1 (Option.isSome_iff_ne_none.2 hc)
  have : y ∈ ds.filterMap arg := List.mem_filterMap.2 ⟨x, hx, hy⟩
  rw [h] at this; simp at this

/-- The pattern `f(any_)**2` matches only squares of `f` among the factors of `t`. -/
def SquaresOnly (O : Oracle) (C : Ctors) (f : TrigFn) (t : Expr) : Prop :=
  ∀ d ∈ scFactors t, ∀ l, eqN O C d (sqQ f) = .ok (some l) → (sqArg f d).isSome

theorem keys_ne : anyKey ≠ factorKey := by decide

/-- `any_factor * f(any_)**2`. -/
theorem match_plus (hO : O.Exact) {n : Nat} {st : Bool} {ρ : Str → ℝ} {f : TrigFn} {t : Expr} (d : DomS st ρ t)
    (hn : (scFactors t).Nodup) (hrun : SquaresOnly O (ctors O n) f t) {m : Log}
    (h : eqCall O (ctors O n) t (queryPlus f) = .ok (some m)) :
    ∃ c i, m.Perm [(anyKey, i), (factorKey, c)] ∧
      ((scFactors t).Perm [pow (trig f i) (rat 2), c] ∨ scFactors t = [pow (trig f i) (rat 2)] ∧ c = rat 1) := by
  obtain ⟨l, h1, h2⟩ := eqCall_some h
  have dd : ∀ x ∈ scFactors t, DomS st ρ x := fun x hx => scFactors_dom d hx
  have hf : ∀ x ∈ scFactors t, NoFlt x := fun x hx => (dd x hx).noFlt
  have hF : ∀ x ∈ scFactors t, x ≠ any factorKey := fun x hx => not_any (dd x hx) _
  have e2 := row_any (O := O) (k := factorKey) (ds := (scFactors t).filter (fun d => (sqArg f d).isNone))
    (fun x hx => hF x (List.mem_of_mem_filter hx))
  have hrows : divRows O [sqQ f, any factorKey] (scFactors t) =
      ((if ((scFactors t).filterMap (sqArg f)).isEmpty then [sqQ f] else []) ++
        (if ((scFactors t).filter (fun d => (sqArg f d).isNone)).isEmpty then [any factorKey] else []), [],
        ((scFactors t).filterMap (sqArg f)).map (fun i => (anyKey, i)) ++
        ((scFactors t).filter (fun d => (sqArg f d).isNone)).map (fun d => (factorKey, d))) := by
    rw [divRows, row_arg (sq_binds hO dd)]
    dsimp only
    rw [divRows, e2]
    dsimp only
    rw [divRows]
    generalize (scFactors t).filter (fun d => (sqArg f d).isNone) = ds
    generalize (scFactors t).filterMap (sqArg f) = is
    by_cases ha : is.isEmpty = true <;> by_cases hb : ds.isEmpty = true <;> simp only [ha, hb] <;> simp
  have hS := eqN_prod (C := ctors O n) d (qs := [any factorKey, sqQ f]) (by simp) (by cases f <;> rfl) hrows h1
  have hni := nodup_filterMap (arg := sqArg f) sqArg_inj hn
  have hnd : ((scFactors t).filter (fun d => (sqArg f d).isNone)).Nodup := hn.filter _
  have hfd : ∀ x ∈ (scFactors t).filter (fun d => (sqArg f d).isNone), NoFlt x := fun x hx => hf x (List.mem_of_mem_filter hx)
  have hfi : ∀ x ∈ (scFactors t).filterMap (sqArg f), NoFlt x := by
    intro x hx
    obtain ⟨y, hy, he⟩ := List.mem_filterMap.1 hx
    have := hf y hy
    rw [sqArg_some.1 he] at this
    simp only [NoFlt] at this
    exact this.1
  have same : ∀ {l' : Log}, settle O l' = some m → (∀ k, allSame O (Log.at l' k) = true) := fun h k => settle_same h k
  cases hI : (scFactors t).filterMap (sqArg f) with
  | nil =>
    rw [hI] at hS
    exfalso
    have hnone := filterMap_nil_none hI
    have hstruct : ∀ ts, t = prod ts → eqNL O (ctors O n) ts [any factorKey, sqQ f] = .ok (some l) → False := by
      rintro ts rfl hs
      obtain ⟨x, r, l1, l2, rfl, -, hs⟩ := eqNL_cons hs
      obtain ⟨y, r', l3, l4, rfl, hy, -⟩ := eqNL_cons hs
      have hm : y ∈ scFactors (prod (x :: y :: r')) := by simp [scFactors]
      have := hrun y hm _ hy
      rw [hnone y hm] at this
      cases this
    cases hD : (scFactors t).filter (fun d => (sqArg f d).isNone) with
    | nil =>
      rw [hD] at hS
      simp only [List.isEmpty_nil, if_true, List.singleton_append, List.map_nil] at hS
      rcases hS with hS | ⟨-, ts, ht, hS⟩
      · cases quot_PF hS
      · exact hstruct ts ht hS
    | cons a r =>
      rw [hD] at hS
      simp only [List.isEmpty_nil, if_true, List.isEmpty_cons, Bool.false_eq_true, if_false, List.append_nil, List.map_nil,
        List.nil_append] at hS
      rcases hS with hS | ⟨-, ts, ht, hS⟩
      · cases quot_P hS
      · exact hstruct ts ht hS
  | cons i is =>
    rw [hI] at hS hni hfi
    simp only [List.isEmpty_cons, Bool.false_eq_true, if_false, List.nil_append] at hS
    have one : ∀ {l' : Log}, settle O l' = some m → Log.at l' anyKey = i :: is → is = [] := by
      intro l' hl hat
      have := same hl anyKey
      rw [hat] at this
      rcases allSame_nodup hO hni hfi this with h | ⟨e, h⟩
      · cases h
      · injection h
    cases hD : (scFactors t).filter (fun d => (sqArg f d).isNone) with
    | nil =>
      rw [hD] at hS
      simp only [List.isEmpty_nil, if_true, List.map_nil, List.append_nil] at hS
      rcases hS with hS | ⟨hS, -⟩
      · cases quot_F hS
        have := one h2 (by
          have hk : (factorKey == anyKey) = false := by decide
          have := (at_arg (i :: is)).1
          simp only [Log.at] at this ⊢
          rw [List.filter_cons_of_neg (by simp [hk])]
          exact this)
        subst this
        simp only [List.map_cons, List.map_nil] at h2
        rw [settle_two keys_ne.symm] at h2
        cases h2
        obtain ⟨e, he, h3, h4⟩ := perm_arg hI
        rw [hD] at h4
        rw [sqArg_some.1 h3] at h4
        exact ⟨rat 1, i, List.Perm.swap _ _ _, .inr ⟨List.perm_singleton.1 h4, rfl⟩⟩
      · cases quot_F hS
    | cons a r =>
      rw [hD] at hS hnd hfd
      simp only [List.isEmpty_cons, Bool.false_eq_true, if_false] at hS
      rcases hS with hS | ⟨hS, -⟩
      · cases quot_nil hS
        have := one h2 (by rw [Log.at_append, (at_arg _).1, (at_factor _).2, List.append_nil])
        subst this
        have hs := settle_same h2 factorKey
        rw [Log.at_append, (at_arg _).2, (at_factor _).1, List.nil_append] at hs
        rcases allSame_nodup hO hnd hfd hs with h | ⟨e, h⟩
        · cases h
        injection h with h3 h4
        subst h4
        simp only [List.map_cons, List.map_nil, List.singleton_append] at h2
        rw [settle_two keys_ne] at h2
        cases h2
        obtain ⟨e', he, h5, h6⟩ := perm_arg hI
        rw [hD] at h6
        rw [sqArg_some.1 h5] at h6
        exact ⟨a, i, List.Perm.refl _, .inl h6⟩
      · cases quot_nil hS

/-- `-any_factor * f(any_)**2`. -/
theorem match_minus (hO : O.Exact) {n : Nat} {st : Bool} {ρ : Str → ℝ} {f : TrigFn} {t : Expr} (d : DomS st ρ t)
    (hn : (scFactors t).Nodup) (hrun : SquaresOnly O (ctors O n) f t) {m : Log}
    (h : eqCall O (ctors O n) t (queryMinus f) = .ok (some m)) :
    ∃ c i, m.Perm [(anyKey, i), (factorKey, c)] ∧
      ((scFactors t).Perm [rat (-1), pow (trig f i) (rat 2), c] ∨ (scFactors t).Perm [rat (-1), pow (trig f i) (rat 2)] ∧ c = rat 1 ∨
        scFactors t = [pow (trig f i) (rat 2)] ∧ c = rat (-1)) := by
  obtain ⟨l, h1, h2⟩ := eqCall_some h
  have dd : ∀ x ∈ scFactors t, DomS st ρ x := fun x hx => scFactors_dom d hx
  have hf : ∀ x ∈ scFactors t, NoFlt x := fun x hx => (dd x hx).noFlt
  have hF : ∀ x ∈ scFactors t, x ≠ any factorKey := fun x hx => not_any (dd x hx) _
  have hrow1 := row_rat hO (q := -1) hf
  generalize hD1 : (scFactors t).filter (fun d => decide (d ≠ rat (-1))) = D1 at *
  have sub1 : ∀ x ∈ D1, x ∈ scFactors t := by rw [← hD1]; exact fun x hx => List.mem_of_mem_filter hx
  have hn1 : D1.Nodup := by rw [← hD1]; exact hn.filter _
  have hI1 : ∀ x ∈ scFactors t, (sqArg f x).isSome → x ∈ D1 := by
    intro x hx hs
    rw [← hD1]
    refine List.mem_filter.2 ⟨hx, ?_⟩
    simp only [decide_eq_true_eq]
    rintro rfl
    simp [sqArg] at hs
  have hrow2 := row_arg (O := O) (f := sqQ f) (arg := sqArg f) (ds := D1) (sq_binds hO fun x hx => dd x (sub1 x hx))
  have hni := nodup_filterMap (arg := sqArg f) sqArg_inj hn1
  have hfi : ∀ x ∈ D1.filterMap (sqArg f), NoFlt x := by
    intro x hx
    obtain ⟨y, hy, he⟩ := List.mem_filterMap.1 hx
    have := hf y (sub1 y hy)
    rw [sqArg_some.1 he] at this
    simp only [NoFlt] at this
    exact this.1
  have hpa := @perm_arg (sqArg f) D1
  have hnone := @filterMap_nil_none (sqArg f) D1
  generalize hI : D1.filterMap (sqArg f) = I at *
  have hnd : (D1.filter (fun d => (sqArg f d).isNone)).Nodup := hn1.filter _
  have sub2 : ∀ x ∈ D1.filter (fun d => (sqArg f d).isNone), x ∈ scFactors t := fun x hx => sub1 x (List.mem_of_mem_filter hx)
  generalize hD2 : D1.filter (fun d => (sqArg f d).isNone) = D2 at *
  have hrow3 := row_any (O := O) (k := factorKey) (ds := D2) (fun x hx => hF x (sub2 x hx))
  have hfd : ∀ x ∈ D2, NoFlt x := fun x hx => hf x (sub2 x hx)
  have hrows : divRows O [rat (-1), sqQ f, any factorKey] (scFactors t) =
      ((if rat (-1) ∈ scFactors t then [] else [rat (-1)]) ++ ((if I.isEmpty then [sqQ f] else []) ++
        (if D2.isEmpty then [any factorKey] else [])), [],
        I.map (fun i => (anyKey, i)) ++ D2.map (fun d => (factorKey, d))) := by
    rw [divRows, hrow1]
    dsimp only
    rw [divRows, hrow2]
    dsimp only
    rw [divRows, hrow3]
    dsimp only
    rw [divRows]
    by_cases ha : rat (-1) ∈ scFactors t <;> by_cases hb : I.isEmpty = true <;> by_cases hc : D2.isEmpty = true <;>
      simp only [ha, hb, hc] <;> simp
  have hS := eqN_prod (C := ctors O n) d (qs := [rat (-1), any factorKey, sqQ f]) (by simp) (by cases f <;> rfl) hrows h1
  have hstruct : ∀ ts, t = prod ts → eqNL O (ctors O n) ts [rat (-1), any factorKey, sqQ f] = .ok (some l) →
      rat (-1) ∈ scFactors t ∧ ∃ y ∈ scFactors t, (sqArg f y).isSome := by
    rintro ts rfl hs
    obtain ⟨x, r, l1, l2, rfl, hx, hs⟩ := eqNL_cons hs
    obtain ⟨y, r', l3, l4, rfl, hy, hs⟩ := eqNL_cons hs
    obtain ⟨z, r'', l5, l6, rfl, hz, hs⟩ := eqNL_cons hs
    have := eqN_rat hO (hf x (by simp [scFactors])) hx
    subst this
    have hm : z ∈ scFactors (prod (rat (-1) :: y :: z :: r'')) := by simp [scFactors]
    exact ⟨by simp [scFactors], z, hm, hrun z hm _ hz⟩
  cases I with
  | nil =>
    exfalso
    have hnone := hnone rfl
    have hno : ∀ y ∈ scFactors t, (sqArg f y).isSome → False := by
      intro y hy hs
      rw [hnone y (hI1 y hy hs)] at hs
      cases hs
    by_cases ha : rat (-1) ∈ scFactors t
    · rw [if_pos ha] at hS
      cases D2 with
      | nil =>
        simp only [List.isEmpty_nil, if_true, List.singleton_append, List.nil_append, List.map_nil] at hS
        rcases hS with hS | ⟨-, ts, ht, hS⟩
        · cases quot_PF hS
        · obtain ⟨-, y, hy, hs⟩ := hstruct ts ht hS
          exact hno y hy hs
      | cons a r =>
        simp only [List.isEmpty_nil, if_true, List.isEmpty_cons, Bool.false_eq_true, if_false, List.append_nil, List.map_nil,
          List.nil_append] at hS
        rcases hS with hS | ⟨-, ts, ht, hS⟩
        · cases quot_P hS
        · obtain ⟨-, y, hy, hs⟩ := hstruct ts ht hS
          exact hno y hy hs
    · rw [if_neg ha] at hS
      cases D2 with
      | nil =>
        simp only [List.isEmpty_nil, if_true, List.singleton_append, List.nil_append, List.map_nil] at hS
        rcases hS with hS | ⟨-, ts, ht, hS⟩
        · cases quot_negPF hS
        · exact ha (hstruct ts ht hS).1
      | cons a r =>
        simp only [List.isEmpty_nil, if_true, List.isEmpty_cons, Bool.false_eq_true, if_false, List.append_nil, List.map_nil,
          List.nil_append, List.singleton_append] at hS
        rcases hS with hS | ⟨-, ts, ht, hS⟩
        · cases quot_negP hS
        · exact ha (hstruct ts ht hS).1
  | cons i is =>
    simp only [List.isEmpty_cons, Bool.false_eq_true, if_false, List.nil_append] at hS
    have one : ∀ {l' : Log}, settle O l' = some m → Log.at l' anyKey = i :: is → is = [] := by
      intro l' hl hat
      have := settle_same hl anyKey
      rw [hat] at this
      rcases allSame_nodup hO hni hfi this with h | ⟨e, h⟩
      · cases h
      · injection h
    have hkf : (factorKey == anyKey) = false := by decide
    by_cases ha : rat (-1) ∈ scFactors t
    · have hp := perm_erase_rat hn ha
      rw [hD1] at hp
      rw [if_pos ha] at hS
      cases D2 with
      | nil =>
        simp only [List.isEmpty_nil, if_true, List.map_nil, List.append_nil, List.nil_append] at hS
        rcases hS with hS | ⟨hS, -⟩
        · cases quot_F hS
          have := one h2 (by
            have := (at_arg (i :: is)).1
            simp only [Log.at] at this ⊢
            rw [List.filter_cons_of_neg (by simp [hkf])]
            exact this)
          subst this
          simp only [List.map_cons, List.map_nil] at h2
          rw [settle_two keys_ne.symm] at h2
          cases h2
          obtain ⟨e, he, h3, h4⟩ := hpa rfl
          rw [sqArg_some.1 h3] at h4
          exact ⟨rat 1, i, List.Perm.swap _ _ _, .inr (.inl ⟨hp.trans (h4.cons _), rfl⟩)⟩
        · cases quot_F hS
      | cons a r =>
        simp only [List.isEmpty_cons, Bool.false_eq_true, if_false, List.nil_append] at hS
        rcases hS with hS | ⟨hS, -⟩
        · cases quot_nil hS
          have := one h2 (by rw [Log.at_append, (at_arg _).1, (at_factor _).2, List.append_nil])
          subst this
          have hs := settle_same h2 factorKey
          rw [Log.at_append, (at_arg _).2, (at_factor _).1, List.nil_append] at hs
          rcases allSame_nodup hO hnd hfd hs with h | ⟨e, h⟩
          · cases h
          injection h with h3 h4
          subst h4
          simp only [List.map_cons, List.map_nil, List.singleton_append] at h2
          rw [settle_two keys_ne] at h2
          cases h2
          obtain ⟨e', he, h5, h6⟩ := hpa rfl
          rw [sqArg_some.1 h5] at h6
          exact ⟨a, i, List.Perm.refl _, .inl (hp.trans (h6.cons _))⟩
        · cases quot_nil hS
    · have hDs : D1 = scFactors t := by
        rw [← hD1, List.filter_eq_self]; intro x hx; simp; rintro rfl; exact ha hx
      rw [if_neg ha] at hS
      cases D2 with
      | nil =>
        simp only [List.isEmpty_nil, if_true, List.map_nil, List.append_nil, List.singleton_append] at hS
        rcases hS with hS | ⟨hS, -⟩
        · cases quot_negF hS
          have := one h2 (by rw [Log.at_append, (at_arg _).1]; simp [Log.at, hkf])
          subst this
          simp only [List.map_cons, List.map_nil, List.singleton_append] at h2
          rw [settle_two keys_ne] at h2
          cases h2
          obtain ⟨e', he, h5, h6⟩ := hpa rfl
          rw [sqArg_some.1 h5, hDs] at h6
          exact ⟨rat (-1), i, List.Perm.refl _, .inr (.inr ⟨List.perm_singleton.1 h6, rfl⟩)⟩
        · cases quot_negF hS
      | cons a r =>
        simp only [List.isEmpty_cons, Bool.false_eq_true, if_false, List.append_nil] at hS
        rcases hS with hS | ⟨-, ts, ht, hS⟩
        · cases quot_neg hS
        · exact absurd (hstruct ts ht hS).1 ha

/-! ### `up_to_sum` -/

theorem dictSet_mem {α : Type} {k : Str} {v : α} : ∀ {l : List (Str × α)} {p : Str × α}, p ∈ dictSet k v l → p ∈ l ∨ p = (k, v)
  | [], p, h => by simp [dictSet] at h; exact .inr h
  | (k', v') :: r, p, h => by
    unfold dictSet at h
    split at h
    · rename_i hk
      simp only [beq_iff_eq] at hk
      subst hk
      rcases List.mem_cons.1 h with h | h
      · exact .inr h
      · exact .inl (by simp [h])
    · rcases List.mem_cons.1 h with h | h
      · exact .inl (by simp [h])
      · rcases dictSet_mem h with h | h
        · exact .inl (by simp [h])
        · exact .inr h

theorem termMatches_mem {C : Ctors} {q : Expr} : ∀ {ts : List Expr} {acc res : List (Str × Log)},
    termMatches O C q acc ts = .ok res → ∀ p ∈ res, p ∈ acc ∨ ∃ t ∈ ts, C.repr t = .ok p.1 ∧ eqCall O C t q = .ok (some p.2)
  | [], acc, res, h, p, hp => by
    simp only [termMatches] at h
    cases h
    exact .inl hp
  | t :: r, acc, res, h, p, hp => by
    rw [termMatches] at h
    obtain ⟨o, ho, h⟩ := bind_ok.1 h
    match o, ho, h with
    | none, ho, h =>
      rcases termMatches_mem h p hp with h | ⟨t', ht, h⟩
      · exact .inl h
      · exact .inr ⟨t', by simp [ht], h⟩
    | some l, ho, h =>
      obtain ⟨s, hs, h⟩ := bind_ok.1 h
      rcases termMatches_mem h p hp with h | ⟨t', ht, h⟩
      · rcases dictSet_mem h with h | h
        · exact .inl h
        · subst h; exact .inr ⟨t, by simp, hs, ho⟩
      · exact .inr ⟨t', by simp [ht], h⟩

theorem sumMatches_cons {C : Ctors} {ts qs : List Expr} {q : Expr} {qm : List (List (Str × Log))}
    (h : sumMatches O C ts (q :: qs) = .ok (some qm)) :
    ∃ M R, qm = M :: R ∧ termMatches O C q [] ts = .ok M ∧ sumMatches O C ts qs = .ok (some R) := by
  rw [sumMatches] at h
  obtain ⟨M, hM, h⟩ := bind_ok.1 h
  split at h
  · cases pure_ok.1 h
  · obtain ⟨o, ho, h⟩ := bind_ok.1 h
    have := pure_ok.1 h
    cases o with
    | none => cases this
    | some R => simp at this; exact ⟨M, R, this.symm, hM, ho⟩

theorem pickMatch_mem {qm : List (List (Str × Log))} : ∀ {ms : List (Str × Log)} {p : Str × Log}, pickMatch O qm ms = some p → p ∈ ms
  | [], p, h => by simp [pickMatch] at h
  | (s, m) :: r, p, h => by
    unfold pickMatch at h
    split at h
    · cases h; simp
    · exact List.mem_cons_of_mem _ (pickMatch_mem h)

theorem pickAll_cons {qm R : List (List (Str × Log))} {M : List (Str × Log)} {ps : List (Str × Log)}
    (h : pickAll O qm (M :: R) = some ps) : ∃ p r, ps = p :: r ∧ p ∈ M ∧ pickAll O qm R = some r := by
  unfold pickAll at h
  split at h
  · cases h
  · rename_i p hp
    cases hr : pickAll O qm R with
    | none => rw [hr] at h; cases h
    | some r => rw [hr] at h; cases h; exact ⟨p, r, rfl, pickMatch_mem hp, rfl⟩

theorem unaccounted_filter {C : Ctors} {acc : List Str} : ∀ {ts us : List Expr} {rs : List Str}, mapR C.repr ts = .ok rs →
    rs.Nodup → unaccounted C acc ts = .ok us →
      ts.Nodup ∧ (∀ a ∈ ts, ∃ s ∈ rs, C.repr a = .ok s) ∧ (∀ a ∈ ts, ∀ b ∈ ts, ∀ s, C.repr a = .ok s → C.repr b = .ok s → a = b) ∧
      ∀ a, a ∈ us ↔ a ∈ ts ∧ ∀ s, C.repr a = .ok s → s ∉ acc
  | [], us, rs, h, _, hu => by
    simp only [unaccounted] at hu
    cases hu
    simp
  | t :: r, us, rs, h, hn, hu => by
    obtain ⟨s, ss, h1, h2, rfl⟩ := mapR_cons' h
    rw [unaccounted] at hu
    obtain ⟨s', hs', hu⟩ := bind_ok.1 hu
    obtain ⟨vs, hvs, hu⟩ := bind_ok.1 hu
    have hus := pure_ok.1 hu
    rw [h1] at hs'
    cases hs'
    obtain ⟨hn1, hn2⟩ := List.nodup_cons.1 hn
    obtain ⟨i1, i2, i3, i4⟩ := unaccounted_filter h2 hn2 hvs
    have hns : ∀ a ∈ r, C.repr a ≠ .ok s := by
      intro a ha he
      obtain ⟨s', hs', he'⟩ := i2 a ha
      rw [he] at he'
      cases he'
      exact hn1 hs'
    refine ⟨List.nodup_cons.2 ⟨fun hm => hns t hm h1, i1⟩, ?_, ?_, ?_⟩
    · intro a ha
      rcases List.mem_cons.1 ha with rfl | ha
      · exact ⟨s, by simp, h1⟩
      · obtain ⟨s', hs', he⟩ := i2 a ha
        exact ⟨s', by simp [hs'], he⟩
    · intro a ha b hb s' ea eb
      rcases List.mem_cons.1 ha with ra | ra <;> rcases List.mem_cons.1 hb with rb | rb
      · rw [ra, rb]
      · rw [ra, h1] at ea; cases ea; exact absurd eb (hns b rb)
      · rw [rb, h1] at eb; cases eb; exact absurd ea (hns a ra)
      · exact i3 a ra b rb s' ea eb
    · intro a
      rw [← hus]
      split
      · rename_i hm
        rw [i4 a]
        constructor
        · rintro ⟨h3, h4⟩; exact ⟨by simp [h3], h4⟩
        · rintro ⟨h3, h4⟩
          rcases List.mem_cons.1 h3 with rfl | h3
          · exact absurd hm (h4 s h1)
          · exact ⟨h3, h4⟩
      · rename_i hm
        rw [List.mem_cons, i4 a]
        constructor
        · rintro (rfl | ⟨h3, h4⟩)
          · exact ⟨by simp, fun s' hs' => by rw [h1] at hs'; cases hs'; exact hm⟩
          · exact ⟨by simp [h3], h4⟩
        · rintro ⟨h3, h4⟩
          rcases List.mem_cons.1 h3 with rfl | h3
          · exact .inl rfl
          · exact .inr ⟨h3, h4⟩

theorem unaccounted_nodup {C : Ctors} {acc : List Str} : ∀ {ts us : List Expr}, ts.Nodup → unaccounted C acc ts = .ok us →
    us.Sublist ts
  | [], us, _, hu => by
    simp only [unaccounted] at hu
    cases hu
    exact List.Sublist.refl _
  | t :: r, us, hn, hu => by
    rw [unaccounted] at hu
    obtain ⟨s', hs', hu⟩ := bind_ok.1 hu
    obtain ⟨vs, hvs, hu⟩ := bind_ok.1 hu
    have ih := unaccounted_nodup (List.nodup_cons.1 hn).2 hvs
    have hus := pure_ok.1 hu
    rw [← hus]
    split
    · exact ih.cons _
    · exact ih.cons₂ _

/-- Two accounted terms and the rest. -/
theorem unaccounted_perm {C : Ctors} {ts us : List Expr} {a b : Expr} {s s' : Str} (hr : reprsDiffer C ts = true)
    (ha : a ∈ ts) (hb : b ∈ ts) (hab : a ≠ b) (ea : C.repr a = .ok s) (eb : C.repr b = .ok s')
    (hu : unaccounted C [s, s'] ts = .ok us) : ts.Perm (a :: b :: us) := by
  unfold reprsDiffer at hr
  split at hr
  · rename_i rs hrs
    obtain ⟨i1, i2, i3, i4⟩ := unaccounted_filter hrs (by simpa using hr) hu
    have hn := (unaccounted_nodup i1 hu).nodup i1
    refine (List.perm_ext_iff_of_nodup i1 ?_).2 fun x => ?_
    · refine List.nodup_cons.2 ⟨?_, List.nodup_cons.2 ⟨?_, hn⟩⟩
      · simp only [List.mem_cons, not_or]
        exact ⟨hab, fun hm => ((i4 a).1 hm).2 s ea (by simp)⟩
      · exact fun hm => ((i4 b).1 hm).2 s' eb (by simp)
    · simp only [List.mem_cons, i4]
      constructor
      · intro hx
        by_cases h1 : x = a
        · exact .inl h1
        · by_cases h2 : x = b
          · exact .inr (.inl h2)
          · refine .inr (.inr ⟨hx, fun r hr' hm => ?_⟩)
            simp at hm
            rcases hm with rfl | rfl
            · exact h1 (i3 x hx a ha _ hr' ea)
            · exact h2 (i3 x hx b hb _ hr' eb)
      · rintro (rfl | rfl | ⟨hx, -⟩)
        · exact ha
        · exact hb
        · exact hx
  · cases hr

/-- A successful match of a sum with two query terms. -/
theorem eqSum_two {C : Ctors} {ts : List Expr} {q1 q2 fac inn rest : Expr}
    (h : eqSum O C ts [q1, q2] = .ok (some (fac, inn, rest))) :
    ∃ t1 ∈ ts, ∃ t2 ∈ ts, ∃ s1 s2 m1 m2 final us, C.repr t1 = .ok s1 ∧ C.repr t2 = .ok s2 ∧
      eqCall O C t1 q1 = .ok (some m1) ∧ eqCall O C t2 q2 = .ok (some m2) ∧ settle O (m1 ++ m2) = some final ∧
      eqResult final = some (fac, inn) ∧ unaccounted C [s1, s2] ts = .ok us ∧ C.sum us = .ok rest := by
  unfold eqSum at h
  split at h
  · cases h
  split at h
  · cases h
  obtain ⟨o, ho, h⟩ := bind_ok.1 h
  match o, ho, h with
  | none, _, h => cases pure_ok.1 h
  | some qm, ho, h =>
    obtain ⟨r, hr, h⟩ := bind_ok.1 h
    match r, hr, h with
    | none, _, h => cases pure_ok.1 h
    | some (m, rs), hr, h =>
      have h := pure_ok.1 h
      obtain ⟨M1, R1, rfl, hM1, hR⟩ := sumMatches_cons ho
      obtain ⟨M2, R2, rfl, hM2, hR2⟩ := sumMatches_cons hR
      simp only [sumMatches] at hR2
      cases hR2
      unfold consolidate at hr
      split at hr
      · cases hr
      rename_i ps hps
      obtain ⟨p1, r1, rfl, hp1, hps⟩ := pickAll_cons hps
      obtain ⟨p2, r2, rfl, hp2, hps⟩ := pickAll_cons hps
      simp only [pickAll] at hps
      cases hps
      obtain ⟨final, hf, hr⟩ := bind_ok.1 hr
      obtain ⟨-, -, hr⟩ := bind_ok.1 hr
      obtain ⟨us, hus, hr⟩ := bind_ok.1 hr
      obtain ⟨rest', hrest, hr⟩ := bind_ok.1 hr
      have hr := pure_ok.1 hr
      simp only [Option.some.injEq, Prod.mk.injEq] at hr
      obtain ⟨rfl, rfl⟩ := hr
      obtain ⟨t1, ht1, e1, c1⟩ := (termMatches_mem hM1 p1 hp1).resolve_left (by simp)
      obtain ⟨t2, ht2, e2, c2⟩ := (termMatches_mem hM2 p2 hp2).resolve_left (by simp)
      refine ⟨t1, ht1, t2, ht2, p1.1, p2.1, p1.2, p2.2, final, us, e1, e2, c1, c2, ?_, ?_, hus, ?_⟩
      · unfold settleAssert at hf
        split at hf
        · rename_i m' hm'
          cases hf
          simpa using hm'
        · cases hf
      · cases he : eqResult final with
        | none => rw [he] at h; cases h
        | some x =>
          rw [he] at h
          simp only [Option.map_some, Option.some.injEq, Prod.mk.injEq] at h
          obtain ⟨h1, h2, -⟩ := h
          rw [← h1, ← h2]
      · cases he : eqResult final with
        | none => rw [he] at h; cases h
        | some x =>
          rw [he] at h
          simp only [Option.map_some, Option.some.injEq, Prod.mk.injEq] at h
          rw [← h.2.2]
          exact hrest

/-- The factor and the argument of a settled match. -/
theorem result_of (hO : O.Exact) {m1 m2 final : Log} {c1 c2 i fac inn : Expr} (n1 : NoFlt c1) (n2 : NoFlt c2)
    (h1 : m1.Perm [(anyKey, i), (factorKey, c1)]) (h2 : m2 = [(factorKey, c2)]) (hs : settle O (m1 ++ m2) = some final)
    (hr : eqResult final = some (fac, inn)) : c1 = c2 ∧ fac = c1 ∧ inn = i := by
  have hkf : (factorKey == anyKey) = false := by decide
  have hk : (anyKey == factorKey) = false := by decide
  have hkn : factorKey ≠ anyKey := by decide
  have hk' : anyKey ≠ factorKey := by decide
  subst h2
  have hc : c1 = c2 := by
    have := settle_same hs factorKey
    have hp : (Log.at m1 factorKey).Perm [c1] := by
      have := (h1.filter (fun p => p.1 == factorKey)).map (·.2)
      simpa [Log.at, hk] using this
    rw [Log.at_append, List.perm_singleton.1 hp] at this
    simp only [Log.at] at this
    simp [allSame] at this
    exact (beq_iff hO n1 n2).1 this
  subst hc
  refine ⟨rfl, ?_⟩
  have hm : m1 = [(anyKey, i), (factorKey, c1)] ∨ m1 = [(factorKey, c1), (anyKey, i)] := by
    match m1, h1 with
    | [], h1 => simpa using h1.length_eq
    | [a], h1 => simpa using h1.length_eq
    | [a, b], h1 =>
      have ha : a ∈ [(anyKey, i), (factorKey, c1)] := h1.subset (by simp)
      have hb : b ∈ [(anyKey, i), (factorKey, c1)] := h1.subset (by simp)
      have h3 : (anyKey, i) ∈ [a, b] := h1.symm.subset (by simp)
      have h4 : (factorKey, c1) ∈ [a, b] := h1.symm.subset (by simp)
      simp only [List.mem_cons, List.not_mem_nil, or_false] at ha hb h3 h4
      rcases ha with rfl | rfl <;> rcases hb with rfl | rfl
      · simp [hkn] at h4
      · exact .inl rfl
      · exact .inr rfl
      · simp [hk'] at h3
    | a :: b :: c :: r, h1 => simpa using h1.length_eq
  have hb : beq O c1 c1 = true := beq_refl _ n1
  rcases hm with rfl | rfl
  · simp [settle, Log.keys, Log.at, allSame, hkn, hk', hb] at hs
    subst hs
    simp [eqResult, Log.at, hk', hkn] at hr
    exact ⟨hr.1.symm, hr.2.symm⟩
  · simp [settle, Log.keys, Log.at, allSame, hkn, hk', hb] at hs
    subst hs
    simp [eqResult, Log.at, hk', hkn] at hr
    exact ⟨hr.1.symm, hr.2.symm⟩

end Simpy
