import Verif.Proofs.IdentSound
import Verif.Spec.Combine

/-! `sec(u) sin(u) = tan(u)`, `cos(u) csc(u) = cot(u)`: the rule `_combine_trigs`. -/

namespace Simpy
open Expr

variable {O : Oracle}

theorem trigArg_inj {f : TrigFn} (a b i : Expr) (ha : trigArg f a = some i) (hb : trigArg f b = some i) : a = b := by
  rw [trigArg_some.1 ha, trigArg_some.1 hb]

theorem trig_binds {st : Bool} {ρ : Str → ℝ} {f : TrigFn} {ds : List Expr} (dd : ∀ x ∈ ds, DomS st ρ x) :
    Binds O (trigQ f) (trigArg f) ds := by
  intro x hx
  refine mt_trig ?_
  rintro i rfl rfl
  have := dd _ hx
  simp [DomS] at this

section
set_option maxRecDepth 10000
set_option linter.unusedTactic false
set_option linter.unreachableTactic false

theorem quot_T {n : Nat} {f : TrigFn} {l : Log} {r} (h : quot O (ctors O n) [trigQ f] l = .ok r) : r = none := by
  rcases n with _ | _ | _ | _ | _ | n
  · cases h
  all_goals with_unfolding_all first | exact (Except.ok.inj h).symm | cases h

theorem quot_TF {n : Nat} {f : TrigFn} {l : Log} {r} (h : quot O (ctors O n) [trigQ f, any factorKey] l = .ok r) : r = none := by
  rcases n with _ | _ | _ | _ | _ | n
  · cases h
  all_goals with_unfolding_all first | exact (Except.ok.inj h).symm | cases h

theorem quot_TT {n : Nat} {f g : TrigFn} (hp : (f, g) ∈ combinePairs) {l : Log} {r}
    (h : quot O (ctors O n) [trigQ f, trigQ g] l = .ok r) : r = none := by
  simp only [combinePairs, List.mem_cons, List.not_mem_nil, or_false, Prod.mk.injEq] at hp
  rcases hp with ⟨rfl, rfl⟩ | ⟨rfl, rfl⟩ <;>
  · rcases n with _ | _ | _ | _ | _ | n
    · cases h
    all_goals with_unfolding_all first | exact (Except.ok.inj h).symm | cases h

theorem quot_TTF {n : Nat} {f g : TrigFn} (hp : (f, g) ∈ combinePairs) {l : Log} {r}
    (h : quot O (ctors O n) [trigQ f, trigQ g, any factorKey] l = .ok r) : r = none := by
  simp only [combinePairs, List.mem_cons, List.not_mem_nil, or_false, Prod.mk.injEq] at hp
  rcases hp with ⟨rfl, rfl⟩ | ⟨rfl, rfl⟩ <;>
  · rcases n with _ | _ | _ | _ | _ | n
    · cases h
    all_goals with_unfolding_all first | exact (Except.ok.inj h).symm | cases h
end

theorem allSame_eq (hO : O.Exact) : ∀ {l : List Expr}, (∀ e ∈ l, NoFlt e) → allSame O l = true → ∀ a ∈ l, ∀ b ∈ l, a = b
  | [], _, _ => by simp
  | [e], _, _ => by simp
  | a :: b :: r, hf, h => by
    simp only [allSame, Bool.and_eq_true] at h
    have e := (beq_iff hO (hf a (by simp)) (hf b (by simp))).1 h.1
    have ih := allSame_eq hO (l := b :: r) (fun x hx => hf x (by simp [hx])) h.2
    subst e
    intro x hx y hy
    have hx' : x ∈ a :: r := by rcases List.mem_cons.1 hx with rfl | hx; exacts [by simp, hx]
    have hy' : y ∈ a :: r := by rcases List.mem_cons.1 hy with rfl | hy; exacts [by simp, hy]
    exact ih x hx' y hy'

theorem nodup_same {l : List Expr} (hn : l.Nodup) {i : Expr} (h : ∀ a ∈ l, a = i) (h0 : l ≠ []) : l = [i] := by
  match l, hn, h, h0 with
  | [a], _, h, _ => rw [h a (by simp)]
  | a :: b :: r, hn, h, _ =>
    have h1 := h a (by simp)
    have h2 := h b (by simp)
    rw [h1, h2] at hn
    simp at hn

/-- `any_factor * f(any_) * g(any_)`. -/
theorem match_two (hO : O.Exact) {n : Nat} {st : Bool} {ρ : Str → ℝ} {f g : TrigFn} (hfg : (f, g) ∈ combinePairs) {ts : List Expr}
    (d : DomS st ρ (prod ts)) (hn : ts.Nodup) (hrf : ∀ t ∈ ts, trigMatch O (ctors O n) f t = true)
    (hrg : ∀ t ∈ ts, trigMatch O (ctors O n) g t = true) {m : Log}
    (h : eqCall O (ctors O n) (prod ts) (prod [any factorKey, trigQ f, trigQ g]) = .ok (some m)) :
    ∃ c i, m.Perm [(anyKey, i), (factorKey, c)] ∧
      (ts.Perm [trig f i, trig g i, c] ∨ ts.Perm [trig f i, trig g i] ∧ c = rat 1) := by
  obtain ⟨l, h1, h2⟩ := eqCall_some h
  have dd := Dom_prod.1 d
  have hf : ∀ x ∈ ts, NoFlt x := fun x hx => (dd x hx).noFlt
  have hF : ∀ x ∈ ts, x ≠ any factorKey := fun x hx => not_any (dd x hx) _
  have hne : f ≠ g := by
    simp only [combinePairs, List.mem_cons, List.not_mem_nil, or_false, Prod.mk.injEq] at hfg
    rcases hfg with ⟨rfl, rfl⟩ | ⟨rfl, rfl⟩ <;> decide
  let us := ts.filter (fun d => (trigArg f d).isNone)
  let vs := us.filter (fun d => (trigArg g d).isNone)
  have hus : ∀ x ∈ us, x ∈ ts := fun x hx => List.mem_of_mem_filter hx
  have hvs : ∀ x ∈ vs, x ∈ us := fun x hx => List.mem_of_mem_filter hx
  have e2 := row_any (O := O) (k := factorKey) (ds := vs) (fun x hx => hF x (hus x (hvs x hx)))
  have hrows : divRows O [trigQ f, trigQ g, any factorKey] ts =
      ((if (ts.filterMap (trigArg f)).isEmpty then [trigQ f] else []) ++ ((if (us.filterMap (trigArg g)).isEmpty then [trigQ g] else []) ++
        (if vs.isEmpty then [any factorKey] else [])), [],
        (ts.filterMap (trigArg f)).map (fun i => (anyKey, i)) ++ ((us.filterMap (trigArg g)).map (fun i => (anyKey, i)) ++
        vs.map (fun d => (factorKey, d)))) := by
    rw [divRows, row_arg (trig_binds dd)]
    dsimp only
    rw [divRows, row_arg (trig_binds fun x hx => dd x (hus x hx))]
    dsimp only
    rw [divRows, e2]
    dsimp only
    rw [divRows]
    generalize vs = vs
    generalize ts.filterMap (trigArg f) = is
    generalize us.filterMap (trigArg g) = js
    by_cases ha : is.isEmpty = true <;> by_cases hb : vs.isEmpty = true <;> by_cases hc : js.isEmpty = true <;>
      simp only [ha, hb, hc] <;> simp
  have hS := eqN_prod (C := ctors O n) d (qs := [any factorKey, trigQ f, trigQ g]) (by simp) (by rfl) hrows h1
  have hstruct : eqNL O (ctors O n) ts [any factorKey, trigQ f, trigQ g] = .ok (some l) →
      ts.filterMap (trigArg f) ≠ [] ∧ us.filterMap (trigArg g) ≠ [] := by
    intro hs
    obtain ⟨x, r, l1, l2, rfl, -, hs⟩ := eqNL_cons hs
    obtain ⟨y, r', l3, l4, rfl, hy, hs⟩ := eqNL_cons hs
    obtain ⟨z, r'', l5, l6, rfl, hz, -⟩ := eqNL_cons hs
    have ty := hrf y (by simp)
    have tz := hrg z (by simp)
    unfold trigMatch at ty tz
    rw [hy] at ty
    rw [hz] at tz
    obtain ⟨a, ha⟩ := Option.isSome_iff_exists.1 ty
    obtain ⟨b, hb⟩ := Option.isSome_iff_exists.1 tz
    constructor
    · refine List.ne_nil_of_mem (a := a) (List.mem_filterMap.2 ⟨y, by simp, ha⟩)
    · refine List.ne_nil_of_mem (a := b) (List.mem_filterMap.2 ⟨z, List.mem_filter.2 ⟨by simp, ?_⟩, hb⟩)
      rw [trigArg_some.1 hb]
      simp [trigArg, Ne.symm hne]
  have hA : ts.filterMap (trigArg f) ≠ [] ∧ us.filterMap (trigArg g) ≠ [] := by
    by_cases ha : ts.filterMap (trigArg f) = []
    · exfalso
      rw [ha] at hS
      simp only [List.isEmpty_nil, if_true] at hS
      rcases hS with hS | ⟨-, us, hu, hS⟩
      · by_cases hb : us.filterMap (trigArg g) = [] <;> by_cases hc : vs = []
        · rw [hb, hc] at hS; cases quot_TTF hfg hS
        · rw [hb] at hS; simp only [List.isEmpty_nil, if_true, List.isEmpty_iff, hc, if_false] at hS; cases quot_TT hfg hS
        · rw [hc] at hS; simp only [List.isEmpty_nil, if_true, List.isEmpty_iff, hb, if_false] at hS; cases quot_TF hS
        · simp only [List.isEmpty_iff, hb, hc, if_false] at hS; cases quot_T hS
      · cases hu; exact (hstruct hS).1 ha
    · refine ⟨ha, fun hb => ?_⟩
      rw [hb] at hS
      simp only [List.isEmpty_nil, if_true, List.isEmpty_iff, ha, if_false, List.nil_append] at hS
      rcases hS with hS | ⟨-, us, hu, hS⟩
      · by_cases hc : vs = []
        · simp only [hc, if_true] at hS; cases quot_TF hS
        · simp only [hc, if_false] at hS; cases quot_T hS
      · cases hu; exact (hstruct hS).2 hb
  have hfi : ∀ (k : TrigFn) (ws : List Expr), (∀ x ∈ ws, NoFlt x) → ∀ x ∈ ws.filterMap (trigArg k), NoFlt x := by
    intro k ws hw x hx
    obtain ⟨y, hy, he⟩ := List.mem_filterMap.1 hx
    have := hw y hy
    rw [trigArg_some.1 he] at this
    simpa only [NoFlt] using this
  obtain ⟨i, is, hI⟩ := List.exists_cons_of_ne_nil hA.1
  have fin : ∀ {l' : Log}, settle O l' = some m →
      Log.at l' anyKey = ts.filterMap (trigArg f) ++ us.filterMap (trigArg g) →
      ts.filterMap (trigArg f) = [i] ∧ us.filterMap (trigArg g) = [i] := by
    intro l' hl hat
    have hs := settle_same hl anyKey
    rw [hat] at hs
    have heq := allSame_eq hO (by
      intro e he
      rcases List.mem_append.1 he with he | he
      · exact hfi f ts hf e he
      · exact hfi g us (fun x hx => hf x (hus x hx)) e he) hs
    have hi : i ∈ ts.filterMap (trigArg f) ++ us.filterMap (trigArg g) := by rw [hI]; simp
    constructor
    · exact nodup_same (nodup_filterMap trigArg_inj hn) (fun a ha => heq a (List.mem_append_left _ ha) i hi) hA.1
    · exact nodup_same (nodup_filterMap trigArg_inj (hn.filter _)) (fun a ha => heq a (List.mem_append_right _ ha) i hi) hA.2
  have perm : ts.filterMap (trigArg f) = [i] → us.filterMap (trigArg g) = [i] → ts.Perm (trig f i :: trig g i :: vs) := by
    intro ha hb
    obtain ⟨e, -, h3, h4⟩ := perm_arg ha
    obtain ⟨e', -, h5, h6⟩ := perm_arg hb
    rw [trigArg_some.1 h3] at h4
    rw [trigArg_some.1 h5] at h6
    exact h4.trans (h6.cons _)
  have hk : (factorKey == anyKey) = false := by decide
  have hk' : (anyKey == factorKey) = false := by decide
  have hii : NoFlt i := hfi f ts hf i (by rw [hI]; simp)
  have bii : beq O i i = true := (beq_iff hO hii hii).2 rfl
  by_cases hc : vs = []
  · rw [hc] at hS
    simp only [List.isEmpty_iff, hA.1, hA.2, if_false, if_true, List.nil_append, List.map_nil, List.append_nil] at hS
    rcases hS with hS | ⟨hS, -⟩
    · cases quot_F hS
      obtain ⟨ha, hb⟩ := fin h2 (by
        simp only [Log.at]
        rw [List.filter_cons_of_neg (by simp [hk])]
        have h1 := (at_arg (ts.filterMap (trigArg f))).1
        have h2 := (at_arg (us.filterMap (trigArg g))).1
        simp only [Log.at] at h1 h2
        rw [List.filter_append, List.map_append, h1, h2])
      rw [ha, hb] at h2
      have hm : settle O ((factorKey, rat 1) :: ([i].map (fun i => (anyKey, i)) ++ [i].map (fun i => (anyKey, i)))) =
          some [(factorKey, rat 1), (anyKey, i)] := by
        simp [settle, Log.keys, Log.at, allSame, bii, hk, hk', keys_ne, keys_ne.symm]
      rw [hm] at h2
      cases h2
      have hp := perm ha hb
      rw [hc] at hp
      exact ⟨rat 1, i, List.Perm.swap _ _ _, .inr ⟨hp, rfl⟩⟩
    · cases quot_F hS
  · simp only [List.isEmpty_iff, hA.1, hA.2, if_false, hc, List.nil_append] at hS
    rcases hS with hS | ⟨hS, -⟩
    · cases quot_nil hS
      obtain ⟨ha, hb⟩ := fin h2 (by
        rw [Log.at_append, Log.at_append, (at_arg _).1, (at_arg _).1, (at_factor _).2, List.append_nil])
      have hs := settle_same h2 factorKey
      rw [Log.at_append, Log.at_append, (at_arg _).2, (at_arg _).2, (at_factor _).1, List.nil_append, List.nil_append] at hs
      rcases allSame_nodup hO ((hn.filter _).filter _) (fun x hx => hf x (hus x (hvs x hx))) hs with h | ⟨c, h⟩
      · exact absurd h hc
      have hv : vs = [c] := h
      rw [ha, hb, hv] at h2
      have hm : settle O ([i].map (fun i => (anyKey, i)) ++ ([i].map (fun i => (anyKey, i)) ++ [c].map (fun d => (factorKey, d)))) =
          some [(anyKey, i), (factorKey, c)] := by
        simp [settle, Log.keys, Log.at, allSame, bii, hk, hk', keys_ne, keys_ne.symm]
      rw [hm] at h2
      cases h2
      have hp := perm ha hb
      rw [hv] at hp
      exact ⟨c, i, List.Perm.refl _, .inl hp⟩
    · cases quot_nil hS

theorem eqResult_perm {m : Log} {i c fac inn : Expr} (hm : m.Perm [(anyKey, i), (factorKey, c)])
    (h : eqResult m = some (fac, inn)) : fac = c ∧ inn = i := by
  have hk : (factorKey == anyKey) = false := by decide
  have hk' : (anyKey == factorKey) = false := by decide
  have : m = [(anyKey, i), (factorKey, c)] ∨ m = [(factorKey, c), (anyKey, i)] := by
    match m, hm.length_eq with
    | [a, b], _ =>
      have ha : a ∈ [(anyKey, i), (factorKey, c)] := hm.subset (by simp)
      simp only [List.mem_cons, List.not_mem_nil, or_false] at ha
      rcases ha with rfl | rfl
      · have := (List.perm_cons _).1 hm
        rw [List.perm_singleton.1 this]; exact .inl rfl
      · have := (List.perm_cons _).1 (hm.trans (List.Perm.swap _ _ _))
        rw [List.perm_singleton.1 this]; exact .inr rfl
  rcases this with rfl | rfl <;>
  · simp [eqResult, Log.at, hk', keys_ne, keys_ne.symm, hk] at h
    exact ⟨h.1.symm, h.2.symm⟩

theorem combinePerf_on (hO : O.Exact) (st : Bool) (ρ : Str → ℝ) : PerfOn (combineOk O) st ρ (combinePerf O) := by
  intro n e u hP w d h
  cases e with
  | prod ts =>
    rw [combineOk] at hP
    rw [combinePerf] at h
    rw [h] at hP
    simp only [Bool.and_eq_true, decide_eq_true_eq, List.all_eq_true] at hP
    have wts := (WF_prod.1 w).2
    have dts := Dom_prod.1 d
    have hS := ctors_sound hO n
    have step : ∀ {f g k : TrigFn} {r : List (Expr × TrigFn)}, (f, g) ∈ combinePairs → k.isInverse = false →
        (∀ x, f.ok x → g.ok x → k.ok x ∧ f.real x * g.real x = k.real x) →
        (tryCombine O n (prod ts) r = .ok (.hit u) → Val st ρ u (den ρ (prod ts))) →
        tryCombine O n (prod ts) ((prod [any factorKey, trigQ f, trigQ g], k) :: r) = .ok (.hit u) →
        Val st ρ u (den ρ (prod ts)) := by
      intro f g k r hfg hk hid hnext h
      rw [tryCombine] at h
      obtain ⟨o, ho, h⟩ := bind_ok.1 h
      match o, ho, h with
      | none, _, h => exact hnext h
      | some (fac, inn), ho, h =>
        obtain ⟨t, ht, h⟩ := bind_ok.1 h
        obtain ⟨p, hp, h⟩ := bind_ok.1 h
        have := pure_ok.1 h
        injection this with this
        subst this
        unfold eqFactor at ho
        split at ho
        · cases ho
        obtain ⟨m, hm, ho⟩ := bind_ok.1 ho
        have ho := pure_ok.1 ho
        cases m with
        | none => cases ho
        | some m =>
          have hpairs : f ∈ combineFns ∧ g ∈ combineFns := by
            simp only [combinePairs, List.mem_cons, List.not_mem_nil, or_false, Prod.mk.injEq] at hfg
            rcases hfg with ⟨rfl, rfl⟩ | ⟨rfl, rfl⟩ <;> decide
          obtain ⟨c, i, hmp, hts⟩ := match_two hO hfg d hP.1 (fun t ht => (hP.2 t ht).2 f hpairs.1)
            (fun t ht => (hP.2 t ht).2 g hpairs.2) hm
          obtain ⟨rfl, rfl⟩ := eqResult_perm hmp ho
          have mf : trig f inn ∈ ts := by rcases hts with hts | ⟨hts, -⟩ <;> exact hts.symm.subset (by simp)
          have mg : trig g inn ∈ ts := by rcases hts with hts | ⟨hts, -⟩ <;> exact hts.symm.subset (by simp)
          have wi : WF inn := by have := wts _ mf; simpa only [WF] using this
          have di : DomS st ρ inn ∧ f.ok (den ρ inn) ∧ _ := dts _ mf
          have dg : DomS st ρ inn ∧ g.ok (den ρ inn) ∧ _ := dts _ mg
          have ni : containsCls isInvTrig inn = false := by
            have := (hP.2 _ mf).1
            simpa [argNoInv] using this
          obtain ⟨okk, hv⟩ := hid _ di.2.1 dg.2.1
          have vt := Val.trig hO hk wi di.1 ni okk ht
          rw [den_prod]
          rcases hts with hts | ⟨hts, rfl⟩
          · have mc : fac ∈ ts := hts.symm.subset (by simp)
            refine (Val.mul hS (Val.self (wts _ mc) (dts _ mc)) vt hp).congr ?_
            rw [(hts.map _).prod_eq, ← hv]
            simp [den]; ring
          · refine (Val.mul hS Val.one vt hp).congr ?_
            rw [(hts.map _).prod_eq, ← hv]
            simp [den]
    refine step (f := .sec) (g := .sin) (by decide) rfl ?_ (step (f := .cos) (g := .csc) (by decide) rfl ?_ ?_) h
    · intro x h1 h2
      simp only [TrigFn.ok] at h1
      refine ⟨h1, ?_⟩
      simp only [TrigFn.real]
      field_simp
    · intro x h1 h2
      simp only [TrigFn.ok] at h2
      refine ⟨h2, ?_⟩
      simp only [TrigFn.real]
      field_simp
    · intro h
      cases h
  | _ => cases h

end Simpy
