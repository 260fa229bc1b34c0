import Verif.Proofs.Scope

/-! `simplify` introduces no symbols. -/

namespace Simpy
open Expr

variable {O : Oracle} {A : Str → Prop} {n : Nat} {v : Str}

theorem in_pow {b x : Expr} : In A (pow b x) ↔ In A b ∧ In A x := (closed_syms A).pow

theorem in_log {i b : Expr} (h : In A (log i b)) : In A i ∧ In A b := (closed_syms A).log h

theorem in_trigI {f : TrigFn} {i : Expr} : In A (trig f i) ↔ In A i := Iff.rfl

theorem in_absI {i : Expr} : In A (absv i) ↔ In A i := Iff.rfl

theorem in_any (k : Str) : In A (any k) := fun s h => by simp [syms] at h

/-! ### Matching -/

/-- What the log holds is in scope. -/
def LogIn (A : Str → Prop) (l : Log) : Prop := ∀ p ∈ l, In A p.2

theorem LogIn.nil : LogIn A [] := fun _ h => by cases h

theorem LogIn.append {l m : Log} (h1 : LogIn A l) (h2 : LogIn A m) : LogIn A (l ++ m) := fun p hp =>
  (List.mem_append.1 hp).elim (h1 p) (h2 p)

theorem LogIn.single {k : Str} {e : Expr} (h : In A e) : LogIn A [(k, e)] := fun p hp => by
  simp only [List.mem_singleton] at hp; subst hp; exact h

theorem LogIn.at {l : Log} (h : LogIn A l) {k : Str} {e : Expr} (he : e ∈ Log.at l k) : In A e := by
  unfold Log.at at he
  obtain ⟨p, hp, rfl⟩ := List.mem_map.1 he
  exact h p (List.mem_filter.1 hp).1

theorem LogIn.settle {l m : Log} (h : LogIn A l) (hs : settle O l = some m) : LogIn A m := by
  unfold Simpy.settle at hs
  split at hs
  · cases hs
    intro p hp
    obtain ⟨k, -, hp⟩ := List.mem_filterMap.1 hp
    obtain ⟨w, hw, rfl⟩ := Option.map_eq_some_iff.1 hp
    exact h.at (List.mem_of_head? hw)
  · cases hs

mutual
theorem eqD_in : ∀ (e q : Expr) {l : Log}, In A e → eqD O e q = some l → LogIn A l
  | e, q, l, he, h => by
    rw [eqD.eq_def] at h
    split at h
    next k => split at h <;> cases h
              · exact LogIn.nil
              · exact LogIn.single he
    next ts qs =>
      split at h
      · cases h; exact LogIn.nil
      · split at h
        · exact eqDL_in ts qs (in_sum.1 he) h
        · cases h
    next ts qs =>
      split at h
      · cases h; exact LogIn.nil
      · split at h
        · exact eqDL_in ts qs (in_prod.1 he) h
        · cases h
    next a b c d =>
      split at h
      · cases h; exact LogIn.nil
      · split at h
        · split at h
          · cases h
          next l1 h1 =>
            obtain ⟨l2, h2, rfl⟩ := Option.map_eq_some_iff.1 h
            exact (eqD_in a c (in_pow.1 he).1 h1).append (eqD_in b d (in_pow.1 he).2 h2)
        · cases h
    next a b c d =>
      split at h
      · cases h; exact LogIn.nil
      · split at h
        · split at h
          · cases h
          next l1 h1 =>
            obtain ⟨l2, h2, rfl⟩ := Option.map_eq_some_iff.1 h
            exact (eqD_in a c (in_log he).1 h1).append (eqD_in b d (in_log he).2 h2)
        · cases h
    next f a g c =>
      split at h
      · cases h; exact LogIn.nil
      · split at h
        · exact eqD_in a c (in_trigI.1 he) h
        · cases h
    next a c =>
      split at h
      · cases h; exact LogIn.nil
      · split at h
        · exact eqD_in a c (in_absI.1 he) h
        · cases h
    next => split at h <;> cases h; exact LogIn.nil
theorem eqDL_in : ∀ (ts qs : List Expr) {l : Log}, (∀ t ∈ ts, In A t) → eqDL O ts qs = some l → LogIn A l
  | [], [], l, _, h => by cases h; exact LogIn.nil
  | a :: r, b :: s, l, ht, h => by
    rw [eqDL] at h
    split at h
    · cases h
    next l1 h1 =>
      obtain ⟨l2, h2, rfl⟩ := Option.map_eq_some_iff.1 h
      exact (eqD_in a b (ht a (by simp)) h1).append (eqDL_in r s (fun t h => ht t (by simp [h])) h2)
  | [], b :: s, l, _, h => by cases h
  | a :: r, [], l, _, h => by cases h
end

theorem matchFactors_in {e : Expr} {l : List Expr} (he : In A e) (h : matchFactors e = .ok l) : ∀ t ∈ l, In A t := by
  unfold matchFactors at h
  split at h
  · split at h
    · cases h
    · cases h
      intro t ht
      simp only [List.mem_append, List.mem_filter] at ht
      exact in_prod.1 he t (by tauto)
  · cases h
    intro t ht
    simp only [List.mem_singleton] at ht; subst ht
    exact he

theorem divRow_in {f : Expr} : ∀ {ds : List Expr}, (∀ t ∈ ds, In A t) → (∀ t ∈ (divRow O f ds).1, In A t) ∧
    LogIn A (divRow O f ds).2.1
  | [], _ => ⟨(fun _ h => by cases h), LogIn.nil⟩
  | d :: r, hd => by
    obtain ⟨i1, i2⟩ := divRow_in (f := f) (ds := r) (fun t h => hd t (by simp [h]))
    rw [divRow]
    split
    next m hm =>
      obtain ⟨l, h1, h2⟩ := Option.bind_eq_some_iff.1 hm
      exact ⟨i1, ((eqD_in d f (hd d (by simp)) h1).settle h2).append i2⟩
    · refine ⟨fun t ht => ?_, i2⟩
      rcases List.mem_cons.1 ht with rfl | ht
      · exact hd _ (by simp)
      · exact i1 t ht

theorem divRows_in : ∀ {fs ds : List Expr}, (∀ t ∈ fs, In A t) → (∀ t ∈ ds, In A t) →
    (∀ t ∈ (divRows O fs ds).1, In A t) ∧ (∀ t ∈ (divRows O fs ds).2.1, In A t) ∧ LogIn A (divRows O fs ds).2.2
  | [], _, _, hd => ⟨(fun _ h => by cases h), hd, LogIn.nil⟩
  | f :: r, ds, hf, hd => by
    obtain ⟨i1, i2⟩ := divRow_in (O := O) (f := f) hd
    obtain ⟨j1, j2, j3⟩ := divRows_in (fs := r) (fun t h => hf t (by simp [h])) i1
    rw [divRows]
    simp only
    refine ⟨fun t ht => ?_, j2, i2.append j3⟩
    split at ht
    · exact j1 t ht
    · rcases List.mem_cons.1 ht with rfl | ht
      · exact hf _ (by simp)
      · exact j1 t ht

theorem divideAnys_in {q e one : Expr} {l : Log} (hq : In A q) (he : In A e) (h : divideAnys O (ctors O n) q e = .ok (one, l)) :
    In A one ∧ LogIn A l := by
  unfold divideAnys at h
  obtain ⟨ns, h1, h⟩ := bind_ok.1 h
  obtain ⟨ds, h2, h⟩ := bind_ok.1 h
  simp only at h
  obtain ⟨a, h3, h⟩ := bind_ok.1 h
  obtain ⟨b, h4, h⟩ := bind_ok.1 h
  obtain ⟨o, h5, h⟩ := bind_ok.1 h
  cases pure_ok.1 h
  obtain ⟨i1, i2, i3⟩ := divRows_in (O := O) (matchFactors_in hq h1) (matchFactors_in he h2)
  exact ⟨in_div (in_cprod i1 h3) (in_cprod i2 h4) h5, i3⟩

theorem eqQuot_in {one : Expr} {l m : Log} (ho : In A one) (hl : LogIn A l) (h : eqQuot O (ctors O n) one l = .ok (some m)) :
    LogIn A m := by
  unfold eqQuot at h
  split at h
  · cases h; exact hl
  · split at h
    next k => cases h; exact (LogIn.single (in_rat 1)).append hl
    next =>
      split at h
      · unfold oneAny at h
        split at h
        next k _ =>
          obtain ⟨w, h1, h⟩ := bind_ok.1 h
          have h := pure_ok.1 h
          split at h
          · cases h; exact hl.append (LogIn.single (in_div ho (in_any k) h1))
          · cases h
        · cases h
      · cases h

theorem eqPre_in {e q : Expr} {m : Log} (he : In A e) (hq : In A q) (h : eqPre O (ctors O n) e q = .ok (some (some m))) :
    LogIn A m := by
  unfold eqPre at h
  split at h
  · cases h; exact LogIn.nil
  · split at h
    · cases h; exact LogIn.single he
    · split at h
      · obtain ⟨⟨one, l⟩, h1, h⟩ := bind_ok.1 h
        obtain ⟨r, h2, h⟩ := bind_ok.1 h
        have h := pure_ok.1 h
        cases r with
        | none => cases h
        | some r =>
          cases h
          obtain ⟨i1, i2⟩ := divideAnys_in hq he h1
          exact eqQuot_in i1 i2 h2
      · cases h

theorem logAnd_in {a b : R (Option Log)} {m : Log} (ha : ∀ l, a = .ok (some l) → LogIn A l)
    (hb : ∀ l, b = .ok (some l) → LogIn A l) (h : logAnd a b = .ok (some m)) : LogIn A m := by
  unfold logAnd at h
  obtain ⟨l, h1, h⟩ := bind_ok.1 h
  split at h
  · cases pure_ok.1 h
  next l' =>
    obtain ⟨m', h2, h⟩ := bind_ok.1 h
    have h := pure_ok.1 h
    cases m' with
    | none => cases h
    | some m' => cases h; exact (ha _ h1).append (hb _ h2)

mutual
theorem eqN_in : ∀ (e q : Expr) {l : Log}, In A e → In A q → eqN O (ctors O n) e q = .ok (some l) → LogIn A l
  | e, q, l, he, hq, h => by
    rw [eqN.eq_def] at h
    split at h
    next ts qs =>
      split at h
      · cases h
      next hp => cases h; exact eqPre_in he hq hp
      · exact eqNL_in ts qs (in_sum.1 he) (in_sum.1 hq) h
    next ts qs =>
      split at h
      · cases h
      next hp => cases h; exact eqPre_in he hq hp
      · exact eqNL_in ts qs (in_prod.1 he) (in_prod.1 hq) h
    next a b c d =>
      split at h
      · cases h
      next hp => cases h; exact eqPre_in he hq hp
      · exact logAnd_in (fun l h => eqN_in a c (in_pow.1 he).1 (in_pow.1 hq).1 h)
          (fun l h => eqN_in b d (in_pow.1 he).2 (in_pow.1 hq).2 h) h
    next a b c d =>
      split at h
      · cases h
      next hp => cases h; exact eqPre_in he hq hp
      · exact logAnd_in (fun l h => eqN_in a c (in_log he).1 (in_log hq).1 h)
          (fun l h => eqN_in b d (in_log he).2 (in_log hq).2 h) h
    next f a g c =>
      split at h
      · cases h
      next hp => cases h; exact eqPre_in he hq hp
      · split at h
        · exact eqN_in a c (in_trigI.1 he) (in_trigI.1 hq) h
        · cases h
    next a c =>
      split at h
      · cases h
      next hp => cases h; exact eqPre_in he hq hp
      · exact eqN_in a c (in_absI.1 he) (in_absI.1 hq) h
    next =>
      split at h
      · cases h
      next hp => cases h; exact eqPre_in he hq hp
      · cases h
theorem eqNL_in : ∀ (ts qs : List Expr) {l : Log}, (∀ t ∈ ts, In A t) → (∀ t ∈ qs, In A t) →
    eqNL O (ctors O n) ts qs = .ok (some l) → LogIn A l
  | [], [], l, _, _, h => by cases h; exact LogIn.nil
  | a :: r, b :: s, l, ht, hq, h => by
    rw [eqNL] at h
    split at h
    · exact logAnd_in (fun l h => eqN_in a b (ht a (by simp)) (hq b (by simp)) h)
        (fun l h => eqNL_in r s (fun t h => ht t (by simp [h])) (fun t h => hq t (by simp [h])) h) h
    · cases h
  | [], b :: s, l, _, _, h => by cases h
  | a :: r, [], l, _, _, h => by cases h
end

theorem eqCall_in {e q : Expr} {m : Log} (he : In A e) (hq : In A q) (h : eqCall O (ctors O n) e q = .ok (some m)) : LogIn A m := by
  unfold eqCall at h
  obtain ⟨r, h1, h⟩ := bind_ok.1 h
  have h := pure_ok.1 h
  cases r with
  | none => cases h
  | some r => exact (eqN_in e q he hq h1).settle h

theorem eqResult_in {m : Log} {f i : Expr} (hm : LogIn A m) (h : eqResult m = some (f, i)) : In A f ∧ In A i := by
  unfold eqResult at h
  split at h
  next f' k i' h1 h2 =>
    cases h
    refine ⟨hm.at (List.mem_of_head? h1), hm (k, i) ?_⟩
    have : (k, i) ∈ m.filter (fun p => p.1 != factorKey) := by rw [h2]; simp
    exact (List.mem_filter.1 this).1
  next => cases h

theorem eqFactor_in {e q f i : Expr} (he : In A e) (hq : In A q) (h : eqFactor O (ctors O n) e q = .ok (some (f, i))) :
    In A f ∧ In A i := by
  unfold eqFactor at h
  split at h
  · cases h
  · obtain ⟨r, h1, h⟩ := bind_ok.1 h
    have h := pure_ok.1 h
    cases r with
    | none => cases h
    | some r => exact eqResult_in (eqCall_in he hq h1) h

theorem dictSet_value {α : Type} {k : Str} {w : α} : ∀ {l : List (Str × α)} {p : Str × α}, p ∈ dictSet k w l → p.2 = w ∨ ∃ p' ∈ l, p'.2 = p.2
  | [], p, h => by
    rw [dictSet] at h
    simp only [List.mem_singleton] at h; subst h; exact .inl rfl
  | (k', w') :: r, p, h => by
    rw [dictSet] at h
    split at h
    · rcases List.mem_cons.1 h with rfl | h
      · exact .inl rfl
      · exact .inr ⟨p, by simp [h], rfl⟩
    · rcases List.mem_cons.1 h with rfl | h
      · exact .inr ⟨_, by simp, rfl⟩
      · rcases dictSet_value h with h | ⟨p', h1, h2⟩
        · exact .inl h
        · exact .inr ⟨p', by simp [h1], h2⟩

theorem termMatches_in {q : Expr} (hq : In A q) : ∀ {ts : List Expr} {acc r : List (Str × Log)}, (∀ t ∈ ts, In A t) →
    (∀ p ∈ acc, LogIn A p.2) → termMatches O (ctors O n) q acc ts = .ok r → ∀ p ∈ r, LogIn A p.2
  | [], _, _, _, ha, h => by cases h; exact ha
  | t :: ts, acc, r, ht, ha, h => by
    rw [termMatches] at h
    obtain ⟨m, h1, h⟩ := bind_ok.1 h
    split at h
    · exact termMatches_in hq (fun t h => ht t (by simp [h])) ha h
    next l =>
      obtain ⟨s, h2, h⟩ := bind_ok.1 h
      refine termMatches_in hq (fun t h => ht t (by simp [h])) (fun p hp => ?_) h
      rcases dictSet_value hp with h3 | ⟨p', h3, h4⟩
      · rw [h3]; exact eqCall_in (ht t (by simp)) hq h1
      · rw [← h4]; exact ha p' h3

theorem sumMatches_in {ts : List Expr} (ht : ∀ t ∈ ts, In A t) : ∀ {qs : List Expr} {qm : List (List (Str × Log))}, (∀ q ∈ qs, In A q) →
    sumMatches O (ctors O n) ts qs = .ok (some qm) → ∀ ms ∈ qm, ∀ p ∈ ms, LogIn A p.2
  | [], _, _, h => by cases h; simp
  | q :: r, qm, hq, h => by
    rw [sumMatches] at h
    obtain ⟨m, h1, h⟩ := bind_ok.1 h
    split at h
    · cases pure_ok.1 h
    · obtain ⟨rest, h2, h⟩ := bind_ok.1 h
      have h := pure_ok.1 h
      cases rest with
      | none => cases h
      | some rest =>
        cases h
        intro ms hms
        rcases List.mem_cons.1 hms with rfl | hms
        · exact termMatches_in (hq q (by simp)) ht (by simp) h1
        · exact sumMatches_in ht (fun t h => hq t (by simp [h])) h2 ms hms

theorem pickMatch_in {qm : List (List (Str × Log))} : ∀ {ms : List (Str × Log)} {p : Str × Log}, pickMatch O qm ms = some p → p ∈ ms
  | [], _, h => by cases h
  | (s, m) :: r, p, h => by
    rw [pickMatch] at h
    split at h
    · cases h; simp
    · exact List.mem_cons_of_mem _ (pickMatch_in h)

theorem pickAll_mem {qm : List (List (Str × Log))} : ∀ {l : List (List (Str × Log))} {ps : List (Str × Log)}, pickAll O qm l = some ps →
    ∀ p ∈ ps, ∃ ms ∈ l, p ∈ ms
  | [], ps, h, p, hp => by cases h; cases hp
  | ms :: r, ps, h, p, hp => by
    rw [pickAll] at h
    split at h
    · cases h
    next p' h1 =>
      obtain ⟨ps', h2, rfl⟩ := Option.map_eq_some_iff.1 h
      rcases List.mem_cons.1 hp with rfl | hp
      · exact ⟨ms, by simp, pickMatch_in h1⟩
      · obtain ⟨ms', h3, h4⟩ := pickAll_mem h2 p hp
        exact ⟨ms', by simp [h3], h4⟩

theorem unaccounted_mem {C : Ctors} {acc : List Str} : ∀ {ts us : List Expr}, unaccounted C acc ts = .ok us → ∀ t ∈ us, t ∈ ts
  | [], _, h => by cases h; simp
  | t :: r, us, h => by
    rw [unaccounted] at h
    obtain ⟨s, h1, h⟩ := bind_ok.1 h
    obtain ⟨us', h2, h⟩ := bind_ok.1 h
    have h := pure_ok.1 h
    intro t' ht'
    rw [← h] at ht'
    split at ht'
    · exact List.mem_cons_of_mem _ (unaccounted_mem h2 t' ht')
    · rcases List.mem_cons.1 ht' with rfl | ht'
      · simp
      · exact List.mem_cons_of_mem _ (unaccounted_mem h2 t' ht')

theorem eqSum_in {ts qs : List Expr} {f i rest : Expr} (ht : ∀ t ∈ ts, In A t) (hq : ∀ q ∈ qs, In A q)
    (h : eqSum O (ctors O n) ts qs = .ok (some (f, i, rest))) : In A f ∧ In A i ∧ In A rest := by
  unfold eqSum at h
  split at h
  · cases h
  · split at h
    · cases h
    · obtain ⟨qm, h1, h⟩ := bind_ok.1 h
      split at h
      · cases pure_ok.1 h
      next qm =>
        obtain ⟨r, h2, h⟩ := bind_ok.1 h
        split at h
        · cases pure_ok.1 h
        next m rest' =>
          have h := pure_ok.1 h
          obtain ⟨⟨f', i'⟩, h3, h4⟩ := Option.map_eq_some_iff.1 h
          cases h4
          have hm := sumMatches_in ht hq h1
          unfold consolidate at h2
          split at h2
          · cases h2
          next ps hps =>
            obtain ⟨final, h5, h2⟩ := bind_ok.1 h2
            obtain ⟨-, -, h2⟩ := bind_ok.1 h2
            obtain ⟨us, h6, h2⟩ := bind_ok.1 h2
            obtain ⟨rest'', h7, h2⟩ := bind_ok.1 h2
            cases pure_ok.1 h2
            have hl : LogIn A (ps.flatMap (·.2)) := by
              intro p hp
              obtain ⟨q, hq, hp⟩ := List.mem_flatMap.1 hp
              obtain ⟨ms, h8, h9⟩ := pickAll_mem hps q hq
              exact hm ms h8 q h9 p hp
            have hf : LogIn A m := by
              unfold settleAssert at h5
              split at h5
              next m' hm' => cases h5; exact hl.settle hm'
              · cases h5
            obtain ⟨i1, i2⟩ := eqResult_in hf h3
            exact ⟨i1, i2, in_csum (fun t h => ht t (unaccounted_mem h6 t h)) h7⟩

/-! ### Pythagorean identities -/

theorem squareOf_in {fs : List TrigFn} {t i : Expr} (ht : In A t) (h : squareOf O fs t = some i) : In A i := by
  unfold squareOf at h
  split at h
  · split at h
    · cases h; exact in_trigI.1 (in_pow.1 ht).1
    · cases h
  · cases h

theorem squareFactor_in {fs : List TrigFn} {t : Expr} (ht : In A t) : ∀ {ts : List Expr} {p : Expr × Expr}, (∀ t ∈ ts, In A t) →
    squareFactor O (ctors O n) fs t ts = .ok (some p) → In A p.1 ∧ In A p.2
  | [], _, _, h => by cases h
  | f :: r, p, hf, h => by
    rw [squareFactor] at h
    split at h
    next i hi =>
      obtain ⟨c, h1, h⟩ := bind_ok.1 h
      cases pure_ok.1 h
      exact ⟨squareOf_in (hf f (by simp)) hi, in_div ht (hf f (by simp)) h1⟩
    · exact squareFactor_in ht (fun t h => hf t (by simp [h])) h

theorem thingSquared_in {fs : List TrigFn} {t : Expr} {p : Expr × Expr} (ht : In A t)
    (h : thingSquared O (ctors O n) fs t = .ok (some p)) : In A p.1 ∧ In A p.2 := by
  unfold thingSquared at h
  split at h
  next i hi => cases h; exact ⟨squareOf_in ht hi, in_rat 1⟩
  next =>
    split at h
    · exact squareFactor_in ht (in_prod.1 ht) h
    · cases h

theorem otherTerms_mem {C : Ctors} {both : List (Expr × Expr)} : ∀ {ts us : List Expr}, otherTerms O C both ts = .ok us → ∀ t ∈ us, t ∈ ts
  | [], _, h => by cases h; simp
  | t :: r, us, h => by
    rw [otherTerms] at h
    obtain ⟨o, h1, h⟩ := bind_ok.1 h
    obtain ⟨us', h2, h⟩ := bind_ok.1 h
    have h := pure_ok.1 h
    intro t' ht'
    have rec' := otherTerms_mem h2
    have : t' ∈ us' ∨ t' = t := by
      rw [← h] at ht'
      split at ht'
      · split at ht'
        · exact .inl ht'
        · rcases List.mem_cons.1 ht' with rfl | ht'
          · exact .inr rfl
          · exact .inl ht'
      · rcases List.mem_cons.1 ht' with rfl | ht'
        · exact .inr rfl
        · exact .inl ht'
    rcases this with h | rfl
    · exact List.mem_cons_of_mem _ (rec' t' h)
    · simp

theorem identities_in : ∀ p ∈ identities, ∀ q ∈ p.1, In A q := by
  intro p hp q hq s hs
  exfalso
  revert hs
  have : syms q = [] := by
    have key : identities.all (fun p => p.1.all fun q => (syms q).isEmpty) = true := by decide
    simpa using List.all_eq_true.1 (List.all_eq_true.1 key p hp) q hq
  rw [this]; simp

theorem tryIdentities_in {ts : List Expr} (ht : ∀ t ∈ ts, In A t) : ∀ {ids : List (List Expr × TrigFn)} {r : Expr},
    (∀ p ∈ ids, ∀ q ∈ p.1, In A q) → tryIdentities O n ts ids = .ok (.hit r) → In A r
  | [], _, _, h => by cases h
  | (qs, g) :: l, r, hid, h => by
    rw [tryIdentities] at h
    obtain ⟨k, h1, h⟩ := bind_ok.1 h
    split at h
    next f i rest =>
      obtain ⟨e, h2, h⟩ := bind_ok.1 h
      cases pure_ok.1 h
      obtain ⟨i1, i2, i3⟩ := eqSum_in ht (hid (qs, g) (by simp)) h1
      unfold applyIdentity at h2
      obtain ⟨t, h3, h2⟩ := bind_ok.1 h2
      obtain ⟨p, h4, h2⟩ := bind_ok.1 h2
      obtain ⟨m, h5, h2⟩ := bind_ok.1 h2
      exact in_add (in_mul i1 (in_opPow (in_trig i2 h3) (in_rat 2) h4) h5) i3 h2
    · exact tryIdentities_in ht (fun p h => hid p (by simp [h])) h

theorem pythPerf_in {e r : Expr} (he : In A e) (h : pythPerf O n e = .ok (.hit r)) : In A r := by
  unfold pythPerf at h
  split at h
  next ts =>
    have ht := in_sum.1 he
    split at h
    · cases h
    · split at h
      · cases h
      · obtain ⟨both, h1, h⟩ := bind_ok.1 h
        split at h
        · obtain ⟨us, h2, h⟩ := bind_ok.1 h
          obtain ⟨r', h3, h⟩ := bind_ok.1 h
          cases pure_ok.1 h
          refine in_csum (fun t ht' => ?_) h3
          rcases List.mem_append.1 ht' with ht' | ht'
          · exact ht t (otherTerms_mem h2 t ht')
          · obtain ⟨p, hp, rfl⟩ := List.mem_map.1 ht'
            unfold sinCosPairs at h1
            obtain ⟨s, h4, h1⟩ := bind_ok.1 h1
            obtain ⟨c, h5, h1⟩ := bind_ok.1 h1
            cases pure_ok.1 h1
            obtain ⟨o, ho, h6⟩ := List.mem_filterMap.1 (List.mem_filter.1 hp).1
            simp only [id] at h6; subst h6
            obtain ⟨t, ht1, ht2⟩ := mapR_mem' h4 _ ho
            exact (thingSquared_in (ht t ht1) ht2).2
        · exact tryIdentities_in ht identities_in h
  next => cases h

theorem pythagoreanSimplification_in {e r : Expr} (he : In A e) (h : pythagoreanSimplification O n e = .ok r) : In A r :=
  in_replaceE (fun _ _ _ he h => pythPerf_in he h) he h

/-! ### Fractions, reciprocals, combination -/

theorem fracTerm_in {b : Bool} {t : Expr} {p : (Expr × Expr) × Bool} (ht : In A t) (h : fracTerm O (ctors O n) b t = .ok p) :
    In A p.1.1 ∧ In A p.1.2 := by
  unfold fracTerm at h
  split at h
  · obtain ⟨⟨a, d⟩, h1, h⟩ := bind_ok.1 h
    cases pure_ok.1 h
    exact numDen_in (in_prod.1 ht) h1
  · split at h
    · obtain ⟨d, h1, h⟩ := bind_ok.1 h
      cases pure_ok.1 h
      exact ⟨in_rat 1, in_cpow (in_pow.1 ht).1 (in_rat _) h1⟩
    · cases h; exact ⟨ht, in_rat 1⟩
  · cases h; exact ⟨ht, in_rat 1⟩

theorem addDens_in : ∀ {l acc : List Expr}, (∀ t ∈ l, In A t) → (∀ t ∈ acc, In A t) → ∀ t ∈ addDens O acc l, In A t
  | [], _, _, ha => ha
  | f :: r, acc, hl, ha => by
    rw [addDens]
    refine addDens_in (fun t h => hl t (by simp [h])) (fun t ht => ?_)
    split at ht
    · exact ha t ht
    · rcases List.mem_append.1 ht with ht | ht
      · exact ha t ht
      · simp only [List.mem_singleton] at ht; subst ht; exact hl _ (by simp)

theorem oneFraction_in {b : Bool} {e r : Expr} (he : In A e) (h : oneFraction O (ctors O n) b e = .ok (some r)) : In A r := by
  unfold oneFraction at h
  split at h
  next ts =>
    obtain ⟨fs, h1, h⟩ := bind_ok.1 h
    split at h
    · cases pure_ok.1 h
    · obtain ⟨common, h2, h⟩ := bind_ok.1 h
      obtain ⟨nums, h3, h⟩ := bind_ok.1 h
      obtain ⟨s, h4, h⟩ := bind_ok.1 h
      obtain ⟨r', h5, h⟩ := bind_ok.1 h
      cases pure_ok.1 h
      have hf : ∀ p ∈ fs, In A p.1.1 ∧ In A p.1.2 := mapR_mem h1 fun t ht p hp => fracTerm_in (in_sum.1 he t ht) hp
      have hc : In A common := by
        refine in_cprod (addDens_in (fun t ht => ?_) (by simp)) h2
        obtain ⟨p, hp, ht⟩ := List.mem_flatMap.1 ht
        have h7 := (hf p hp).2
        unfold denFactors at ht
        split at ht
        next us hus => rw [hus] at h7; exact in_prod.1 h7 t ht
        · simp only [List.mem_singleton] at ht; subst ht; exact h7
      refine in_div (in_csum (mapR_mem h3 fun p hp t ht => ?_) h4) hc h5
      obtain ⟨a, h6, ht⟩ := bind_ok.1 ht
      exact in_div (in_mul (hf p hp).1 hc h6) (hf p hp).2 ht
  next => cases h; exact he

theorem recipPerf_in {e r : Expr} (he : In A e) (h : recipPerf O n e = .ok (.hit r)) : In A r := by
  unfold recipPerf at h
  split at h
  · split at h
    · split at h
      · obtain ⟨b, h1, h⟩ := bind_ok.1 h
        obtain ⟨r', h2, h⟩ := bind_ok.1 h
        cases pure_ok.1 h
        exact in_cpow (in_trig (in_trigI.1 (in_pow.1 he).1) h1) (in_rat _) h2
      · cases h
    · cases h
  · cases h

theorem pythComplexPerf_in {e r : Expr} (he : In A e) (h : pythComplexPerf O n e = .ok (.hit r)) : In A r := by
  have hA := adm_syms O A
  unfold pythComplexPerf at h
  split at h
  · obtain ⟨s, h1, h⟩ := bind_ok.1 h
    obtain ⟨k, h2, h⟩ := bind_ok.1 h
    have hs := hA.replaceClass (toSinCos_Q hA) n he h1
    split at h
    · cases pure_ok.1 h
    next t =>
      obtain ⟨r', h3, h⟩ := bind_ok.1 h
      split at h
      · obtain ⟨u, h4, h⟩ := bind_ok.1 h
        cases pure_ok.1 h
        exact in_replaceE (fun _ _ _ he h => recipPerf_in he h)
          (in_replaceE (fun _ _ _ he h => pythPerf_in he h) (oneFraction_in hs h2) h3) h4
      · cases pure_ok.1 h
  · cases h

theorem tryCombine_in {e : Expr} (he : In A e) : ∀ {l : List (Expr × TrigFn)} {r : Expr}, (∀ p ∈ l, In A p.1) →
    tryCombine O n e l = .ok (.hit r) → In A r
  | [], _, _, h => by cases h
  | (q, g) :: l, r, hq, h => by
    rw [tryCombine] at h
    obtain ⟨k, h1, h⟩ := bind_ok.1 h
    split at h
    · obtain ⟨t, h2, h⟩ := bind_ok.1 h
      obtain ⟨m, h3, h⟩ := bind_ok.1 h
      cases pure_ok.1 h
      obtain ⟨i1, i2⟩ := eqFactor_in he (hq (q, g) (by simp)) h1
      exact in_mul i1 (in_trig i2 h2) h3
    · exact tryCombine_in he (fun p h => hq p (by simp [h])) h

theorem combinePerf_in {e r : Expr} (he : In A e) (h : combinePerf O n e = .ok (.hit r)) : In A r := by
  unfold combinePerf at h
  split at h
  · refine tryCombine_in he (fun p hp => ?_) h
    intro s hs
    exfalso
    simp only [combineQueries, List.mem_cons, List.not_mem_nil, or_false] at hp
    rcases hp with rfl | rfl <;> simp [syms, symsL] at hs
  · cases h

/-! ### Product to sum -/

theorem ptsTerm_in {g : TrigFn} {p m : Bool} {a b c r : Expr} (ha : In A a) (hb : In A b) (hc : In A c)
    (h : ptsTerm O n g p m a b c = .ok r) : In A r := by
  unfold ptsTerm at h
  obtain ⟨i, h1, h⟩ := bind_ok.1 h
  obtain ⟨t, h2, h⟩ := bind_ok.1 h
  obtain ⟨t', h3, h⟩ := bind_ok.1 h
  have hi : In A i := by
    unfold ptsArg at h1
    split at h1
    · exact in_add ha hb h1
    · exact in_subt ha hb h1
  have ht' : In A t' := by
    unfold ptsSign at h3
    split at h3
    · exact in_neg (in_trig hi h2) h3
    · cases h3; exact in_trig hi h2
  exact in_mul ht' hc h

theorem ptsPair_in {a b : Expr} {mult : Option Expr} {us : List Expr} (ha : In A a) (hb : In A b) (hm : ∀ m, mult = some m → In A m)
    (h : ptsPair O n a b mult = .ok (some us)) : ∀ t ∈ us, In A t := by
  unfold ptsPair at h
  obtain ⟨c, h1, h⟩ := bind_ok.1 h
  have hc : In A c := by
    unfold ptsHalf at h1
    split at h1
    · cases h1; exact in_rat _
    · exact in_div (hm _ rfl) (in_rat 2) h1
  split at h
  all_goals first
    | (obtain ⟨x, h2, h⟩ := bind_ok.1 h
       obtain ⟨y, h3, h⟩ := bind_ok.1 h
       cases pure_ok.1 h
       intro t ht
       simp only [List.mem_cons, List.not_mem_nil, or_false] at ht
       rcases ht with rfl | rfl
       · exact ptsTerm_in (in_trigI.1 ha) (in_trigI.1 hb) hc h2
       · exact ptsTerm_in (in_trigI.1 ha) (in_trigI.1 hb) hc h3)
    | cases pure_ok.1 h

theorem ptsMerge_in : ∀ {rs : List (Option (List Expr))} {ts : List Expr}, (∀ us, some us ∈ rs → ∀ t ∈ us, In A t) →
    (∀ t ∈ ts, In A t) → ∀ t ∈ ptsMerge rs ts, In A t
  | [], ts, _, _ => by simp [ptsMerge]
  | none :: r, [], _, _ => by simp [ptsMerge]
  | some [] :: r, [], _, _ => by simp [ptsMerge]
  | some (u :: us) :: r, [], _, _ => by simp [ptsMerge]
  | none :: r, t :: ts, hr, ht => by
    simp only [ptsMerge]
    intro x hx
    rcases List.mem_cons.1 hx with rfl | hx
    · exact ht _ (by simp)
    · exact ptsMerge_in (fun us h => hr us (by simp [h])) (fun t h => ht t (by simp [h])) x hx
  | some [] :: r, t :: ts, hr, ht => by
    simp only [ptsMerge]
    intro x hx
    rcases List.mem_cons.1 hx with rfl | hx
    · exact ht _ (by simp)
    · exact ptsMerge_in (fun us h => hr us (by simp [h])) (fun t h => ht t (by simp [h])) x hx
  | some (u :: us) :: r, t :: ts, hr, ht => by
    simp only [ptsMerge]
    intro x hx
    rcases List.mem_append.1 hx with hx | hx
    · exact hr (u :: us) (by simp) x hx
    · exact ptsMerge_in (fun us h => hr us (by simp [h])) (fun t h => ht t (by simp [h])) x hx

theorem ptsList_in {unit : Expr → R (Option (List Expr))} (hu : ∀ e us, In A e → unit e = .ok (some us) → ∀ t ∈ us, In A t)
    {ts us : List Expr} {mult : Option Expr} (ht : ∀ t ∈ ts, In A t) (hm : ∀ m, mult = some m → In A m)
    (h : ptsList O (ctors O n) unit ts mult = .ok (some us)) : ∀ t ∈ us, In A t := by
  unfold ptsList at h
  obtain ⟨rs, h1, h⟩ := bind_ok.1 h
  split at h
  · cases pure_ok.1 h
  · obtain ⟨us', h2, h⟩ := bind_ok.1 h
    cases pure_ok.1 h
    have hg : ∀ t ∈ ptsMerge rs ts, In A t := by
      refine ptsMerge_in (fun us hus => ?_) ht
      obtain ⟨t, h3, h4⟩ := mapR_mem' h1 _ hus
      exact hu t us (ht t h3) h4
    unfold ptsScale at h2
    split at h2
    · cases h2; exact hg
    · split at h2
      · cases h2; exact hg
      · exact mapR_mem h2 fun t ht r hr => in_mul (hg t ht) (hm _ rfl) hr

theorem ptsInter_in {unit : Expr → R (Option (List Expr))} (hu : ∀ e us, In A e → unit e = .ok (some us) → ∀ t ∈ us, In A t)
    {o : Option (List Expr)} {us : List Expr} {m : Expr} (ht : ∀ ts, o = some ts → ∀ t ∈ ts, In A t) (hm : In A m)
    (h : ptsInter O (ctors O n) unit o m = .ok (some us)) : ∀ t ∈ us, In A t := by
  unfold ptsInter at h
  split at h
  · cases h
  · exact ptsList_in hu (ht _ rfl) (fun _ h => by cases h; exact hm) h

theorem constFactor_in {e s c : Expr} (he : In A e) (h : constFactor e = .ok (s, c)) : In A s ∧ In A c := by
  unfold constFactor at h
  split at h
  · obtain ⟨s', h1, h⟩ := bind_ok.1 h
    obtain ⟨c', h2, h⟩ := bind_ok.1 h
    cases pure_ok.1 h
    exact ⟨in_mkProdSkip (fun t ht => in_prod.1 he t (List.mem_filter.1 ht).1) h1,
      in_mkProdSkip (fun t ht => in_prod.1 he t (List.mem_filter.1 ht).1) h2⟩
  · cases h; exact ⟨he, in_rat 1⟩

theorem iterTerms_in {e : Expr} {ts : List Expr} (he : In A e) (h : iterTerms e = .ok ts) : ∀ t ∈ ts, In A t := by
  unfold iterTerms at h
  split at h
  · cases h; exact in_sum.1 he
  · cases h; exact in_prod.1 he
  · cases h

theorem ptsSum_in {o : Option (List Expr)} {r : Expr} (ho : ∀ ts, o = some ts → ∀ t ∈ ts, In A t)
    (h : ptsSum (ctors O n) o = .ok r) : In A r := by
  unfold ptsSum at h
  split at h
  · cases h
  · exact in_csum (ho _ rfl) h

theorem ptsTwo_in {unit : Expr → Option Expr → R (Option (List Expr))}
    (hu : ∀ e m us, In A e → (∀ x, m = some x → In A x) → unit e m = .ok (some us) → ∀ t ∈ us, In A t)
    {a b c : Expr} {us : List Expr} (ha : In A a) (hb : In A b) (hc : In A c)
    (h : ptsTwo O n unit a b c = .ok (some us)) : ∀ t ∈ us, In A t := by
  have hu' : ∀ e us, In A e → unit e none = .ok (some us) → ∀ t ∈ us, In A t := fun e us he h => hu e none us he (by simp) h
  unfold ptsTwo at h
  simp only at h
  split at h
  · exact ptsPair_in ha hb (fun _ h => by cases h; exact hc) h
  split at h
  · obtain ⟨m, h1, h⟩ := bind_ok.1 h
    exact ptsInter_in hu' (fun ts hts => by
      subst hts; exact hu b (some a) ts hb (fun _ h => by cases h; exact ha) h1) hc h
  split at h
  · obtain ⟨m, h1, h⟩ := bind_ok.1 h
    exact ptsInter_in hu' (fun ts hts => by
      subst hts; exact hu a (some b) ts ha (fun _ h => by cases h; exact hb) h1) hc h
  split at h
  · obtain ⟨ra, h1, h⟩ := bind_ok.1 h
    obtain ⟨rb, h2, h⟩ := bind_ok.1 h
    obtain ⟨sa, h3, h⟩ := bind_ok.1 h
    obtain ⟨sb, h4, h⟩ := bind_ok.1 h
    obtain ⟨p, h5, h⟩ := bind_ok.1 h
    obtain ⟨e, h6, h⟩ := bind_ok.1 h
    obtain ⟨ts, h7, h⟩ := bind_ok.1 h
    have ia := ptsSum_in (fun ts hts => by subst hts; exact hu' a ts ha h1) h3
    have ib := ptsSum_in (fun ts hts => by subst hts; exact hu' b ts hb h2) h4
    exact ptsList_in hu' (iterTerms_in (in_expand (in_mul ia ib h5) h6) h7) (fun _ h => by cases h; exact hc) h
  · cases h

theorem ptsMany_in {unit : Expr → Option Expr → R (Option (List Expr))}
    (hu : ∀ e m us, In A e → (∀ x, m = some x → In A x) → unit e m = .ok (some us) → ∀ t ∈ us, In A t)
    {ts us : List Expr} {c : Expr} (ht : ∀ t ∈ ts, In A t) (hc : In A c)
    (h : ptsMany O n unit ts c = .ok (some us)) : ∀ t ∈ us, In A t := by
  have hu' : ∀ e us, In A e → unit e none = .ok (some us) → ∀ t ∈ us, In A t := fun e us he h => hu e none us he (by simp) h
  unfold ptsMany at h
  simp only at h
  split at h
  · cases h
  split at h
  · obtain ⟨rs, h1, h⟩ := bind_ok.1 h
    obtain ⟨p, h2, h⟩ := bind_ok.1 h
    obtain ⟨e, h3, h⟩ := bind_ok.1 h
    obtain ⟨us', h4, h⟩ := bind_ok.1 h
    have hr : ∀ t ∈ rs, In A t := mapR_mem h1 fun t htm r hr => by
      obtain ⟨o, h5, hr⟩ := bind_ok.1 hr
      exact ptsSum_in (fun ts hts => by subst hts; exact hu' t ts (ht t (List.mem_filter.1 htm).1) h5) hr
    exact ptsList_in hu' (iterTerms_in (in_expand (in_cprod hr h2) h3) h4) (fun _ h => by cases h; exact hc) h
  · split at h
    · obtain ⟨m, h1, h⟩ := bind_ok.1 h
      obtain ⟨k, h2, h⟩ := bind_ok.1 h
      refine ptsPair_in (ht _ (by simp)) (ht _ (by simp)) (fun _ hk => ?_) h
      cases hk
      exact in_mul (in_mkProdSkip (fun t h => ht t (by simp [h])) h1) hc h2
    · cases h

theorem ptsUnit_in : ∀ (n : Nat) {e : Expr} {mult : Option Expr} {us : List Expr}, In A e → (∀ x, mult = some x → In A x) →
    ptsUnit O n e mult = .ok (some us) → ∀ t ∈ us, In A t
  | 0, _, _, _, _, _, h => by cases h
  | n + 1, e, mult, us, he, hm, h => by
    have hu : ∀ e m us, In A e → (∀ x, m = some x → In A x) → ptsUnit O n e m = .ok (some us) → ∀ t ∈ us, In A t :=
      fun e m us he hm h => ptsUnit_in n he hm h
    rw [ptsUnit] at h
    obtain ⟨⟨s, c0⟩, h1, h⟩ := bind_ok.1 h
    obtain ⟨c, h2, h⟩ := bind_ok.1 h
    obtain ⟨hs, hc0⟩ := constFactor_in he h1
    have hc : In A c := by
      unfold ptsConst at h2
      split at h2
      · cases h2; exact hc0
      · exact in_mul hc0 (hm _ rfl) h2
    split at h
    next a b _ => exact ptsTwo_in hu (in_prod.1 hs a (by simp)) (in_prod.1 hs b (by simp)) hc h
    next => exact ptsMany_in hu (in_prod.1 hs) hc h
    next b q _ =>
      have hb := (in_pow.1 hs).1
      split at h
      · unfold ptsPower at h
        split at h
        · exact ptsPair_in hb hb (fun _ h => by cases h; exact hc) h
        · obtain ⟨m, h3, h⟩ := bind_ok.1 h
          refine ptsInter_in (fun e us he h => hu e none us he (by simp) h) (fun ts hts => ?_) hc h
          subst hts
          refine ptsPair_in hb hb (fun _ h => ?_) h3
          cases h
          split
          · exact hb
          · exact in_pow.2 ⟨hb, in_rat _⟩
      · cases pure_ok.1 h
    next => cases pure_ok.1 h

theorem productToSumUnit_in {e r : Expr} (he : In A e) (h : productToSumUnit O n e = .ok (some r)) : In A r := by
  unfold productToSumUnit at h
  obtain ⟨o, h1, h⟩ := bind_ok.1 h
  split at h
  · cases pure_ok.1 h
  · obtain ⟨s, h2, h⟩ := bind_ok.1 h
    cases pure_ok.1 h
    exact in_csum (ptsUnit_in n he (by simp) h1) h2

theorem ptsPerf_in {e r : Expr} (he : In A e) (h : ptsPerf O n e = .ok (.hit r)) : In A r := by
  unfold ptsPerf at h
  split at h
  · obtain ⟨o, h1, h⟩ := bind_ok.1 h
    split at h
    · cases pure_ok.1 h
    · obtain ⟨r', h2, h⟩ := bind_ok.1 h
      have h := pure_ok.1 h
      split at h
      · cases h
        exact in_csum (ptsList_in (fun e us he h => ptsUnit_in n he (by simp) h) (in_sum.1 he) (by simp) h1) h2
      · cases h
  · cases h

/-! ### sec and tan, logarithms, all of it -/

theorem sectanSplit_in : ∀ {ts a b c : List Expr}, (∀ t ∈ ts, In A t) → sectanSplit ts = .ok (a, b, c) →
    (∀ t ∈ a, In A t) ∧ (∀ t ∈ b, In A t) ∧ ∀ t ∈ c, In A t
  | [], _, _, _, _, h => by cases h; simp
  | t :: r, a, b, c, ht, h => by
    rw [sectanSplit] at h
    obtain ⟨p, -, h⟩ := bind_ok.1 h
    obtain ⟨q, -, h⟩ := bind_ok.1 h
    obtain ⟨⟨s, u, w⟩, h1, h⟩ := bind_ok.1 h
    obtain ⟨i1, i2, i3⟩ := sectanSplit_in (fun t h => ht t (by simp [h])) h1
    have ih := ht t (by simp)
    have h := pure_ok.1 h
    split at h
    · cases h
      refine ⟨fun x hx => ?_, i2, i3⟩
      rcases List.mem_cons.1 hx with rfl | hx
      exacts [ih, i1 x hx]
    · split at h
      · cases h
        refine ⟨i1, fun x hx => ?_, i3⟩
        rcases List.mem_cons.1 hx with rfl | hx
        exacts [ih, i2 x hx]
      · cases h
        refine ⟨i1, i2, fun x hx => ?_⟩
        rcases List.mem_cons.1 hx with rfl | hx
        exacts [ih, i3 x hx]

theorem secToTan_in {e r : Expr} (he : In A e) (h : secToTan O n e = .ok (.hit r)) : In A r := by
  unfold secToTan at h
  split at h
  · split at h
    · obtain ⟨t, h1, h⟩ := bind_ok.1 h
      obtain ⟨p, h2, h⟩ := bind_ok.1 h
      obtain ⟨s, h3, h⟩ := bind_ok.1 h
      obtain ⟨r', h4, h⟩ := bind_ok.1 h
      cases pure_ok.1 h
      exact in_opPow (in_add (in_rat 1) (in_opPow (in_trig (in_trigI.1 (in_pow.1 he).1) h1) (in_rat 2) h2) h3) (in_rat _) h4
    · cases h
  · cases h

theorem sectanPerf_in {e r : Expr} (he : In A e) (h : sectanPerf O n e = .ok (.hit r)) : In A r := by
  unfold sectanPerf at h
  split at h
  · obtain ⟨⟨secs, tans, others⟩, h1, h⟩ := bind_ok.1 h
    obtain ⟨i1, i2, i3⟩ := sectanSplit_in (in_sum.1 he) h1
    simp only at h
    split at h
    · cases pure_ok.1 h
    · obtain ⟨news, h2, h⟩ := bind_ok.1 h
      obtain ⟨r', h3, h⟩ := bind_ok.1 h
      split at h
      · cases h
      · cases pure_ok.1 h
        refine in_csum (fun t ht => ?_) h3
        rcases List.mem_append.1 ht with ht | ht
        · rcases List.mem_append.1 ht with ht | ht
          · exact i2 t ht
          · obtain ⟨l, hl, ht⟩ := List.mem_flatten.1 ht
            obtain ⟨s, hs, h4⟩ := mapR_mem' h2 l hl
            unfold secTerms at h4
            obtain ⟨r1, h5, h4⟩ := bind_ok.1 h4
            obtain ⟨b, h6, h4⟩ := bind_ok.1 h4
            dsimp only at h4
            split at h4
            · obtain ⟨e', h7, h4⟩ := bind_ok.1 h4
              have he' : In A e' := in_expand (in_replaceE (fun _ _ _ he h => secToTan_in he h) (i1 s hs) h5) h7
              split at h4
              · cases pure_ok.1 h4; exact in_sum.1 he' t ht
              · cases h4
            · obtain ⟨e', h7, h4⟩ := bind_ok.1 h4
              cases h7
              have he' := i1 s hs
              split at h4
              · cases pure_ok.1 h4; exact in_sum.1 he' t ht
              · cases h4
        · exact i3 t ht
  · cases h

theorem firstRep_in {e r : Expr} : ∀ {ps : List (Expr → R Rep)}, (∀ p ∈ ps, p e = .ok (.hit r) → In A r) →
    firstRep ps e = .ok (.hit r) → In A r
  | [], _, h => by cases h
  | p :: ps, hp, h => by
    rw [firstRep] at h
    split at h
    · cases h
    · exact firstRep_in (fun q h => hp q (by simp [h])) h
    next o ho =>
      cases h
      exact hp p (by simp) (by assumption)

theorem trigPass1_in {e r : Expr} (he : In A e) (h : trigPass1 O n e = .ok (.hit r)) : In A r := by
  unfold trigPass1 withTrig at h
  split at h
  · refine firstRep_in (fun p hp h => ?_) h
    simp only [List.mem_cons, List.not_mem_nil, or_false] at hp
    rcases hp with rfl | rfl | rfl
    exacts [pythPerf_in he h, pythComplexPerf_in he h, recipPerf_in he h]
  · cases h

theorem trigPass2_in {e r : Expr} (he : In A e) (h : trigPass2 O n e = .ok (.hit r)) : In A r := by
  unfold trigPass2 withTrig at h
  split at h
  · refine firstRep_in (fun p hp h => ?_) h
    simp only [List.mem_cons, List.not_mem_nil, or_false] at hp
    rcases hp with rfl | rfl | rfl
    exacts [combinePerf_in he h, ptsPerf_in he h, sectanPerf_in he h]
  · cases h

theorem ln_in {e r : Expr} (he : In A e) (h : ln O e = .ok r) : In A r :=
  (adm_syms O A).plog he (adm_syms O A).eul h

theorem lnAbs_in {e r : Expr} (he : In A e) (h : lnAbs O (ctors O n) e = .ok r) : In A r := by
  unfold lnAbs at h
  obtain ⟨a, h1, h⟩ := bind_ok.1 h
  exact ln_in (in_cabs he h1) h

theorem sumLn_in {l : Expr → R Expr} (hl : ∀ {e r : Expr}, In A e → l e = .ok r → In A r) {ts : List Expr} {r : Expr}
    (ht : ∀ t ∈ ts, In A t) (h : sumLn (ctors O n) l ts = .ok r) : In A r := by
  unfold sumLn at h
  obtain ⟨ls, h1, h⟩ := bind_ok.1 h
  exact in_csum (mapR_mem h1 fun t htm r hr => hl (ht t htm) hr) h

theorem sumFactors_in {ts us : List Expr} (ht : ∀ t ∈ ts, In A t) (h : sumFactors (ctors O n) ts = .ok (some us)) :
    ∀ t ∈ us, In A t := by
  unfold sumFactors at h
  obtain ⟨f, h1, h⟩ := bind_ok.1 h
  have := factorSum_in ht h1
  split at h
  · cases pure_ok.1 h; exact in_prod.1 this
  · cases pure_ok.1 h

theorem logArg_in {i r : Expr} (hi : In A i) (h : logArg O n i = .ok r) : In A r := by
  have l1 : ∀ {e r : Expr}, In A e → ln O e = .ok r → In A r := fun he h => ln_in he h
  have l2 : ∀ {e r : Expr}, In A e → lnAbs O (ctors O n) e = .ok r → In A r := fun he h => lnAbs_in he h
  unfold logArg at h
  simp only at h
  split at h
  · obtain ⟨l, h1, h⟩ := bind_ok.1 h
    exact in_mul (ln_in (in_pow.1 hi).1 h1) (in_pow.1 hi).2 h
  · exact sumLn_in l1 (in_prod.1 hi) h
  · obtain ⟨k, h1, h⟩ := bind_ok.1 h
    split at h
    · exact sumLn_in l1 (sumFactors_in (in_sum.1 hi) h1) h
    · exact ln_in hi h
  · obtain ⟨t, h1, h⟩ := bind_ok.1 h
    obtain ⟨l, h2, h⟩ := bind_ok.1 h
    exact in_mul (in_rat _) (ln_in (in_trig (in_trigI.1 hi) h1) h2) h
  · obtain ⟨t, h1, h⟩ := bind_ok.1 h
    obtain ⟨l, h2, h⟩ := bind_ok.1 h
    exact in_mul (in_rat _) (ln_in (in_trig (in_trigI.1 hi) h1) h2) h
  · obtain ⟨t, h1, h⟩ := bind_ok.1 h
    obtain ⟨l, h2, h⟩ := bind_ok.1 h
    exact in_mul (in_rat _) (ln_in (in_trig (in_trigI.1 hi) h1) h2) h
  · obtain ⟨l, h1, h⟩ := bind_ok.1 h
    exact in_mul (lnAbs_in (in_pow.1 (in_absI.1 hi)).1 h1) (in_pow.1 (in_absI.1 hi)).2 h
  · exact sumLn_in l2 (in_prod.1 (in_absI.1 hi)) h
  · obtain ⟨k, h1, h⟩ := bind_ok.1 h
    split at h
    · exact sumLn_in l2 (sumFactors_in (in_sum.1 (in_absI.1 hi)) h1) h
    · exact ln_in hi h
  · exact ln_in hi h

theorem simplify_in {e r : Expr} (he : In A e) (h : simplifyE O n e = .ok r) : In A r := by
  unfold simplifyE at h
  obtain ⟨e1, h1, h⟩ := bind_ok.1 h
  obtain ⟨⟨e2, hit⟩, h2, h⟩ := bind_ok.1 h
  obtain ⟨e3, h3, h⟩ := bind_ok.1 h
  have i1 := in_expandOr he h1
  have i2 : In A e2 := by
    unfold trigPart at h2
    split at h2
    · unfold trigSimplify at h2
      obtain ⟨r1, h4, h2⟩ := bind_ok.1 h2
      obtain ⟨r2, h5, h2⟩ := bind_ok.1 h2
      cases pure_ok.1 h2
      exact in_replaceE (fun _ _ _ he h => trigPass2_in he h) (in_replaceE (fun _ _ _ he h => trigPass1_in he h) i1 h4) h5
    · cases h2; exact i1
  have i3 : In A e3 := by
    unfold logPart at h3
    split at h3
    · unfold expandLogs at h3
      obtain ⟨r, h4, h3⟩ := bind_ok.1 h3
      refine in_expandOr (in_replaceE (fun k e u he h => ?_) i2 h4) h3
      unfold logPerf at h
      split at h
      · obtain ⟨r, h5, h⟩ := bind_ok.1 h
        cases pure_ok.1 h
        exact logArg_in (in_log he).1 h5
      · cases h
    · cases h3; exact i2
  have h := pure_ok.1 h
  split at h
  · cases h; exact i3
  · split at h
    · cases h; exact i3
    · cases h; exact he

end Simpy
