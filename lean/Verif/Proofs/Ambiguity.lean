import Verif.Spec.Ambiguity
import Verif.Proofs.MatchSound

/-! # The assertions of `consolidate` hold if there is only one way to match -/

namespace Simpy
open Expr

variable {O : Oracle}

theorem bind_raises {α β : Type} {x : R α} {f : α → R β} {er : Err} (h : (x >>= f) = .error er) :
    x = .error er ∨ ∃ a, x = .ok a ∧ f a = .error er := by
  cases x with
  | error e => left; have h : (Except.error e : R β) = .error er := h; cases h; rfl
  | ok a => exact .inr ⟨a, rfl, h⟩

theorem Log.mem_at {l : Log} {k : Str} {v : Expr} : v ∈ Log.at l k ↔ (k, v) ∈ l := by
  unfold Log.at
  simp only [List.mem_map, List.mem_filter, beq_iff_eq]
  constructor
  · rintro ⟨⟨k', v'⟩, ⟨h, rfl⟩, rfl⟩
    exact h
  · intro h
    exact ⟨(k, v), ⟨h, rfl⟩, rfl⟩

theorem matchesEq_iff {x y : Log} : matchesEq O x y = true ↔ Agree O y x := by
  unfold matchesEq Agree
  simp only [Bool.and_eq_true, List.all_eq_true, Log.mem_at]
  constructor
  · rintro ⟨h1, -⟩ k a b ha hb
    exact h1 (k, b) hb a ha
  · intro h
    exact ⟨fun p hp v hv => h p.1 v p.2 hv hp, fun p hp v hv => h p.1 p.2 v hp hv⟩

theorem allSame_of {l : List Expr} (h : ∀ a ∈ l, ∀ b ∈ l, beq O a b = true) : allSame O l = true := by
  induction l with
  | nil => rfl
  | cons a r ih =>
    cases r with
    | nil => rfl
    | cons b r =>
      simp only [allSame, Bool.and_eq_true]
      exact ⟨h a (by simp) b (by simp), ih fun x hx y hy => h x (by simp at hx ⊢; tauto) y (by simp at hy ⊢; tauto)⟩

/-- Entries that agree with each other settle, and what is settled on is among them. -/
theorem settle_of_agree {l : Log} (h : Agree O l l) : ∃ m, settle O l = some m ∧ ∀ p ∈ m, p ∈ l := by
  unfold settle
  rw [if_pos]
  · refine ⟨_, rfl, ?_⟩
    rintro ⟨k, v⟩ hp
    obtain ⟨k', -, hk⟩ := List.mem_filterMap.1 hp
    cases hh : (Log.at l k').head? with
    | none => rw [hh] at hk; cases hk
    | some w =>
      rw [hh] at hk
      simp only [Option.map_some, Option.some.injEq, Prod.mk.injEq] at hk
      obtain ⟨rfl, rfl⟩ := hk
      exact Log.mem_at.1 (List.mem_of_mem_head? hh)
  · refine List.all_eq_true.2 fun k _ => allSame_of fun a ha b hb => ?_
    exact h k a b (Log.mem_at.1 ha) (Log.mem_at.1 hb)

theorem pickMatch_fits {qm : List (List (Str × Log))} : ∀ {M : List (Str × Log)} {p : Str × Log}, pickMatch O qm M = some p →
    p ∈ M ∧ ∀ ms ∈ qm, ∃ q ∈ ms, Agree O p.2 q.2
  | (s, m) :: r, p, h => by
    unfold pickMatch at h
    split at h
    · rename_i hc
      cases h
      refine ⟨by simp, fun ms hms => ?_⟩
      obtain ⟨q, hq, he⟩ := List.any_eq_true.1 (List.all_eq_true.1 hc ms hms)
      exact ⟨q, hq, matchesEq_iff.1 he⟩
    · obtain ⟨h1, h2⟩ := pickMatch_fits h
      exact ⟨by simp [h1], h2⟩

theorem pickAll_fits {qm : List (List (Str × Log))} : ∀ {Ms : List (List (Str × Log))} {ps : List (Str × Log)},
    pickAll O qm Ms = some ps → (∀ p ∈ ps, ∃ M ∈ Ms, p ∈ M ∧ ∀ ms ∈ qm, ∃ q ∈ ms, Agree O p.2 q.2) ∧
      ∀ M ∈ Ms, ∃ p ∈ ps, p ∈ M
  | [], ps, h => by
    simp only [pickAll] at h
    cases h
    simp
  | M :: R, ps, h => by
    unfold pickAll at h
    split at h
    · cases h
    · rename_i p hp
      cases hr : pickAll O qm R with
      | none => rw [hr] at h; cases h
      | some r =>
        rw [hr] at h
        simp only [Option.map_some, Option.some.injEq] at h
        subst h
        obtain ⟨i1, i2⟩ := pickAll_fits hr
        obtain ⟨j1, j2⟩ := pickMatch_fits hp
        refine ⟨fun x hx => ?_, fun N hN => ?_⟩
        · rcases List.mem_cons.1 hx with rfl | hx
          · exact ⟨M, by simp, j1, j2⟩
          · obtain ⟨N, hN, h⟩ := i1 x hx
            exact ⟨N, by simp [hN], h⟩
        · rcases List.mem_cons.1 hN with rfl | hN
          · exact ⟨p, by simp, j1⟩
          · obtain ⟨x, hx, h⟩ := i2 N hN
            exact ⟨x, by simp [hx], h⟩

theorem termMatches_quiet {C : Ctors} {q : Expr} {er : Err} : ∀ {ts : List Expr} {acc : List (Str × Log)},
    (∀ t ∈ ts, eqCall O C t q ≠ .error er) → (∀ t ∈ ts, C.repr t ≠ .error er) → termMatches O C q acc ts ≠ .error er
  | [], _, _, _ => by simp [termMatches]
  | t :: r, acc, h1, h2 => by
    have i : ∀ acc, termMatches O C q acc r ≠ .error er := fun acc =>
      termMatches_quiet (fun t ht => h1 t (by simp [ht])) fun t ht => h2 t (by simp [ht])
    intro h
    unfold termMatches at h
    rcases bind_raises h with h | ⟨o, -, h⟩
    · exact h1 t (by simp) h
    · cases o with
      | none => exact i _ h
      | some l =>
        rcases bind_raises h with h | ⟨s, -, h⟩
        · exact h2 t (by simp) h
        · exact i _ h

theorem sumMatches_quiet {C : Ctors} {ts : List Expr} {er : Err} (h2 : ∀ t ∈ ts, C.repr t ≠ .error er) : ∀ {qs : List Expr},
    (∀ q ∈ qs, ∀ t ∈ ts, eqCall O C t q ≠ .error er) → sumMatches O C ts qs ≠ .error er
  | [], _ => by simp [sumMatches]
  | q :: r, h1 => by
    intro h
    unfold sumMatches at h
    rcases bind_raises h with h | ⟨m, -, h⟩
    · exact termMatches_quiet (h1 q (by simp)) h2 h
    · split at h
      · cases h
      · rcases bind_raises h with h | ⟨o, -, h⟩
        · exact sumMatches_quiet h2 (fun q hq => h1 q (by simp [hq])) h
        · cases h

theorem unaccounted_quiet {C : Ctors} {acc : List Str} {er : Err} : ∀ {ts : List Expr}, (∀ t ∈ ts, C.repr t ≠ .error er) →
    unaccounted C acc ts ≠ .error er
  | [], _ => by simp [unaccounted]
  | t :: r, h1 => by
    intro h
    unfold unaccounted at h
    rcases bind_raises h with h | ⟨s, -, h⟩
    · exact h1 t (by simp) h
    · rcases bind_raises h with h | ⟨us, -, h⟩
      · exact unaccounted_quiet (fun t ht => h1 t (by simp [ht])) h
      · cases h

theorem unaccounted_sub {C : Ctors} {acc : List Str} : ∀ {ts us : List Expr}, unaccounted C acc ts = .ok us → us.Sublist ts
  | [], us, h => by
    simp only [unaccounted] at h
    cases h
    exact List.Sublist.refl _
  | t :: r, us, h => by
    unfold unaccounted at h
    obtain ⟨s, -, h⟩ := bind_ok.1 h
    obtain ⟨vs, hv, h⟩ := bind_ok.1 h
    have h := pure_ok.1 h
    have i := unaccounted_sub hv
    split at h
    · subst h
      exact i.cons t
    · subst h
      exact i.cons₂ t

theorem sumMatches_mem {C : Ctors} {ts : List Expr} : ∀ {qs : List Expr} {qm : List (List (Str × Log))},
    sumMatches O C ts qs = .ok (some qm) →
      (∀ M ∈ qm, ∃ q ∈ qs, termMatches O C q [] ts = .ok M) ∧ ∀ q ∈ qs, ∃ M ∈ qm, termMatches O C q [] ts = .ok M
  | [], qm, h => by
    simp only [sumMatches] at h
    cases h
    simp
  | q :: r, qm, h => by
    obtain ⟨M, R, rfl, hM, hR⟩ := sumMatches_cons h
    obtain ⟨i1, i2⟩ := sumMatches_mem hR
    refine ⟨fun N hN => ?_, fun x hx => ?_⟩
    · rcases List.mem_cons.1 hN with rfl | hN
      · exact ⟨q, by simp, hM⟩
      · obtain ⟨x, hx, h⟩ := i1 N hN
        exact ⟨x, by simp [hx], h⟩
    · rcases List.mem_cons.1 hx with rfl | hx
      · exact ⟨M, by simp, hM⟩
      · obtain ⟨N, hN, h⟩ := i2 x hx
        exact ⟨N, by simp [hN], h⟩

/-- `consolidate` does not fail its own assertions. -/
theorem consolidate_quiet {C : Ctors} {ts qs : List Expr} {qm : List (List (Str × Log))} (h1 : OneWay O C ts qs)
    (hm : sumMatches O C ts qs = .ok (some qm)) (h2 : ∀ t ∈ ts, C.repr t ≠ .error .assertion)
    (h3 : ∀ us, us.Sublist ts → C.sum us ≠ .error .assertion) : consolidate O C qm ts ≠ .error .assertion := by
  obtain ⟨m1, m2⟩ := sumMatches_mem hm
  intro h
  unfold consolidate at h
  split at h
  · cases h
  rename_i ps hps
  obtain ⟨p1, p2⟩ := pickAll_fits hps
  have fits : ∀ p ∈ ps, ∃ q ∈ qs, Fits O C ts qs q p.2 := by
    intro p hp
    obtain ⟨M, hM, hpM, ha⟩ := p1 p hp
    obtain ⟨q, hq, hQ⟩ := m1 M hM
    obtain ⟨t, ht, -, hc⟩ := (termMatches_mem hQ p hpM).resolve_left (by simp)
    refine ⟨q, hq, ⟨t, ht, hc⟩, fun q' hq' => ?_⟩
    obtain ⟨M', hM', hQ'⟩ := m2 q' hq'
    obtain ⟨p', hp', hA⟩ := ha M' hM'
    obtain ⟨t', ht', -, hc'⟩ := (termMatches_mem hQ' p' hp').resolve_left (by simp)
    exact ⟨t', ht', p'.2, hc', hA⟩
  have agree : ∀ p ∈ ps, ∀ p' ∈ ps, Agree O p.2 p'.2 := by
    intro p hp p' hp'
    obtain ⟨q, hq, hf⟩ := fits p hp
    obtain ⟨q', hq', hf'⟩ := fits p' hp'
    exact h1 q hq q' hq' _ _ hf hf'
  have all : Agree O (ps.flatMap (·.2)) (ps.flatMap (·.2)) := by
    intro k a b ha hb
    obtain ⟨p, hp, ha⟩ := List.mem_flatMap.1 ha
    obtain ⟨p', hp', hb⟩ := List.mem_flatMap.1 hb
    exact agree p hp p' hp' k a b ha hb
  obtain ⟨final, hf, hmem⟩ := settle_of_agree all
  have hs : settleAssert O (ps.flatMap (·.2)) = .ok final := by unfold settleAssert; rw [hf]
  have ha : (qm.all fun ms => ms.any fun p => matchesEq O p.2 final) = true := by
    refine List.all_eq_true.2 fun M hM => List.any_eq_true.2 ?_
    obtain ⟨p, hp, hpM⟩ := p2 M hM
    refine ⟨p, hpM, matchesEq_iff.2 fun k a b ha hb => ?_⟩
    exact all k a b (hmem _ ha) (List.mem_flatMap.2 ⟨p, hp, hb⟩)
  rcases bind_raises h with h | ⟨f, hf', h⟩
  · rw [hs] at h
    cases h
  · rw [hs] at hf'
    cases hf'
    rcases bind_raises h with h | ⟨-, -, h⟩
    · rw [ha] at h
      cases h
    · rcases bind_raises h with h | ⟨us, hu, h⟩
      · exact unaccounted_quiet h2 h
      · rcases bind_raises h with h | ⟨r, -, h⟩
        · exact h3 us (unaccounted_sub hu) h
        · cases h

end Simpy
