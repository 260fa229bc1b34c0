import Verif.Proofs.Adm

/-! # `expand` and `numerator_denominator` preserve admissible predicates -/

namespace Simpy
open Expr

/-- `Q`, or a product of `Q`s (what `numerator_denominator` returns). -/
def Kid (Q : Expr → Prop) : Expr → Prop
  | prod ts => ∀ t ∈ ts, Q t
  | t => Q t

section
variable {O : Oracle} {Q : Expr → Prop} (hQ : AdmE O Q)
include hQ

theorem AdmE.kid {e : Expr} (h : Q e) : Kid Q e := by
  cases e <;> first | exact h | exact hQ.prod h

theorem mkProdSkip_kid {ts : List Expr} {r : Expr} (h : mkProdSkip ts = .ok r) (hts : ∀ t ∈ ts, Q t) : Kid Q r := by
  match ts, h with
  | [], h => simp only [mkProdSkip, Except.ok.injEq] at h; subst h; exact hQ.rat 1
  | [t], h =>
    simp only [mkProdSkip] at h
    split at h
    · simp at h
    · simp only [Except.ok.injEq] at h; subst h; exact hQ.kid (hts t (by simp))
  | a :: b :: ts, h =>
    simp only [mkProdSkip, Except.ok.injEq] at h; subst h
    exact hts

theorem AdmE.deconPow {t : Expr} (h : Q t) : Q (deconPow t).1 ∧ Q (deconPow t).2 := by
  cases t <;> simp only [Simpy.deconPow] <;> first | exact hQ.pow h | exact ⟨h, hQ.rat 1⟩

theorem AdmE.numDenTerm {n : Nat} {t : Expr} {p : List Expr × List Expr} (hqt : Q t)
    (hh : numDenTerm O (ctors O n) t = .ok p) : (∀ u ∈ p.1, Q u) ∧ (∀ u ∈ p.2, Q u) := by
  unfold Simpy.numDenTerm at hh
  obtain ⟨q1, q2⟩ := hQ.deconPow hqt
  split at hh
  · simp only [Except.ok.injEq] at hh; subst hh
    dsimp only
    constructor <;> intro u hu <;> split at hu <;> simp at hu <;> subst hu <;> exact hQ.rat _
  · split at hh
    · split at hh
      · simp only [Except.ok.injEq] at hh; subst hh; simp [q1]
      · obtain ⟨nx, hnx, hh⟩ := bind_ok.1 hh
        obtain ⟨p', hp, hh⟩ := bind_ok.1 hh
        simp only [pure_ok] at hh; subst hh
        simp [(hQ.pres n).pow _ _ _ q1 (hQ.opNeg q2 hnx) hp]
    · simp only [Except.ok.injEq] at hh; subst hh; simp [hqt]

theorem AdmE.numDenLoop {n : Nat} : ∀ (ts : List Expr) {a b : List Expr}, (∀ t ∈ ts, Q t) →
    numDenLoop O (ctors O n) ts = .ok (a, b) → (∀ t ∈ a, Q t) ∧ (∀ t ∈ b, Q t)
  | [], a, b, _, h => by
    simp only [Simpy.numDenLoop, Except.ok.injEq, Prod.mk.injEq] at h
    obtain ⟨rfl, rfl⟩ := h; simp
  | t :: ts, a, b, ht, h => by
    simp only [Simpy.numDenLoop] at h
    obtain ⟨here, hh, h⟩ := bind_ok.1 h
    obtain ⟨⟨n', d'⟩, hr, h⟩ := bind_ok.1 h
    simp only [pure_ok, Prod.mk.injEq] at h
    obtain ⟨rfl, rfl⟩ := h
    obtain ⟨i1, i2⟩ := AdmE.numDenLoop ts (fun u hu => ht u (by simp [hu])) hr
    have key : (∀ u ∈ here.1, Q u) ∧ (∀ u ∈ here.2, Q u) := by
      have hqt := ht t (by simp)
      exact hQ.numDenTerm hqt hh
    constructor
    · intro u hu; rcases List.mem_append.1 hu with hu | hu
      · exact key.1 u hu
      · exact i1 u hu
    · intro u hu; rcases List.mem_append.1 hu with hu | hu
      · exact key.2 u hu
      · exact i2 u hu

theorem AdmE.numDen {n : Nat} {ts : List Expr} {a b : Expr} (ht : ∀ t ∈ ts, Q t)
    (h : numDen O (ctors O n) ts = .ok (a, b)) : Kid Q a ∧ Kid Q b := by
  unfold Simpy.numDen at h
  obtain ⟨⟨n', d'⟩, hr, h⟩ := bind_ok.1 h
  obtain ⟨ne, h1, h⟩ := bind_ok.1 h
  obtain ⟨de, h2, h⟩ := bind_ok.1 h
  simp only [pure_ok, Prod.mk.injEq] at h
  obtain ⟨rfl, rfl⟩ := h
  obtain ⟨i1, i2⟩ := hQ.numDenLoop ts ht hr
  exact ⟨mkProdSkip_kid hQ h1 i1, mkProdSkip_kid hQ h2 i2⟩

theorem AdmE.recipTerms {n : Nat} {d : Expr} {ds : List Expr} (hd : Kid Q d)
    (h : recipTerms (ctors O n) d = .ok ds) : ∀ t ∈ ds, Q t := by
  have gen : ∀ d, Q d → (do let p ← (ctors O n).pow d (Expr.rat (-1)); return [p] : R (List Expr)) = .ok ds →
      ∀ t ∈ ds, Q t := by
    intro d hd h
    obtain ⟨p, hp, h⟩ := bind_ok.1 h
    simp only [pure_ok] at h; subst h
    simp [(hQ.pres n).pow _ _ _ hd (hQ.rat _) hp]
  cases d with
  | prod us =>
    simp only [Simpy.recipTerms] at h
    refine mapR_mem h ?_
    intro t ht u hu
    have qt := hd t ht
    cases t with
    | pow b x =>
      simp only [recipTerm] at hu
      obtain ⟨nx, hnx, hu⟩ := bind_ok.1 hu
      exact (hQ.pres n).pow _ _ _ (hQ.pow qt).1 (hQ.opNeg (hQ.pow qt).2 hnx) hu
    | _ => simp only [recipTerm] at hu; exact (hQ.pres n).pow _ _ _ qt (hQ.rat _) hu
  | _ => exact gen _ hd h

omit hQ in
theorem cartesian_mem : ∀ {ls : List (List Expr)} {c : List Expr}, c ∈ cartesian ls →
    List.Forall₂ (fun l a => a ∈ l) ls c
  | [], c, h => by simp only [cartesian, List.mem_singleton] at h; subst h; exact .nil
  | l :: ls, c, h => by
    simp only [cartesian, List.mem_flatMap, List.mem_map] at h
    obtain ⟨a, ha, as, has, rfl⟩ := h
    exact .cons ha (cartesian_mem has)

theorem AdmE.expandE : ∀ (n : Nat) {e r : Expr}, Kid Q e → expandE O n e = .ok r → Q r
  | 0, e, r, _, h => by simp [Simpy.expandE] at h
  | n + 1, e, r, he, h => by
    have ih := fun {e r : Expr} => AdmE.expandE n (e := e) (r := r)
    have ihK : ∀ {t r : Expr}, Kid Q t → expandOr (expandableE O n) (Simpy.expandE O n) t = .ok r → Kid Q r := by
      intro t r ht h
      unfold expandOr at h
      obtain ⟨b, _, h⟩ := bind_ok.1 h
      split at h
      · exact hQ.kid (ih ht h)
      · simp only [pure_ok] at h; subst h; exact ht
    have ihQ : ∀ {t r : Expr}, Q t → expandOr (expandableE O n) (Simpy.expandE O n) t = .ok r → Q r := by
      intro t r ht h
      unfold expandOr at h
      obtain ⟨b, _, h⟩ := bind_ok.1 h
      split at h
      · exact ih (hQ.kid ht) h
      · simp only [pure_ok] at h; subst h; exact ht
    cases e with
    | sum ts =>
      simp only [Simpy.expandE] at h
      obtain ⟨b, _, h⟩ := bind_ok.1 h
      obtain ⟨_, _, h⟩ := bind_ok.1 h
      obtain ⟨us, hus, h⟩ := bind_ok.1 h
      exact (hQ.pres n).sum _ _ (mapR_mem hus fun t ht u hu => ihQ (hQ.sum he t ht) hu) h
    | prod ts =>
      simp only [Simpy.expandE] at h
      obtain ⟨b, _, h⟩ := bind_ok.1 h
      obtain ⟨_, _, h⟩ := bind_ok.1 h
      obtain ⟨⟨num, den⟩, hnd, h⟩ := bind_ok.1 h
      obtain ⟨den', hd', h⟩ := bind_ok.1 h
      obtain ⟨ds, hds, h⟩ := bind_ok.1 h
      obtain ⟨kn, kd⟩ := hQ.numDen (n := n) he hnd
      have qds := hQ.recipTerms (ihK kd hd') hds
      have fin : ∀ (num : Expr), Kid Q num → (do
          let num' ← expandOr (expandableE O n) (Simpy.expandE O n) num
          match num' with
          | Expr.sum ws => do
            let ps ← mapR (fun c => (ctors O n).prod (c ++ ds)) (cartesian [ws])
            (ctors O n).sum ps
          | _ => (ctors O n).prod (num' :: ds)) = .ok r → Q num → Q r := by
        intro num kn h qn
        obtain ⟨num', hn', h⟩ := bind_ok.1 h
        have qn' := ihQ qn hn'
        have gen : (ctors O n).prod (num' :: ds) = .ok r → Q r := fun h =>
          (hQ.pres n).prod _ _ (by
            intro u hu; rcases List.mem_cons.1 hu with rfl | hu
            · exact qn'
            · exact qds u hu) h
        cases num' with
        | sum ws =>
          simp only at h
          obtain ⟨ps, hps, h⟩ := bind_ok.1 h
          refine (hQ.pres n).sum _ _ (mapR_mem hps ?_) h
          intro c hc p hp
          refine (hQ.pres n).prod _ _ ?_ hp
          intro u hu; rcases List.mem_append.1 hu with hu | hu
          · obtain ⟨l, hl, hul⟩ := forall₂_mem (P := fun u => ∃ l ∈ [ws], u ∈ l) (cartesian_mem hc)
              (fun l hl a ha => ⟨l, hl, ha⟩) u hu
            simp only [List.mem_singleton] at hl; subst hl
            exact hQ.sum qn' u hul
          · exact qds u hu
        | _ => exact gen h
      cases num with
      | prod us =>
        simp only at h
        obtain ⟨es, hes, h⟩ := bind_ok.1 h
        have qes : ∀ t ∈ es, Q t := mapR_mem hes fun t ht u hu => ihQ (kn t ht) hu
        split at h
        · refine (hQ.pres n).prod _ _ ?_ h
          intro u hu; rcases List.mem_append.1 hu with hu | hu
          · exact qes u (List.mem_filter.1 hu).1
          · exact qds u hu
        · obtain ⟨ps, hps, h⟩ := bind_ok.1 h
          refine (hQ.pres n).sum _ _ (mapR_mem hps ?_) h
          intro c hc p hp
          refine (hQ.pres n).prod _ _ ?_ hp
          intro u hu
          rcases List.mem_append.1 hu with hu | hu
          · rcases List.mem_append.1 hu with hu | hu
            · exact qes u (List.mem_filter.1 hu).1
            · obtain ⟨l, hl, hul⟩ := forall₂_mem (P := fun u => ∃ l ∈ (es.filterMap
                sumTerms), u ∈ l) (cartesian_mem hc)
                (fun l hl a ha => ⟨l, hl, ha⟩) u hu
              obtain ⟨t, ht, htl⟩ := List.mem_filterMap.1 hl
              cases t <;> simp [sumTerms] at htl
              subst htl
              exact hQ.sum (qes _ ht) u hul
          · exact qds u hu
      | _ => exact fin _ kn h kn
    | pow b x =>
      simp only [Simpy.expandE] at h
      obtain ⟨a, _, h⟩ := bind_ok.1 h
      obtain ⟨_, _, h⟩ := bind_ok.1 h
      obtain ⟨b', hb, h⟩ := bind_ok.1 h
      obtain ⟨x', hx, h⟩ := bind_ok.1 h
      obtain ⟨new, hnew, h⟩ := bind_ok.1 h
      obtain ⟨qb, qx⟩ := hQ.pow he
      have qn := (hQ.pres n).pow _ _ _ (ihQ qb hb) (ihQ qx hx) hnew
      split at h
      · next ws q =>
        split at h
        · obtain ⟨ps, hps, h⟩ := bind_ok.1 h
          obtain ⟨s, hs, h⟩ := bind_ok.1 h
          have qws := hQ.sum (hQ.pow qn).1
          refine hQ.opPow ((hQ.pres n).sum _ _ (mapR_mem hps ?_) hs) (hQ.rat _) h
          intro perm _ p hp
          unfold multinomialTerm at hp
          obtain ⟨c, _, hp⟩ := bind_ok.1 hp
          obtain ⟨zs, hzs, hp⟩ := bind_ok.1 hp
          have qzs : ∀ z ∈ zs, Q z := mapR_mem hzs fun tp htp z hz =>
            (hQ.pres n).pow _ _ _ (qws _ (List.of_mem_zip htp).1) (hQ.rat _) hz
          cases c with
          | int m =>
            refine (hQ.pres n).prod _ _ ?_ hp
            intro u hu; rcases List.mem_cons.1 hu with rfl | hu
            · exact hQ.rat _
            · exact qzs u hu
          | message => simp at hp
        · simp only [pure_ok] at h; subst h; exact qn
      · simp only [pure_ok] at h; subst h; exact qn
    | log i b =>
      simp only [Simpy.expandE] at h
      obtain ⟨a, _, h⟩ := bind_ok.1 h
      obtain ⟨_, _, h⟩ := bind_ok.1 h
      obtain ⟨i', hi, h⟩ := bind_ok.1 h
      exact hQ.rlog he (ih (hQ.kid (hQ.log he).1) hi) h
    | trig f i =>
      simp only [Simpy.expandE] at h
      obtain ⟨a, _, h⟩ := bind_ok.1 h
      obtain ⟨_, _, h⟩ := bind_ok.1 h
      obtain ⟨i', hi, h⟩ := bind_ok.1 h
      exact hQ.rtrig n he (ih (hQ.kid (hQ.trig he)) hi) h
    | absv i =>
      simp only [Simpy.expandE] at h
      obtain ⟨a, _, h⟩ := bind_ok.1 h
      obtain ⟨_, _, h⟩ := bind_ok.1 h
      obtain ⟨i', hi, h⟩ := bind_ok.1 h
      exact (hQ.pres n).abs _ _ (ih (hQ.kid (hQ.absv he)) hi) h
    | _ => simp [Simpy.expandE] at h

end
end Simpy
