import Verif.Spec.Backward

/-! `_go_backwards` keeps the stored solutions correct. -/

namespace Simpy
open Expr
namespace Node

variable {O : Oracle} {n : Nat} {Safe : Str → Expr → Expr → Prop}

theorem solutions_ok : ∀ {cs : List Node} {ss : List Expr}, solutions cs = .ok ss →
    ss.length = cs.length ∧ ∀ (j : Nat) (S : Expr), ss[j]? = some S → ∃ c : Node, cs[j]? = some c ∧ c.sol = some S
  | [], ss, h => by simp only [solutions, Except.ok.injEq] at h; subst h; simp
  | c :: r, ss, h => by
    rw [solutions] at h
    cases hs : c.sol with
    | none => simp [hs] at h
    | some s =>
      simp only [hs] at h
      cases hr : solutions r with
      | error er => simp [hr] at h
      | ok ss' =>
        simp only [hr, Except.ok.injEq] at h
        subst h
        obtain ⟨h1, h2⟩ := solutions_ok hr
        refine ⟨by simp [h1], fun j S hj => ?_⟩
        cases j with
        | zero => simp only [List.getElem?_cons_zero, Option.some.injEq] at hj; subst hj; exact ⟨c, by simp, hs⟩
        | succ j => simpa using h2 j S (by simpa using hj)

theorem walk_ok : ∀ (p : List Nat) {t t' : Node} {up : Bool} {l : List (Str × Expr × Expr)} {P : List Nat → Expr → Prop}
    {W : List Nat → Prop}, (∀ q, q <+: p → q ≠ [] → W q) →
    SolsOk P t → StepsSound O n Safe P W t → walk O n p t = .ok (t', up, l) → (∀ u q S, (u, q, S) ∈ l → Safe u q S) →
    SolsOk P t' ∧ StepsSound O n Safe P W t' ∧ t'.var = t.var ∧ t'.tr = t.tr
  | [], t, t', up, l, P, W, hW, hs, he, h, _ => by
    simp only [walk, Except.ok.injEq, Prod.mk.injEq] at h
    obtain ⟨rfl, -, -⟩ := h
    exact ⟨hs, he, rfl, rfl⟩
  | i :: p, mk e v tr ty s f cs, t', up, l, P, W, hW, hs, he, h, hl => by
    rw [walk] at h
    have hWc : ∀ q, q <+: p → q ≠ [] → W (i :: q) := fun q hq _ => hW _ (by simpa using hq) (by simp)
    have hWi : W [i] := hW _ (by simp) (by simp)
    cases hc : cs[i]? with
    | none => simp [hc] at h
    | some c =>
      simp only [hc] at h
      have hi : i < cs.length := by
        by_contra hn
        rw [List.getElem?_eq_none (by omega)] at hc
        cases hc
      have hsc : SolsOk (fun q => P (i :: q)) c := fun q N S h1 h2 => hs (i :: q) N S (by simp [at?, Node.children, hc, h1]) h2
      have hec : StepsSound O n Safe (fun q => P (i :: q)) (fun q => W (i :: q)) c := fun q N j d tr' h1 h2 h3 h4 => by
        have := he (i :: q) N j d tr' (by simp [at?, Node.children, hc, h1]) h2 h3 h4
        simpa [StepSound] using this
      cases hw : walk O n p c with
      | error er => simp [hw] at h
      | ok res =>
        obtain ⟨c', up', l'⟩ := res
        simp only [hw] at h
        -- what the tree with the new child satisfies, whatever its own solution
        have key : (∀ u q S, (u, q, S) ∈ l' → Safe u q S) → ∀ s', (∀ S, s' = some S → P [] S) →
            SolsOk P (mk e v tr ty s' f (cs.set i c')) ∧ StepsSound O n Safe P W (mk e v tr ty s' f (cs.set i c')) ∧
            c'.var = c.var ∧ c'.tr = c.tr := by
          intro hl' s' hs'
          obtain ⟨k1, k2, k3, k4⟩ := walk_ok p hWc hsc hec hw hl'
          refine ⟨?_, ?_, k3, k4⟩
          · intro q N S h1 h2
            cases q with
            | nil =>
              simp only [at?, Option.some.injEq] at h1
              subst h1
              exact hs' S h2
            | cons j q =>
              simp only [at?, Node.children] at h1
              by_cases hj : i = j
              · subst hj
                rw [List.getElem?_set_self hi] at h1
                exact k1 q N S h1 h2
              · rw [List.getElem?_set_ne hj] at h1
                exact hs (j :: q) N S h1 h2
          · intro q N j d tr' h1 h2 h3 h4
            cases q with
            | nil =>
              simp only [at?, Option.some.injEq] at h1
              subst h1
              simp only [Node.children] at h2 ⊢
              rw [List.length_set]
              by_cases hj : i = j
              · subst hj
                rw [List.getElem?_set_self hi, Option.some.injEq] at h2
                subst h2
                rw [k3]
                exact he [] _ i c tr' rfl hc (k4 ▸ h3) h4
              · rw [List.getElem?_set_ne hj] at h2
                exact he [] _ j d tr' rfl h2 h3 h4
            | cons m q =>
              simp only [at?, Node.children] at h1
              by_cases hj : i = m
              · subst hj
                rw [List.getElem?_set_self hi] at h1
                have := k2 q N j d tr' h1 h2 h3 h4
                simpa [StepSound] using this
              · rw [List.getElem?_set_ne hj] at h1
                exact he (m :: q) N j d tr' h1 h2 h3 h4
        have hold : ∀ S, s = some S → P [] S := fun S hS => hs [] _ S rfl hS
        cases up' with
        | false =>
          simp only [Except.ok.injEq, Prod.mk.injEq] at h
          obtain ⟨rfl, -, rfl⟩ := h
          obtain ⟨a, b, -, -⟩ := key hl s hold
          exact ⟨a, b, rfl, rfl⟩
        | true =>
          simp only at h
          cases hb : backward O n c' (cs.set i c') with
          | error er =>
            simp only [hb] at h
            cases er <;> simp only [Except.ok.injEq, Prod.mk.injEq, reduceCtorEq] at h
            obtain ⟨rfl, -, rfl⟩ := h
            obtain ⟨a, b, -, -⟩ := key hl s hold
            exact ⟨a, b, rfl, rfl⟩
          | ok s' =>
            simp only [hb, Except.ok.injEq, Prod.mk.injEq] at h
            obtain ⟨rfl, -, rfl⟩ := h
            have hl1 : ∀ u q S, (u, q, S) ∈ l' → Safe u q S := fun u q S hm => hl u q S (by simp [hm])
            obtain ⟨a0, b0, hv, ht⟩ := key hl1 s hold
            have hnew : P [] s' := by
              rw [backward] at hb
              cases hcs : c'.sol with
              | none => simp [hcs] at hb
              | some S =>
                simp only [hcs] at hb
                cases hct : c'.tr with
                | none => simp [hct] at hb
                | some tr' =>
                  have hedge := he [] _ i c tr' rfl hc (ht ▸ hct) hWi
                  simp only [Node.children] at hedge
                  have hPS : P [i] S := a0 [i] c' S (by simp [at?, Node.children, List.getElem?_set_self hi]) hcs
                  by_cases hadd : tr' = .additivity
                  · subst hadd
                    simp only [hct] at hb
                    cases hss : solutions (cs.set i c') with
                    | error er => simp [hss] at hb
                    | ok ss =>
                      simp only [hss] at hb
                      obtain ⟨q1, q2⟩ := solutions_ok hss
                      refine hedge ss s' (by simpa using q1) (fun j S' hj => ?_) hb
                      obtain ⟨d, hd1, hd2⟩ := q2 j S' hj
                      exact a0 [j] d S' (by simp [at?, Node.children, hd1]) hd2
                  · have hb' : backStep O n tr' c'.var S = .ok s' := by
                      cases tr' <;> simp only [hct] at hb <;> first | exact hb | exact absurd rfl hadd
                    have hgen : ∀ S r, P ([] ++ [i]) S → (∀ q, usubOf tr' = some q → Safe c.var q S) →
                        backStep O n tr' c.var S = .ok r → P [] r := by
                      cases tr' <;> first | exact hedge | exact absurd rfl hadd
                    refine hgen S s' hPS (fun q hq => hl _ _ _ (List.mem_append.2 (Or.inr ?_))) (by rw [← hv]; exact hb')
                    rw [substOf, hct, hcs, ← hv]
                    cases tr' <;> simp only [usubOf, Option.some.injEq, reduceCtorEq] at hq <;> subst hq <;> simp
            obtain ⟨a, b, -, -⟩ := key hl1 (some s') (fun S hS => by cases hS; exact hnew)
            exact ⟨a, b, rfl, rfl⟩

theorem walkAll_ok : ∀ (ps : List (List Nat)) {t t' : Node} {l : List (Str × Expr × Expr)} {P : List Nat → Expr → Prop}
    {W : List Nat → Prop}, (∀ p ∈ ps, ∀ q, q <+: p → q ≠ [] → W q) →
    SolsOk P t → StepsSound O n Safe P W t → walkAll O n ps t = .ok (t', l) → (∀ u q S, (u, q, S) ∈ l → Safe u q S) →
    SolsOk P t'
  | [], t, t', l, P, W, _, hs, _, h, _ => by
    simp only [walkAll, Except.ok.injEq, Prod.mk.injEq] at h
    exact h.1 ▸ hs
  | p :: r, t, t', l, P, W, hW, hs, he, h, hl => by
    rw [walkAll] at h
    cases hw : walk O n p t with
    | error er => simp [hw] at h
    | ok res =>
      obtain ⟨t1, up, l1⟩ := res
      simp only [hw] at h
      cases hr : walkAll O n r t1 with
      | error er => simp [hr] at h
      | ok res =>
        obtain ⟨t2, l2⟩ := res
        simp only [hr, Except.ok.injEq, Prod.mk.injEq] at h
        obtain ⟨rfl, rfl⟩ := h
        obtain ⟨a, b, -, -⟩ := walk_ok p (hW p (by simp)) hs he hw fun u q S hm => hl u q S (by simp [hm])
        exact walkAll_ok r (fun q hq => hW q (by simp [hq])) a b hr fun u q S hm => hl u q S (by simp [hm])

theorem goBackwards_ok {t : Node} {S : Expr} {l : List (Str × Expr × Expr)} {P : List Nat → Expr → Prop} (hs : SolsOk P t)
    (he : StepsSound O n Safe P t.Used t) (h : goBackwards O n t = .ok (S, l)) (hl : ∀ u q S, (u, q, S) ∈ l → Safe u q S) :
    P [] S := by
  rw [goBackwards] at h
  split at h
  · cases h
  · cases hw : walkAll O n t.solvedLeaves t with
    | error er => simp [hw] at h
    | ok res =>
      obtain ⟨t', l'⟩ := res
      simp only [hw] at h
      cases hts : t'.sol with
      | none => simp [hts] at h
      | some s =>
        simp only [hts, Except.ok.injEq, Prod.mk.injEq] at h
        obtain ⟨rfl, rfl⟩ := h
        exact walkAll_ok _ (fun q hq r hr _ => ⟨q, hq, hr⟩) hs he hw hl [] t' s rfl hts

end Node
end Simpy
