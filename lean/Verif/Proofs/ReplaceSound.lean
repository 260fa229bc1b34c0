import Verif.Model.Regex
import Verif.Proofs.SubsSound
import Verif.Spec.Replace
import Verif.Spec.Sub

/-! `replace` with rules that preserve the value preserves the value. -/

namespace Simpy
open Expr

/-- The verdicts of `perf` are right: a replacement has the value at `ρ` that the node has at `ρ'`; a node that is left
alone has the same value at both. -/
structure PerfOk (st : Bool) (ρ ρ' : Str → ℝ) (perf : Nat → Expr → R Rep) : Prop where
  hit : ∀ k e u, WF e → DomS st ρ' e → perf k e = .ok (.hit u) → WF u ∧ DomS st ρ u ∧ den ρ u = den ρ' e
  stop : ∀ k e, WF e → DomS st ρ' e → perf k e = .ok .stop → DomS st ρ e ∧ den ρ e = den ρ' e
  pass : ∀ k s, perf k (sym s) = .ok .pass → ρ s = ρ' s

/-- What a run of `replace` with `n` stack levels needs besides `e` being defined: like `SubsOk`. -/
def RepOk (O : Oracle) (st : Bool) (ρ : Str → ℝ) (perf : Nat → Expr → R Rep) : Nat → Expr → Prop
  | 0, _ => True
  | n + 1, e => perf n e = .ok .pass →
    match e with
    | sum ts => ∀ t ∈ ts, RepOk O st ρ perf n t
    | prod ts => ∀ t ∈ ts, RepOk O st ρ perf n t
    | pow b x => RepOk O st ρ perf n b ∧ RepOk O st ρ perf n x ∧ ∀ b' x', replaceE O perf n b = .ok b' →
        replaceE O perf n x = .ok x' → (intExp x' = false → RadOk ρ x' b') ∧
          (st = true → den ρ b' ≠ 0 ∨ intExp x' = true ∧ 1 ≤ den ρ x')
    | log i b => RepOk O st ρ perf n i ∧ RepOk O st ρ perf n b ∧ ∀ i', replaceE O perf n i = .ok i' → HN ρ i'
    | trig f i => RepOk O st ρ perf n i ∧ ∀ i', replaceE O perf n i = .ok i' →
        if f.isInverse then ∀ g w, i' = trig g w → g.isInverse = true
        else TrigSide O ρ n i' ∧ (f = .cot → (∃ g w, i' = trig g w ∧ g.isInverse = true) → Real.cos (den ρ i') ≠ 0)
    | absv i => RepOk O st ρ perf n i
    | _ => True

theorem replace_sound {O : Oracle} (hO : O.Exact) {ρ ρ' : Str → ℝ} {st : Bool} {perf : Nat → Expr → R Rep}
    (hp : PerfOk st ρ ρ' perf) : ∀ (n : Nat) {e r : Expr}, WF e → DomS st ρ' e → RepOk O st ρ perf n e →
    replaceE O perf n e = .ok r → WF r ∧ DomS st ρ r ∧ den ρ r = den ρ' e
  | 0, _, _, _, _, _, h => by simp [replaceE] at h
  | n + 1, e, r, we, de, hok, h => by
    have hC := ctors_sound hO n
    have ih := fun {e r : Expr} => replace_sound hO hp n (e := e) (r := r)
    unfold replaceE at h
    obtain ⟨v, hv, h⟩ := bind_ok.1 h
    cases v with
    | hit u => simp only [Except.ok.injEq] at h; subst h; exact hp.hit n e u we de hv
    | stop =>
      simp only [Except.ok.injEq] at h; subst h
      exact ⟨we, hp.stop n e we de hv⟩
    | pass =>
    have hok := hok hv
    cases e with
    | rat q => simp only [Except.ok.injEq] at h; subst h; exact ⟨by simp, by simp [DomS], by simp [den]⟩
    | flt q => simp [DomS] at de
    | pi => simp only [Except.ok.injEq] at h; subst h; exact ⟨by simp [WF], by simp [DomS], by simp [den]⟩
    | euler => simp only [Except.ok.injEq] at h; subst h; exact ⟨by simp [WF], by simp [DomS], by simp [den]⟩
    | inf => simp [DomS] at de
    | neginf => simp [DomS] at de
    | any k => simp [DomS] at de
    | sym s =>
      simp only [Except.ok.injEq] at h
      subst h
      exact ⟨by simp [WF], by simp [DomS], by simp only [den]; exact hp.pass n s hv⟩
    | sum ts =>
      obtain ⟨us, h1, h⟩ := bind_ok.1 h
      rw [mapR_ok] at h1
      obtain ⟨w1, d1, v1⟩ := subs_list (O := O) (ρ' := ρ') (forall₂_of_mem h1 fun t ht u hu =>
          ih ((WF_sum).1 we t ht) (Dom_sum.1 de t ht) (hok t ht) hu)
      obtain ⟨v2, d2⟩ := hC.sum ρ us r w1 d1 h
      exact ⟨hC.sumW us r w1 h, d2, by rw [v2, v1, den_sum]⟩
    | prod ts =>
      obtain ⟨us, h1, h⟩ := bind_ok.1 h
      rw [mapR_ok] at h1
      obtain ⟨w1, d1, v1⟩ := subs_list (O := O) (ρ' := ρ') (forall₂_of_mem h1 fun t ht u hu =>
          ih ((WF_prod.1 we).2 t ht) (Dom_prod.1 de t ht) (hok t ht) hu)
      obtain ⟨v2, d2⟩ := hC.prod ρ us r w1 d1 h
      exact ⟨hC.prodW us r w1 h, d2, by rw [v2, v1, den_prod]⟩
    | pow b x =>
      obtain ⟨b', h1, h⟩ := bind_ok.1 h
      obtain ⟨x', h2, h⟩ := bind_ok.1 h
      obtain ⟨o1, o2, o3⟩ := hok
      obtain ⟨db, dx, d3, d4, d5⟩ := de
      obtain ⟨w1, e1, v1⟩ := ih we.1 db o1 h1
      obtain ⟨w2, e2, v2⟩ := ih we.2.1 dx o2 h2
      obtain ⟨o4, o5⟩ := o3 b' x' h1 h2
      have hpd : PowDomS st ρ b' x' := ⟨e1, e2, by rw [v1, v2]; exact d3, o4, o5⟩
      obtain ⟨v3, d6⟩ := hC.pow ρ b' x' r w1 w2 hpd h
      exact ⟨hC.powW b' x' r w1 w2 h, d6, by rw [v3, v1, v2]; simp only [den]⟩
    | log i b =>
      obtain ⟨i', h1, h⟩ := bind_ok.1 h
      obtain ⟨b', h2, h⟩ := bind_ok.1 h
      obtain ⟨o1, o2, o3⟩ := hok
      obtain ⟨di, db, d3, d4, d5, d6⟩ := de
      obtain ⟨w1, e1, v1⟩ := ih we.1 di o1 h1
      obtain ⟨w2, e2, v2⟩ := ih we.2 db o2 h2
      obtain ⟨v3, -, d7⟩ := logCtor_V hO.isPi hO.isE (st := st) (ρ := ρ)
        ⟨e1.domF, e2.domF, by rw [v1]; exact d4, by rw [v2]; exact d5, by rw [v2]; exact d6⟩ h
      exact ⟨logCtor_W w1 w2 h, d7 e1 e2 (o3 i' h1), by rw [v3, v1, v2]; simp only [den]⟩
    | trig f i =>
      obtain ⟨i', h1, h⟩ := bind_ok.1 h
      obtain ⟨o1, o2⟩ := hok
      obtain ⟨di, d2, d3⟩ := de
      obtain ⟨w1, e1, v1⟩ := ih (e := i) we di o1 h1
      have o2 := o2 i' h1
      refine ⟨trigCtor_W hO n w1 h, ?_⟩
      simp only [den]
      rw [← v1]
      rw [← v1] at d2 d3
      cases hf : f.isInverse with
      | true =>
        rw [hf, if_pos rfl] at o2
        obtain ⟨-, a, b⟩ := trigCtor_inv_V n hf e1 d2 d3 (fun g w hg hgi => absurd (o2 g w hg) (by simp [hgi])) h
        exact ⟨b, a⟩
      | false =>
        rw [hf, if_neg (by simp)] at o2
        obtain ⟨a, b⟩ := trigCtor_V hO n hf w1 e1 d2 o2.1 o2.2 h
        exact ⟨b, a⟩
    | absv i =>
      obtain ⟨i', h1, h⟩ := bind_ok.1 h
      obtain ⟨di, d2⟩ := de
      obtain ⟨w1, e1, v1⟩ := ih (e := i) we di hok h1
      obtain ⟨v3, d6⟩ := hC.abs ρ i' r w1 e1 (by rw [v1]; exact d2) h
      exact ⟨hC.absW i' r w1 h, d6, by rw [v3, v1]; simp only [den]⟩

/-- Predicates closed under the constructors are preserved by `replace`. -/
theorem Adm.replaceE {O : Oracle} {Q : Expr → Prop} (hQ : Adm O Q) {perf : Nat → Expr → R Rep}
    (hp : ∀ k e u, Q e → perf k e = .ok (.hit u) → Q u) : ∀ (n : Nat) {e r : Expr}, Q e →
    replaceE O perf n e = .ok r → Q r
  | 0, _, _, _, h => by simp [Simpy.replaceE] at h
  | n + 1, e, r, qe, h => by
    have ih := fun {e r : Expr} => Adm.replaceE hQ hp n (e := e) (r := r)
    unfold Simpy.replaceE at h
    obtain ⟨v, hv, h⟩ := bind_ok.1 h
    cases v with
    | hit u => simp only [Except.ok.injEq] at h; subst h; exact hp n e u qe hv
    | stop => simp only [Except.ok.injEq] at h; subst h; exact qe
    | pass =>
    cases e with
    | sum ts =>
      obtain ⟨us, h1, h⟩ := bind_ok.1 h
      exact (hQ.pres n).sum us r (mapR_mem h1 fun t ht u hu => ih (hQ.sum qe t ht) hu) h
    | prod ts =>
      obtain ⟨us, h1, h⟩ := bind_ok.1 h
      exact (hQ.pres n).prod us r (mapR_mem h1 fun t ht u hu => ih (hQ.prod qe t ht) hu) h
    | pow b x =>
      obtain ⟨b', h1, h⟩ := bind_ok.1 h
      obtain ⟨x', h2, h⟩ := bind_ok.1 h
      exact (hQ.pres n).pow b' x' r (ih (hQ.pow qe).1 h1) (ih (hQ.pow qe).2 h2) h
    | log i b =>
      obtain ⟨i', h1, h⟩ := bind_ok.1 h
      obtain ⟨b', h2, h⟩ := bind_ok.1 h
      exact hQ.plog (ih (hQ.log qe).1 h1) (ih (hQ.log qe).2 h2) h
    | trig f i =>
      obtain ⟨i', h1, h⟩ := bind_ok.1 h
      exact hQ.ptrig n f (ih (hQ.trig qe) h1) h
    | absv i =>
      obtain ⟨i', h1, h⟩ := bind_ok.1 h
      exact (hQ.pres n).abs i' r (ih (hQ.absv qe) h1) h
    | _ => simp only [Except.ok.injEq] at h; subst h; exact qe

/-- `replace` introduces no function of a class if the rules do not. -/
theorem replace_noCls {O : Oracle} {p : Expr → Bool} (hQ : Closed (fun e => containsCls p e = false))
    (hpt : ∀ f i j, p (trig f i) = p (trig f j)) (hpl : ∀ i b, p (log i b) = false) {perf : Nat → Expr → R Rep}
    (hp : KeepsOut p perf) : ∀ (n : Nat) {e r : Expr},
    containsCls p e = false → replaceE O perf n e = .ok r → containsCls p r = false
  | 0, _, _, _, h => by simp [replaceE] at h
  | n + 1, e, r, he, h => by
    have hP := ctors_pres hQ O n
    have ih := fun {e r : Expr} => replace_noCls (O := O) hQ hpt hpl hp n (e := e) (r := r)
    unfold replaceE at h
    obtain ⟨v, hv, h⟩ := bind_ok.1 h
    cases v with
    | hit u => simp only [Except.ok.injEq] at h; subst h; exact hp n e u he hv
    | stop => simp only [Except.ok.injEq] at h; subst h; exact he
    | pass =>
    cases e with
    | sum ts =>
      obtain ⟨us, h1, h⟩ := bind_ok.1 h
      exact hP.sum us r (mapR_mem h1 fun t ht u hu => ih (hQ.sum.1 he t ht) hu) h
    | prod ts =>
      obtain ⟨us, h1, h⟩ := bind_ok.1 h
      exact hP.prod us r (mapR_mem h1 fun t ht u hu => ih (hQ.prod.1 he t ht) hu) h
    | pow b x =>
      obtain ⟨b', h1, h⟩ := bind_ok.1 h
      obtain ⟨x', h2, h⟩ := bind_ok.1 h
      have := hQ.pow.1 he
      exact hP.pow b' x' r (ih this.1 h1) (ih this.2 h2) h
    | log i b =>
      obtain ⟨i', h1, h⟩ := bind_ok.1 h
      obtain ⟨b', h2, h⟩ := bind_ok.1 h
      have := hQ.log he
      exact logCtor_Q hQ (fun _ => id) (fun i b hi hb => by simp [containsCls, hpl, hi, hb]) (ih this.1 h1)
        (ih this.2 h2) h
    | trig f i =>
      obtain ⟨i', h1, h⟩ := bind_ok.1 h
      refine trigCtor_Q hQ n (fun j hj => ?_) (ih (hQ.trig he) h1) h
      simp only [containsCls, Bool.or_eq_false_iff] at he ⊢
      exact ⟨hpt f j i ▸ he.1, hj⟩
    | absv i =>
      obtain ⟨i', h1, h⟩ := bind_ok.1 h
      exact hP.abs i' r (ih (hQ.absv.1 he) h1) h
    | _ => simp only [Except.ok.injEq] at h; subst h; exact he

theorem closed_noFwd : Closed (fun e => containsCls isFwdTrig e = false) :=
  closed_noCls (by intro c; cases c <;> simp [isAcc, isFwdTrig]) (by simp [isFwdTrig]) (by simp [isFwdTrig])
    (by simp [isFwdTrig]) (by simp [isFwdTrig])

/-- `replace` introduces no inverse trig function if the rules do not. -/
theorem replace_noInv {O : Oracle} {perf : Nat → Expr → R Rep}
    (hp : KeepsOut isInvTrig perf) (n : Nat) {e r : Expr} :
    containsCls isInvTrig e = false → replaceE O perf n e = .ok r → containsCls isInvTrig r = false :=
  replace_noCls closed_noInv (fun _ _ _ => rfl) (fun _ _ => rfl) hp n

theorem tamePL_iff {perf : Nat → Expr → R Rep} : ∀ {ts : List Expr}, TamePL perf ts ↔ ∀ t ∈ ts, TameP perf t
  | [] => by simp [TamePL]
  | t :: r => by simp [TamePL, tamePL_iff (ts := r)]

mutual
theorem strictlyPositive_HN {s : Bool} {ρ : Str → ℝ} : ∀ {t : Expr}, DomS s ρ t → strictlyPositive t = true → HN ρ t := by
  intro t d h
  have h0 := strictlyPositive_nonneg d h
  cases t with
  | prod ts =>
    simp only [HN]
    split
    · exact h0
    · exact strictlyPositiveL_HNL (Dom_prod.1 d) (by simpa [strictlyPositive] using h)
  | pow b x => exact strictlyPositive_HN (t := b) d.1 (by simpa [strictlyPositive] using h)
  | _ => exact h0
theorem strictlyPositiveL_HNL {s : Bool} {ρ : Str → ℝ} : ∀ {ts : List Expr}, (∀ t ∈ ts, DomS s ρ t) →
    strictlyPositiveL ts = true → HNL ρ ts := by
  intro ts d h
  cases ts with
  | nil => trivial
  | cons t r =>
    simp only [strictlyPositiveL, Bool.and_eq_true] at h
    exact ⟨strictlyPositive_HN (d t (by simp)) h.1, strictlyPositiveL_HNL (fun t ht => d t (by simp [ht])) h.2⟩
end

/-- What `Abs` returns is a hereditarily non-negative expression. -/
theorem ctors_abs_HN {O : Oracle} (hO : O.Exact) {s : Bool} {ρ : Str → ℝ} : ∀ (n : Nat) {i r : Expr}, WF i → DomS s ρ i →
    (ctors O n).abs i = .ok r → HN ρ r
  | 0, i, r, _, _, h => by simp [ctors] at h
  | n + 1, i, r, wi, di, h => by
    have hC := ctors_sound hO n
    change absCtor (ctors O n) i = .ok r at h
    unfold absCtor at h
    split at h <;> try (simp [DomS] at di; done)
    · simp only [Except.ok.injEq] at h; subst h; simp only [HN, den]; positivity
    · simp only [Except.ok.injEq] at h; subst h; simp only [HN, den]; positivity
    · simp only [Except.ok.injEq] at h; subst h; simp only [HN, den]; exact_mod_cast abs_nonneg _
    · split at h
      · split at h
        · simp at h
        · next ni hn =>
          obtain ⟨vn, dn⟩ := opNeg_V hC wi di hn
          split at h
          · simp at h
          · simp only [Except.ok.injEq] at h; subst h; simp only [HN, den]; positivity
          · simp only [Except.ok.injEq] at h; subst h
            exact ctors_abs_HN hO n (opNeg_W hC wi hn) dn (by assumption)
      · split at h
        · next hsp =>
          simp only [Except.ok.injEq] at h; subst h
          exact strictlyPositive_HN di hsp
        · simp only [Except.ok.injEq] at h; subst h; simp only [HN, den]; positivity

/-- What the rules make of a plain node is hereditarily non-negative if it is non-negative. -/
theorem plainP_replace {O : Oracle} (hO : O.Exact) {ρ ρ' : Str → ℝ} {st : Bool} {perf : Nat → Expr → R Rep}
    (hp : PerfOk st ρ ρ' perf) {n : Nat} {b b' : Expr} (wb : WF b) (db : DomS st ρ' b) (ok : RepOk O st ρ perf n b)
    (hb : PlainP perf b) (h : replaceE O perf n b = .ok b') (h0 : 0 ≤ den ρ b') : HN ρ b' := by
  cases n with
  | zero => simp [replaceE] at h
  | succ n =>
    unfold replaceE at h
    obtain ⟨v, hv, h⟩ := bind_ok.1 h
    have := hb n v hv
    cases v with
    | hit u => simp only [Except.ok.injEq] at h; subst h; exact (HN_of_baseOk this).2 h0
    | stop => simp only [Except.ok.injEq] at h; subst h; exact (HN_of_baseOk this).2 h0
    | pass =>
      have ok := ok hv
      rcases this with this | this
      · cases b <;> simp [isLeaf] at this <;> simp only [Except.ok.injEq] at h <;> subst h <;> exact h0
      · obtain ⟨i, rfl⟩ : ∃ i, b = absv i := by cases b <;> simp_all [isAbs]
        obtain ⟨i', h1, h⟩ := bind_ok.1 h
        obtain ⟨w1, d1, -⟩ := replace_sound hO hp n (e := i) wb db.1 ok h1
        exact ctors_abs_HN hO n w1 d1 h

theorem notTrigP_replace {O : Oracle} {perf : Nat → Expr → R Rep} {n : Nat} {b b' : Expr} (hb : NotTrigP perf b)
    (h : replaceE O perf n b = .ok b') : isFwdTrig b' = false := by
  cases n with
  | zero => simp [replaceE] at h
  | succ n =>
    unfold replaceE at h
    obtain ⟨v, hv, h⟩ := bind_ok.1 h
    have := hb n v hv
    cases v with
    | hit u => simp only [Except.ok.injEq] at h; subst h; exact this
    | stop => simp only [Except.ok.injEq] at h; subst h; exact this
    | pass =>
      cases b <;> simp [isLeaf] at this <;> simp only [Except.ok.injEq] at h <;> subst h <;> rfl

/-- On tame expressions the run conditions hold. -/
theorem repOk_of_tame {O : Oracle} (hO : O.Exact) {ρ ρ' : Str → ℝ} {st : Bool} {perf : Nat → Expr → R Rep}
    (hp : PerfOk st ρ ρ' perf)
    (hnum : ∀ k q, perf k (rat q) = .ok .pass) : ∀ (n : Nat) {e : Expr}, WF e → DomS st ρ' e → TameP perf e →
    RepOk O st ρ perf n e
  | 0, _, _, _, _ => trivial
  | n + 1, e, we, de, ht => by
    have ih := fun {e : Expr} => repOk_of_tame hO hp hnum n (e := e)
    have hval : ∀ {b b' : Expr}, WF b → DomS st ρ' b →
        TameP perf b → replaceE O perf n b = .ok b' → den ρ b' = den ρ' b :=
      fun wb db ht h => (replace_sound hO hp n wb db (ih wb db ht) h).2.2
    intro _
    cases e with
    | sum ts =>
      simp only [TameP] at ht
      intro t hmem
      exact ih (WF_sum.1 we t hmem) (Dom_sum.1 de t hmem) (tamePL_iff.1 ht t hmem)
    | prod ts =>
      simp only [TameP] at ht
      intro t hmem
      exact ih ((WF_prod.1 we).2 t hmem) (Dom_prod.1 de t hmem) (tamePL_iff.1 ht t hmem)
    | pow b x =>
      simp only [TameP] at ht
      obtain ⟨db, dx, d3, d4, d5⟩ := de
      refine ⟨ih we.1 db ht.1, ih we.2.1 dx ht.2.1, fun b' x' h1 h2 => ?_⟩
      have hint : intExp x = true → x' = x := by
        intro hi
        obtain ⟨k, rfl⟩ := intExp_iff.1 hi
        cases n with
        | zero => simp [replaceE] at h2
        | succ n =>
          unfold replaceE at h2
          rw [hnum] at h2
          change Except.ok _ = Except.ok _ at h2
          simpa [eq_comm] using h2
      have v1 := hval we.1 db ht.1 h1
      have v2 := hval we.2.1 dx ht.2.1 h2
      constructor
      · intro hx'
        have hx : intExp x = false := by
          cases hi : intExp x with
          | false => rfl
          | true => rw [hint hi, hi] at hx'; simp at hx'
        have hs := ht.2.2.resolve_left (by simp [hx])
        refine HN.radOk (plainP_replace hO hp we.1 db (ih we.1 db ht.1) hs h1 ?_)
        rw [v1]
        exact (d4 hx).nonneg
      · intro hs
        rw [v1, v2]
        refine (d5 hs).imp_right fun ⟨a, b⟩ => ⟨?_, b⟩
        rw [hint a]; exact a
    | log i b =>
      simp only [TameP] at ht
      obtain ⟨di, db, d3, d4, d5, d6⟩ := de
      refine ⟨ih we.1 di ht.1, ih we.2 db ht.2.1, fun i' h1 => ?_⟩
      refine plainP_replace hO hp we.1 di (ih we.1 di ht.1) ht.2.2 h1 ?_
      rw [hval we.1 di ht.1 h1]
      exact d4.le
    | trig f i =>
      simp only [TameP] at ht
      refine ⟨ih (e := i) we de.1 ht.1, fun i' h1 => ?_⟩
      obtain ⟨-, ht⟩ := ht
      cases hf : f.isInverse with
      | true =>
        rw [hf, if_pos rfl] at ht
        rw [if_pos rfl]
        have : isFwdTrig i' = false := by
          rcases ht with ht | ⟨h2, h3⟩
          · exact notTrigP_replace ht h1
          · have := replace_noCls closed_noFwd (fun _ _ _ => rfl) (fun _ _ => rfl) h3 n h2 h1
            cases i' <;> simp_all [containsCls, isFwdTrig]
        rintro g w rfl
        simpa [isFwdTrig] using this
      | false =>
        rw [hf, if_neg (by simp)] at ht
        have hi' := replace_noInv ht.2 n ht.1 h1
        rw [if_neg (by simp)]
        refine ⟨trigSide_of_noInv O ρ n hi', ?_⟩
        rintro - ⟨g, w, rfl, hg⟩
        simp [containsCls, isInvTrig, hg] at hi'
    | absv i =>
      simp only [TameP] at ht
      exact ih (e := i) we de.1 ht
    | _ => trivial

/-- On tame runs the run conditions hold. -/
theorem repOk_of_run {O : Oracle} (hO : O.Exact) {ρ ρ' : Str → ℝ} {st : Bool} {perf : Nat → Expr → R Rep}
    (hp : PerfOk st ρ ρ' perf) : ∀ (n : Nat) {e : Expr}, WF e → DomS st ρ' e → RunTame O perf n e = true →
    RepOk O st ρ perf n e
  | 0, _, _, _, _ => trivial
  | n + 1, e, we, de, ht => by
    have ih := fun {e : Expr} => repOk_of_run hO hp n (e := e)
    have hval : ∀ {b b' : Expr}, WF b → DomS st ρ' b →
        RunTame O perf n b = true → replaceE O perf n b = .ok b' → den ρ b' = den ρ' b :=
      fun wb db ht h => (replace_sound hO hp n wb db (ih wb db ht) h).2.2
    intro hpass
    unfold RunTame at ht
    rw [hpass] at ht
    cases e with
    | sum ts =>
      intro t hmem
      simp only [List.all_eq_true] at ht
      exact ih (WF_sum.1 we t hmem) (Dom_sum.1 de t hmem) (ht t hmem)
    | prod ts =>
      intro t hmem
      simp only [List.all_eq_true] at ht
      exact ih ((WF_prod.1 we).2 t hmem) (Dom_prod.1 de t hmem) (ht t hmem)
    | pow b x =>
      simp only [Bool.and_eq_true, Bool.or_eq_true, Bool.not_eq_true'] at ht
      obtain ⟨⟨⟨t1, t2⟩, t3⟩, t4⟩ := ht
      obtain ⟨db, dx, d3, d4, d5⟩ := de
      refine ⟨ih we.1 db t1, ih we.2.1 dx t2, fun b' x' h1 h2 => ?_⟩
      rw [h2] at t3 t4
      rw [h1] at t4
      simp only [okR] at t3 t4
      have v1 := hval we.1 db t1 h1
      have v2 := hval we.2.1 dx t2 h2
      constructor
      · intro hx'
        have hx : intExp x = false := t3.resolve_right (by simp [hx'])
        have h0 : 0 ≤ den ρ b' := v1 ▸ (d4 hx).nonneg
        exact HN.radOk ((HN_of_baseOk (t4.resolve_left (by simp [hx']))).2 h0)
      · intro hs
        rw [v1, v2]
        exact (d5 hs).imp_right fun ⟨a, b⟩ => ⟨t3.resolve_left (by simp [a]), b⟩
    | log i b =>
      simp only [Bool.and_eq_true] at ht
      obtain ⟨⟨t1, t2⟩, t3⟩ := ht
      obtain ⟨di, db, d3, d4, d5, d6⟩ := de
      refine ⟨ih we.1 di t1, ih we.2 db t2, fun i' h1 => ?_⟩
      rw [h1] at t3
      refine (HN_of_baseOk t3).2 ?_
      rw [hval we.1 di t1 h1]
      exact d4.le
    | trig f i =>
      simp only [Bool.and_eq_true] at ht
      obtain ⟨t1, t2⟩ := ht
      refine ⟨ih (e := i) we de.1 t1, fun i' h1 => ?_⟩
      rw [h1] at t2
      simp only [okR, Bool.not_eq_true'] at t2
      cases hf : f.isInverse with
      | true =>
        rw [hf, if_pos rfl] at t2
        rw [if_pos rfl]
        rintro g w rfl
        simpa [isFwdTrig] using t2
      | false =>
        rw [hf, if_neg (by simp)] at t2
        simp only [Bool.not_eq_true'] at t2
        rw [if_neg (by simp)]
        refine ⟨trigSide_of_noInv O ρ n t2, ?_⟩
        rintro - ⟨g, w, rfl, hg⟩
        simp [containsCls, isInvTrig, hg] at t2
    | absv i => exact ih (e := i) we de.1 ht
    | _ => trivial

theorem replacePerf_plain {O : Oracle} {old new : Expr} (ho : ∀ b, NoFlt b → (beq O b old = true ↔ b = old)) {b : Expr}
    (hb : NoFlt b) (h : plainArg old new b = true) : PlainP (replacePerf O old new) b := by
  intro k v hv
  simp only [replacePerf, Except.ok.injEq] at hv
  subst hv
  by_cases hbo : b = old
  · rw [if_pos ((ho b hb).2 hbo)]
    simpa [plainArg, hbo] using h
  · rw [if_neg (fun h => hbo ((ho b hb).1 h))]
    simpa [plainArg, hbo] using h

theorem replacePerf_notTrig {O : Oracle} {old new : Expr} (ho : ∀ b, NoFlt b → (beq O b old = true ↔ b = old)) {b : Expr}
    (hb : NoFlt b) (h : notTrigArg old new b = true) : NotTrigP (replacePerf O old new) b := by
  intro k v hv
  simp only [replacePerf, Except.ok.injEq] at hv
  subst hv
  by_cases hbo : b = old
  · rw [if_pos ((ho b hb).2 hbo)]
    simpa [notTrigArg, hbo] using h
  · rw [if_neg (fun h => hbo ((ho b hb).1 h))]
    simpa [notTrigArg, hbo] using h

theorem replacePerf_keepsOut {O : Oracle} {p : Expr → Bool} {old new : Expr} (h : containsCls p new = false) :
    KeepsOut p (replacePerf O old new) := by
  intro k b u _ hb
  simp only [replacePerf, Except.ok.injEq] at hb
  split at hb
  · cases hb; exact h
  · cases hb

mutual
theorem replacePerf_tame {O : Oracle} {old new : Expr} (ho : ∀ b, NoFlt b → (beq O b old = true ↔ b = old)) : ∀ {e : Expr},
    NoFlt e → TameR old new e = true → TameP (replacePerf O old new) e := by
  intro e he h
  cases e with
  | sum ts => exact replacePerf_tameL ho he h
  | prod ts => exact replacePerf_tameL ho he h
  | pow b x =>
    simp only [TameR, Bool.and_eq_true, Bool.or_eq_true] at h
    exact ⟨replacePerf_tame ho he.1 h.1.1, replacePerf_tame ho he.2 h.1.2, h.2.imp_right (replacePerf_plain ho he.1)⟩
  | log i b =>
    simp only [TameR, Bool.and_eq_true] at h
    exact ⟨replacePerf_tame ho he.1 h.1.1, replacePerf_tame ho he.2 h.1.2, replacePerf_plain ho he.1 h.2⟩
  | trig f i =>
    simp only [TameR, Bool.and_eq_true] at h
    simp only [TameP]
    refine ⟨replacePerf_tame (e := i) ho he h.1, ?_⟩
    cases hf : f.isInverse with
    | true =>
      rw [hf, if_pos rfl] at h
      rw [if_pos rfl]
      simp only [Bool.or_eq_true, Bool.and_eq_true, Bool.not_eq_true'] at h
      exact h.2.imp (replacePerf_notTrig ho he) fun ⟨a, b⟩ => ⟨a, replacePerf_keepsOut b⟩
    | false =>
      rw [hf, if_neg (by simp)] at h
      rw [if_neg (by simp)]
      simp only [Bool.and_eq_true, Bool.not_eq_true'] at h
      exact ⟨h.2.1, replacePerf_keepsOut h.2.2⟩
  | absv i => exact replacePerf_tame (e := i) ho he h
  | _ => trivial
theorem replacePerf_tameL {O : Oracle} {old new : Expr} (ho : ∀ b, NoFlt b → (beq O b old = true ↔ b = old)) : ∀ {ts : List Expr},
    NoFltL ts → TameRL old new ts = true → TamePL (replacePerf O old new) ts := by
  intro ts he h
  cases ts with
  | nil => trivial
  | cons t r =>
    simp only [TameRL, Bool.and_eq_true] at h
    exact ⟨replacePerf_tame ho he.1 h.1, replacePerf_tameL ho he.2 h.2⟩
end


theorem mapR_congr {α β : Type} {f g : α → R β} : ∀ {l : List α}, (∀ a ∈ l, f a = g a) → mapR f l = mapR g l
  | [], _ => rfl
  | a :: r, h => by
    simp only [mapR]
    rw [h a (by simp), mapR_congr fun b hb => h b (by simp [hb])]

theorem replaceE_congr {O : Oracle} {p q : Nat → Expr → R Rep} : ∀ (n : Nat) {e : Expr},
    (∀ k s, Sub s e → p k s = q k s) → replaceE O p n e = replaceE O q n e
  | 0, _, _ => rfl
  | n + 1, e, h => by
    have ih := fun {e : Expr} => replaceE_congr (O := O) (p := p) (q := q) n (e := e)
    have hc : ∀ t ∈ e.children, replaceE O p n t = replaceE O q n t := fun t ht => ih fun k s hs => h k s (.child ht hs)
    unfold replaceE
    rw [h n e .here]
    congr 1
    funext v
    cases v <;> try rfl
    cases e <;> dsimp only
    case sum ts => simp only [children] at hc; rw [mapR_congr hc]
    case prod ts => simp only [children] at hc; rw [mapR_congr hc]
    case pow b x => rw [hc b (by simp [children]), hc x (by simp [children])]
    case log b x => rw [hc b (by simp [children]), hc x (by simp [children])]
    case trig f x => rw [hc x (by simp [children])]
    case absv x => rw [hc x (by simp [children])]

end Simpy
