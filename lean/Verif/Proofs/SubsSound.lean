import Verif.Model.Calculus
import Verif.Spec.Subs
import Verif.Proofs.AdmExpand
import Verif.Proofs.Syms

/-! `subs` computes the value at the updated assignment. -/

namespace Simpy
open Expr

/-- What a run of `e.subs(σ)` with `n` stack levels needs besides `e` being defined at the updated assignment: the
rebuilt radicands and arguments of logarithms are principal (`RadOk`, `HN`), trig functions of inverse trig functions
have principal radicands (`TrigSide`), and no inverse trig function is applied to its own trig function. -/
def SubsOk (O : Oracle) (ρ : Str → ℝ) (σ : Str → Option Expr) : Nat → Expr → Prop
  | 0, _ => True
  | n + 1, e =>
    match e with
    | sum ts => ∀ t ∈ ts, SubsOk O ρ σ n t
    | prod ts => ∀ t ∈ ts, SubsOk O ρ σ n t
    | pow b x => SubsOk O ρ σ n b ∧ SubsOk O ρ σ n x ∧ (intExp x = false → ∀ b' x', subsE O n σ b = .ok b' →
        subsE O n σ x = .ok x' → intExp x' = false → RadOk ρ x' b')
    | log i b => SubsOk O ρ σ n i ∧ SubsOk O ρ σ n b ∧ ∀ i', subsE O n σ i = .ok i' → HN ρ i'
    | trig f i => SubsOk O ρ σ n i ∧ ∀ i', subsE O n σ i = .ok i' →
        if f.isInverse then ∀ g w, i' = trig g w → g.isInverse = true
        else TrigSide O ρ n i' ∧ (f = .cot → (∃ g w, i' = trig g w ∧ g.isInverse = true) → Real.cos (den ρ i') ≠ 0)
    | absv i => SubsOk O ρ σ n i
    | _ => True

theorem subs_list {O : Oracle} {ρ ρ' : Str → ℝ} {st : Bool} : ∀ {ts us : List Expr},
    List.Forall₂ (fun t u => WF u ∧ DomS st ρ u ∧ den ρ u = den ρ' t) ts us →
    (∀ u ∈ us, WF u) ∧ (∀ u ∈ us, DomS st ρ u) ∧ us.map (den ρ) = ts.map (den ρ')
  | [], _, .nil => by simp
  | _ :: _, _ :: _, .cons h1 h2 => by
    obtain ⟨a, b, c⟩ := subs_list (O := O) h2
    refine ⟨?_, ?_, by simp [h1.2.2, c]⟩
    · intro u hu; rcases List.mem_cons.1 hu with rfl | hu; exacts [h1.1, a u hu]
    · intro u hu; rcases List.mem_cons.1 hu with rfl | hu; exacts [h1.2.1, b u hu]

theorem subs_sound {O : Oracle} (hO : O.Exact) {ρ : Str → ℝ} {σ : Str → Option Expr} {st : Bool}
    (hσ : ∀ s v, σ s = some v → WF v) : ∀ (n : Nat) {e r : Expr}, WF e →
    (∀ s ∈ syms e, ∀ v, σ s = some v → DomS st ρ v) → DomS st (subsEnv σ ρ) e → SubsOk O ρ σ n e →
    subsE O n σ e = .ok r → WF r ∧ DomS st ρ r ∧ den ρ r = den (subsEnv σ ρ) e
  | 0, _, _, _, _, _, _, h => by simp [subsE] at h
  | n + 1, e, r, we, dσ, de, hok, h => by
    have hC := ctors_sound hO n
    have ih := fun {e r : Expr} => subs_sound hO (ρ := ρ) (σ := σ) (st := st) hσ n (e := e) (r := r)
    unfold subsE at h
    cases e with
    | rat q => simp only [Except.ok.injEq] at h; subst h; exact ⟨by simp, by simp [DomS], by simp [den]⟩
    | flt q => simp [DomS] at de
    | pi => simp only [Except.ok.injEq] at h; subst h; exact ⟨by simp [WF], by simp [DomS], by simp [den]⟩
    | euler => simp only [Except.ok.injEq] at h; subst h; exact ⟨by simp [WF], by simp [DomS], by simp [den]⟩
    | inf => simp [DomS] at de
    | neginf => simp [DomS] at de
    | any k => simp [DomS] at de
    | sym s =>
      simp only [Except.ok.injEq] at h
      subst h
      refine ⟨?_, ?_, by simp only [den, subsEnv]⟩
      · cases hs : σ s with
        | none => simp [WF]
        | some v => exact hσ s v hs
      · cases hs : σ s with
        | none => simp [DomS]
        | some v => exact dσ s (by simp [syms]) v hs
    | sum ts =>
      obtain ⟨us, h1, h⟩ := bind_ok.1 h
      rw [mapR_ok] at h1
      obtain ⟨w1, d1, v1⟩ := subs_list (O := O) (ρ' := subsEnv σ ρ) (forall₂_of_mem h1 fun t ht u hu =>
          ih ((WF_sum).1 we t ht) (fun s hs => dσ s (by simp only [syms, symsL_mem]; exact ⟨t, ht, hs⟩))
            (Dom_sum.1 de t ht) ((show ∀ t ∈ ts, SubsOk O ρ σ n t from hok) t ht) hu)
      obtain ⟨v2, d2⟩ := hC.sum ρ us r w1 d1 h
      exact ⟨hC.sumW us r w1 h, d2, by rw [v2, v1, den_sum]⟩
    | prod ts =>
      obtain ⟨us, h1, h⟩ := bind_ok.1 h
      rw [mapR_ok] at h1
      obtain ⟨w1, d1, v1⟩ := subs_list (O := O) (ρ' := subsEnv σ ρ) (forall₂_of_mem h1 fun t ht u hu =>
          ih ((WF_prod.1 we).2 t ht) (fun s hs => dσ s (by simp only [syms, symsL_mem]; exact ⟨t, ht, hs⟩))
            (Dom_prod.1 de t ht) ((show ∀ t ∈ ts, SubsOk O ρ σ n t from hok) t ht) hu)
      obtain ⟨v2, d2⟩ := hC.prod ρ us r w1 d1 h
      exact ⟨hC.prodW us r w1 h, d2, by rw [v2, v1, den_prod]⟩
    | pow b x =>
      obtain ⟨b', h1, h⟩ := bind_ok.1 h
      obtain ⟨x', h2, h⟩ := bind_ok.1 h
      obtain ⟨o1, o2, o3⟩ := hok
      obtain ⟨db, dx, d3, d4, d5⟩ := de
      obtain ⟨w1, e1, v1⟩ := ih we.1 (fun s hs => dσ s (by simp [syms, hs])) db o1 h1
      obtain ⟨w2, e2, v2⟩ := ih we.2.1 (fun s hs => dσ s (by simp [syms, hs])) dx o2 h2
      have hint : intExp x = true → x' = x := by
        intro hi
        obtain ⟨k, rfl⟩ := intExp_iff.1 hi
        cases n with
        | zero => simp [subsE] at h2
        | succ n => simpa [subsE, eq_comm] using h2
      have hpd : PowDomS st ρ b' x' := by
        refine ⟨e1, e2, by rw [v1, v2]; exact d3, ?_, ?_⟩
        · intro hx'
          refine o3 ?_ b' x' h1 h2 hx'
          cases hi : intExp x with
          | false => rfl
          | true => rw [hint hi, hi] at hx'; simp at hx'
        · intro hs
          rw [v1, v2]
          refine (d5 hs).imp_right fun ⟨a, b⟩ => ⟨?_, b⟩
          rw [hint a]; exact a
      obtain ⟨v3, d6⟩ := hC.pow ρ b' x' r w1 w2 hpd h
      exact ⟨hC.powW b' x' r w1 w2 h, d6, by rw [v3, v1, v2]; simp only [den]⟩
    | log i b =>
      obtain ⟨i', h1, h⟩ := bind_ok.1 h
      obtain ⟨b', h2, h⟩ := bind_ok.1 h
      obtain ⟨o1, o2, o3⟩ := hok
      obtain ⟨di, db, d3, d4, d5, d6⟩ := de
      obtain ⟨w1, e1, v1⟩ := ih we.1 (fun s hs => dσ s (by simp [syms, hs])) di o1 h1
      obtain ⟨w2, e2, v2⟩ := ih we.2 (fun s hs => dσ s (by simp [syms, hs])) db o2 h2
      obtain ⟨v3, -, d7⟩ := logCtor_V hO.isPi hO.isE (st := st) (ρ := ρ)
        ⟨e1.domF, e2.domF, by rw [v1]; exact d4, by rw [v2]; exact d5, by rw [v2]; exact d6⟩ h
      exact ⟨logCtor_W w1 w2 h, d7 e1 e2 (o3 i' h1), by rw [v3, v1, v2]; simp only [den]⟩
    | trig f i =>
      obtain ⟨i', h1, h⟩ := bind_ok.1 h
      obtain ⟨o1, o2⟩ := hok
      obtain ⟨di, d2, d3⟩ := de
      obtain ⟨w1, e1, v1⟩ := ih (e := i) we (fun s hs => dσ s (by simpa [syms] using hs)) di o1 h1
      have o2 := o2 i' h1
      refine ⟨trigCtor_W hO n w1 h, ?_⟩
      simp only [den]
      rw [← v1]
      rw [← v1] at d2 d3
      cases hf : f.isInverse with
      | true =>
        rw [hf, if_pos rfl] at o2
        obtain ⟨-, a, b⟩ := trigCtor_inv_V n hf e1 d2 d3 (fun g w hg hgi => absurd (o2 g w hg) (by simp [hgi])) h
        exact ⟨b, a⟩
      | false =>
        rw [hf, if_neg (by simp)] at o2
        obtain ⟨a, b⟩ := trigCtor_V hO n hf w1 e1 d2 o2.1 o2.2 h
        exact ⟨b, a⟩
    | absv i =>
      obtain ⟨i', h1, h⟩ := bind_ok.1 h
      obtain ⟨di, d2⟩ := de
      obtain ⟨w1, e1, v1⟩ := ih (e := i) we (fun s hs => dσ s (by simpa [syms] using hs)) di hok h1
      obtain ⟨v3, d6⟩ := hC.abs ρ i' r w1 e1 (by rw [v1]; exact d2) h
      exact ⟨hC.absW i' r w1 h, d6, by rw [v3, v1]; simp only [den]⟩

/-- `subs` introduces no inverse trig function. -/
theorem subs_noInv {O : Oracle} {σ : Str → Option Expr} (hσ : ∀ s v, σ s = some v → containsCls isInvTrig v = false) :
    ∀ (n : Nat) {e r : Expr}, containsCls isInvTrig e = false → subsE O n σ e = .ok r → containsCls isInvTrig r = false
  | 0, _, _, _, h => by simp [subsE] at h
  | n + 1, e, r, he, h => by
    have hP := ctors_pres closed_noInv O n
    have ih := fun {e r : Expr} => subs_noInv (O := O) hσ n (e := e) (r := r)
    unfold subsE at h
    cases e with
    | rat q => simp only [Except.ok.injEq] at h; subst h; exact he
    | flt q => simp only [Except.ok.injEq] at h; subst h; exact he
    | pi => simp only [Except.ok.injEq] at h; subst h; exact he
    | euler => simp only [Except.ok.injEq] at h; subst h; exact he
    | inf => simp only [Except.ok.injEq] at h; subst h; exact he
    | neginf => simp only [Except.ok.injEq] at h; subst h; exact he
    | any k => simp at h
    | sym s =>
      simp only [Except.ok.injEq] at h
      subst h
      cases hs : σ s with
      | none => exact he
      | some v => exact hσ s v hs
    | sum ts =>
      obtain ⟨us, h1, h⟩ := bind_ok.1 h
      exact hP.sum us r (mapR_mem h1 fun t ht u hu => ih (closed_noInv.sum.1 he t ht) hu) h
    | prod ts =>
      obtain ⟨us, h1, h⟩ := bind_ok.1 h
      exact hP.prod us r (mapR_mem h1 fun t ht u hu => ih (closed_noInv.prod.1 he t ht) hu) h
    | pow b x =>
      obtain ⟨b', h1, h⟩ := bind_ok.1 h
      obtain ⟨x', h2, h⟩ := bind_ok.1 h
      have := closed_noInv.pow.1 he
      exact hP.pow b' x' r (ih this.1 h1) (ih this.2 h2) h
    | log i b =>
      obtain ⟨i', h1, h⟩ := bind_ok.1 h
      obtain ⟨b', h2, h⟩ := bind_ok.1 h
      have := closed_noInv.log he
      exact logCtor_Q closed_noInv (fun _ => id) (fun i b hi hb => by simp [containsCls, isInvTrig, hi, hb]) (ih this.1 h1)
        (ih this.2 h2) h
    | trig f i =>
      obtain ⟨i', h1, h⟩ := bind_ok.1 h
      refine trigCtor_Q closed_noInv n (fun j hj => ?_) (ih (closed_noInv.trig he) h1) h
      simp only [containsCls, isInvTrig, Bool.or_eq_false_iff] at he ⊢
      exact ⟨he.1, hj⟩
    | absv i =>
      obtain ⟨i', h1, h⟩ := bind_ok.1 h
      exact hP.abs i' r (ih (closed_noInv.absv.1 he) h1) h

theorem simpleArg_subs {O : Oracle} {σ : Str → Option Expr} {n : Nat} {b b' : Expr} (hb : simpleArg σ b = true)
    (h : subsE O n σ b = .ok b') : baseOk b' = true := by
  cases n with
  | zero => simp [subsE] at h
  | succ n =>
    cases b <;> simp [simpleArg] at hb <;> simp only [subsE, Except.ok.injEq] at h <;> subst h <;> try rfl
    next s =>
      cases hs : σ s with
      | none => rfl
      | some v => simpa [hs] using hb

theorem tameL_iff {σ : Str → Option Expr} : ∀ {ts : List Expr}, TameL σ ts = true ↔ ∀ t ∈ ts, Tame σ t = true
  | [] => by simp [TameL]
  | t :: r => by simp [TameL, tameL_iff (ts := r)]

/-- On tame expressions the run conditions hold. -/
theorem subsOk_of_tame {O : Oracle} (hO : O.Exact) {ρ : Str → ℝ} {σ : Str → Option Expr}
    (hσ : ∀ s v, σ s = some v → WF v) (hi : ∀ s v, σ s = some v → containsCls isInvTrig v = false) : ∀ (n : Nat) {e : Expr}, WF e →
    (∀ s ∈ syms e, ∀ v, σ s = some v → Dom ρ v) → Dom (subsEnv σ ρ) e → Tame σ e = true →
    containsCls isInvTrig e = false → SubsOk O ρ σ n e
  | 0, _, _, _, _, _, _ => trivial
  | n + 1, e, we, dσ, de, ht, he => by
    have ih := fun {e : Expr} => subsOk_of_tame hO (ρ := ρ) (σ := σ) hσ hi n (e := e)
    have hval : ∀ {b b' : Expr}, WF b → (∀ s ∈ syms b, ∀ v, σ s = some v → Dom ρ v) → Dom (subsEnv σ ρ) b →
        Tame σ b = true → containsCls isInvTrig b = false → subsE O n σ b = .ok b' → den ρ b' = den (subsEnv σ ρ) b :=
      fun wb db1 db ht he h => (subs_sound hO hσ n wb db1 db (ih wb db1 db ht he) h).2.2
    cases e with
    | sum ts =>
      simp only [Tame] at ht
      intro t hmem
      exact ih (WF_sum.1 we t hmem) (fun s hs => dσ s (by simp only [syms, symsL_mem]; exact ⟨t, hmem, hs⟩))
        (Dom_sum.1 de t hmem) (tameL_iff.1 ht t hmem) (closed_noInv.sum.1 he t hmem)
    | prod ts =>
      simp only [Tame] at ht
      intro t hmem
      exact ih ((WF_prod.1 we).2 t hmem) (fun s hs => dσ s (by simp only [syms, symsL_mem]; exact ⟨t, hmem, hs⟩))
        (Dom_prod.1 de t hmem) (tameL_iff.1 ht t hmem) (closed_noInv.prod.1 he t hmem)
    | pow b x =>
      simp only [Tame, Bool.and_eq_true, Bool.or_eq_true] at ht
      obtain ⟨db, dx, d3, d4, d5⟩ := de
      have hn := closed_noInv.pow.1 he
      have sb : ∀ s ∈ syms b, ∀ v, σ s = some v → Dom ρ v := fun s hs => dσ s (by simp [syms, hs])
      have sx : ∀ s ∈ syms x, ∀ v, σ s = some v → Dom ρ v := fun s hs => dσ s (by simp [syms, hs])
      refine ⟨ih we.1 sb db ht.1.1 hn.1, ih we.2.1 sx dx ht.1.2 hn.2, fun hx b' x' h1 h2 hx' => ?_⟩
      have hs : simpleArg σ b = true := ht.2.resolve_left (by simp [hx])
      refine HN.radOk ((HN_of_baseOk (simpleArg_subs hs h1)).2 ?_)
      rw [hval we.1 sb db ht.1.1 hn.1 h1]
      exact (d4 hx).nonneg
    | log i b =>
      simp only [Tame, Bool.and_eq_true] at ht
      obtain ⟨di, db, d3, d4, d5, d6⟩ := de
      have hn := closed_noInv.log he
      have si : ∀ s ∈ syms i, ∀ v, σ s = some v → Dom ρ v := fun s hs => dσ s (by simp [syms, hs])
      have sb : ∀ s ∈ syms b, ∀ v, σ s = some v → Dom ρ v := fun s hs => dσ s (by simp [syms, hs])
      refine ⟨ih we.1 si di ht.1.1 hn.1, ih we.2 sb db ht.1.2 hn.2, fun i' h1 => ?_⟩
      refine (HN_of_baseOk (simpleArg_subs ht.2 h1)).2 ?_
      rw [hval we.1 si di ht.1.1 hn.1 h1]
      exact d4.le
    | trig f i =>
      simp only [Tame] at ht
      have si : ∀ s ∈ syms i, ∀ v, σ s = some v → Dom ρ v := fun s hs => dσ s (by simpa [syms] using hs)
      have hn := closed_noInv.trig he
      refine ⟨ih (e := i) we si de.1 ht hn, fun i' h1 => ?_⟩
      have hf : f.isInverse = false := by
        simp only [containsCls, isInvTrig, Bool.or_eq_false_iff] at he; exact he.1
      have hi' := subs_noInv hi n hn h1
      rw [hf, if_neg (by simp)]
      refine ⟨trigSide_of_noInv O ρ n hi', ?_⟩
      rintro - ⟨g, w, rfl, hg⟩
      simp [containsCls, isInvTrig, hg] at hi'
    | absv i =>
      simp only [Tame] at ht
      have si : ∀ s ∈ syms i, ∀ v, σ s = some v → Dom ρ v := fun s hs => dσ s (by simpa [syms] using hs)
      exact ih (e := i) we si de.1 ht (closed_noInv.absv.1 he)
    | _ => trivial

end Simpy
