import Verif.Proofs.ReplaceSound

/-! `replace_class` with value-preserving replacements preserves the value. -/

namespace Simpy
open Expr

/-- The replacements of the trig functions are right at arguments whose value satisfies `S`. -/
def NewOk (st : Bool) (ρ : Str → ℝ) (S : ℝ → Prop) (new : TrigFn → Option (Nat → Expr → R Expr)) : Prop :=
  ∀ f g, new f = some g → f.isInverse = false ∧ ∀ n i r, WF i → DomS st ρ i → containsCls isInvTrig i = false → f.ok (den ρ i) →
    S (den ρ i) → g n i = .ok r → WF r ∧ DomS st ρ r ∧ den ρ r = f.real (den ρ i)

/-- The condition on the arguments of the replaced functions. -/
def ArgsOk (ρ : Str → ℝ) (S : ℝ → Prop) (new : TrigFn → Option (Nat → Expr → R Expr)) (e : Expr) : Prop :=
  ∀ f i, Sub (trig f i) e → (new f).isSome = true → S (den ρ i)

theorem ArgsOk.child {ρ : Str → ℝ} {S : ℝ → Prop} {new : TrigFn → Option (Nat → Expr → R Expr)} {e t : Expr}
    (h : ArgsOk ρ S new e) (ht : t ∈ e.children) : ArgsOk ρ S new t := fun f i hs => h f i (.child ht hs)

theorem replaceClass_sound {O : Oracle} (hO : O.Exact) {ρ : Str → ℝ} {st : Bool} {S : ℝ → Prop}
    {new : TrigFn → Option (Nat → Expr → R Expr)} (hn : NewOk st ρ S new) : ∀ (n : Nat) {e r : Expr}, WF e → DomS st ρ e →
    ArgsOk ρ S new e → RunTameC O new n e = true →
    replaceClass O new n e = .ok r → WF r ∧ DomS st ρ r ∧ den ρ r = den ρ e
  | 0, _, _, _, _, _, _, h => by simp [replaceClass] at h
  | n + 1, e, r, we, de, ha, hok, h => by
    have hC := ctors_sound hO n
    have ih := fun {e r : Expr} => replaceClass_sound hO hn n (e := e) (r := r)
    unfold replaceClass at h
    unfold RunTameC at hok
    split at h
    · cases h; exact ⟨we, de, rfl⟩
    next hc =>
    rw [if_neg hc] at hok
    cases e with
    | sum ts =>
      simp only [List.all_eq_true] at hok
      obtain ⟨us, h1, h⟩ := bind_ok.1 h
      rw [mapR_ok] at h1
      obtain ⟨w1, d1, v1⟩ := subs_list (O := O) (ρ' := ρ) (forall₂_of_mem h1 fun t ht u hu =>
          ih ((WF_sum).1 we t ht) (Dom_sum.1 de t ht) (ha.child ht) (hok t ht) hu)
      obtain ⟨v2, d2⟩ := hC.sum ρ us r w1 d1 h
      exact ⟨hC.sumW us r w1 h, d2, by rw [v2, v1, den_sum]⟩
    | prod ts =>
      simp only [List.all_eq_true] at hok
      obtain ⟨us, h1, h⟩ := bind_ok.1 h
      rw [mapR_ok] at h1
      obtain ⟨w1, d1, v1⟩ := subs_list (O := O) (ρ' := ρ) (forall₂_of_mem h1 fun t ht u hu =>
          ih ((WF_prod.1 we).2 t ht) (Dom_prod.1 de t ht) (ha.child ht) (hok t ht) hu)
      obtain ⟨v2, d2⟩ := hC.prod ρ us r w1 d1 h
      exact ⟨hC.prodW us r w1 h, d2, by rw [v2, v1, den_prod]⟩
    | pow b x =>
      obtain ⟨b', h1, h⟩ := bind_ok.1 h
      obtain ⟨x', h2, h⟩ := bind_ok.1 h
      simp only [Bool.and_eq_true, Bool.or_eq_true, Bool.not_eq_true'] at hok
      obtain ⟨⟨⟨t1, t2⟩, t3⟩, t4⟩ := hok
      obtain ⟨db, dx, d3, d4, d5⟩ := de
      obtain ⟨w1, e1, v1⟩ := ih we.1 db (ha.child (by simp [children])) t1 h1
      obtain ⟨w2, e2, v2⟩ := ih we.2.1 dx (ha.child (by simp [children])) t2 h2
      rw [h2] at t3 t4
      rw [h1] at t4
      simp only [okR] at t3 t4
      have hpd : PowDomS st ρ b' x' := by
        refine ⟨e1, e2, by rw [v1, v2]; exact d3, ?_, ?_⟩
        · intro hx'
          have hx : intExp x = false := t3.resolve_right (by simp [hx'])
          have h0 : 0 ≤ den ρ b' := v1 ▸ (d4 hx).nonneg
          exact HN.radOk ((HN_of_baseOk (t4.resolve_left (by simp [hx']))).2 h0)
        · intro hs
          rw [v1, v2]
          exact (d5 hs).imp_right fun ⟨a, b⟩ => ⟨t3.resolve_left (by simp [a]), b⟩
      obtain ⟨v3, d6⟩ := hC.pow ρ b' x' r w1 w2 hpd h
      exact ⟨hC.powW b' x' r w1 w2 h, d6, by rw [v3, v1, v2]; simp only [den]⟩
    | log i b =>
      obtain ⟨i', h1, h⟩ := bind_ok.1 h
      obtain ⟨b', h2, h⟩ := bind_ok.1 h
      simp only [Bool.and_eq_true] at hok
      obtain ⟨⟨t1, t2⟩, t3⟩ := hok
      obtain ⟨di, db, d3, d4, d5, d6⟩ := de
      obtain ⟨w1, e1, v1⟩ := ih we.1 di (ha.child (by simp [children])) t1 h1
      obtain ⟨w2, e2, v2⟩ := ih we.2 db (ha.child (by simp [children])) t2 h2
      rw [h1] at t3
      obtain ⟨v3, -, d7⟩ := logCtor_V hO.isPi hO.isE (st := st) (ρ := ρ)
        ⟨e1.domF, e2.domF, by rw [v1]; exact d4, by rw [v2]; exact d5, by rw [v2]; exact d6⟩ h
      exact ⟨logCtor_W w1 w2 h, d7 e1 e2 ((HN_of_baseOk t3).2 (by rw [v1]; exact d4.le)), by rw [v3, v1, v2]; simp only [den]⟩
    | trig f i =>
      obtain ⟨i', h1, h⟩ := bind_ok.1 h
      simp only [Bool.and_eq_true] at hok
      obtain ⟨t1, t2⟩ := hok
      obtain ⟨di, d2, d3⟩ := de
      obtain ⟨w1, e1, v1⟩ := ih (e := i) we di (ha.child (by simp [children])) t1 h1
      rw [h1] at t2
      simp only [okR] at t2
      simp only [den]
      rw [← v1]
      rw [← v1] at d2 d3
      cases hg : new f with
      | some g =>
        rw [hg] at h
        obtain ⟨hf, hn⟩ := hn f g hg
        rw [hf, if_neg (by simp)] at t2
        refine hn n i' r w1 e1 (by simpa using t2) d2 ?_ h
        rw [v1]
        exact ha f i .here (by simp [hg])
      | none =>
        rw [hg] at h
        refine ⟨trigCtor_W hO n w1 h, ?_⟩
        cases hf : f.isInverse with
        | true =>
          rw [hf, if_pos rfl] at t2
          obtain ⟨-, a, b⟩ := trigCtor_inv_V n hf e1 d2 d3 (fun g w hg hgi => by
            subst hg; simp [isFwdTrig, hgi] at t2) h
          exact ⟨b, a⟩
        | false =>
          rw [hf, if_neg (by simp)] at t2
          simp only [Bool.not_eq_true'] at t2
          obtain ⟨a, b⟩ := trigCtor_V hO n hf w1 e1 d2 (trigSide_of_noInv O ρ n t2) (by
            rintro - ⟨g, w, rfl, hg⟩
            simp [containsCls, isInvTrig, hg] at t2) h
          exact ⟨b, a⟩
    | absv i =>
      obtain ⟨i', h1, h⟩ := bind_ok.1 h
      obtain ⟨di, d2⟩ := de
      obtain ⟨w1, e1, v1⟩ := ih (e := i) we di (ha.child (by simp [children])) hok h1
      obtain ⟨v3, d6⟩ := hC.abs ρ i' r w1 e1 (by rw [v1]; exact d2) h
      exact ⟨hC.absW i' r w1 h, d6, by rw [v3, v1]; simp only [den]⟩
    | _ => cases h; exact ⟨we, de, rfl⟩

theorem AdmE.replaceClass {O : Oracle} {Q : Expr → Prop} (hE : AdmE O Q)
    (plog : ∀ {i b r : Expr}, Q i → Q b → logCtor O i b = .ok r → Q r) {new : TrigFn → Option (Nat → Expr → R Expr)}
    (hn : ∀ f g, new f = some g → ∀ n i r, Q i → g n i = .ok r → Q r) : ∀ (n : Nat) {e r : Expr}, Q e →
    replaceClass O new n e = .ok r → Q r
  | 0, _, _, _, h => by simp [Simpy.replaceClass] at h
  | n + 1, e, r, qe, h => by
    have ih := fun {e r : Expr} => AdmE.replaceClass hE plog hn n (e := e) (r := r)
    unfold Simpy.replaceClass at h
    split at h
    · cases h; exact qe
    cases e with
    | sum ts =>
      obtain ⟨us, h1, h⟩ := bind_ok.1 h
      exact (hE.pres n).sum us r (mapR_mem h1 fun t ht w hw => ih (hE.sum qe t ht) hw) h
    | prod ts =>
      obtain ⟨us, h1, h⟩ := bind_ok.1 h
      exact (hE.pres n).prod us r (mapR_mem h1 fun t ht w hw => ih (hE.prod qe t ht) hw) h
    | pow b x =>
      obtain ⟨b', h1, h⟩ := bind_ok.1 h
      obtain ⟨x', h2, h⟩ := bind_ok.1 h
      exact (hE.pres n).pow b' x' r (ih (hE.pow qe).1 h1) (ih (hE.pow qe).2 h2) h
    | log i b =>
      obtain ⟨i', h1, h⟩ := bind_ok.1 h
      obtain ⟨b', h2, h⟩ := bind_ok.1 h
      exact plog (ih (hE.log qe).1 h1) (ih (hE.log qe).2 h2) h
    | trig f i =>
      obtain ⟨i', h1, h⟩ := bind_ok.1 h
      have qi := ih (hE.trig qe) h1
      split at h
      · next g hg => exact hn f g hg n i' r qi h
      · exact hE.rtrig n qe qi h
    | absv i =>
      obtain ⟨i', h1, h⟩ := bind_ok.1 h
      exact (hE.pres n).abs i' r (ih (hE.absv qe) h1) h
    | _ => cases h; exact qe

theorem Adm.replaceClass {O : Oracle} {Q : Expr → Prop} (hQ : Adm O Q) {new : TrigFn → Option (Nat → Expr → R Expr)}
    (hn : ∀ f g, new f = some g → ∀ n i r, Q i → g n i = .ok r → Q r) (n : Nat) {e r : Expr} (qe : Q e)
    (h : replaceClass O new n e = .ok r) : Q r := hQ.toAdmE.replaceClass hQ.plog hn n qe h

end Simpy
