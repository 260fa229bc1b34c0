import Verif.Model.Calculus
import Verif.Proofs.Closed
import Verif.Proofs.Built

/-!
# Predicates preserved by every constructor, hence by `subs`, `diff` and `expand`
-/

namespace Simpy
open Expr

/-- `Q` passes to children, is preserved by the arithmetic constructors, and by rebuilding a logarithm or trig function with
another argument. -/
structure AdmE (O : Oracle) (Q : Expr → Prop) : Prop where
  acc : ∀ {c : Expr}, c.isAcc = true → Q c
  eul : Q euler
  sum : ∀ {ts : List Expr}, Q (sum ts) → ∀ t ∈ ts, Q t
  prod : ∀ {ts : List Expr}, Q (prod ts) → ∀ t ∈ ts, Q t
  pow : ∀ {b x : Expr}, Q (pow b x) → Q b ∧ Q x
  log : ∀ {i b : Expr}, Q (log i b) → Q i ∧ Q b
  trig : ∀ {f : TrigFn} {i : Expr}, Q (trig f i) → Q i
  absv : ∀ {i : Expr}, Q (absv i) → Q i
  pres : ∀ n, Pres Q (ctors O n)
  rlog : ∀ {i b i' r : Expr}, Q (Expr.log i b) → Q i' → logCtor O i' euler = .ok r → Q r
  rtrig : ∀ (n : Nat) {f : TrigFn} {i i' r : Expr}, Q (Expr.trig f i) → Q i' → trigCtor O n f i' = .ok r → Q r

/-- `Q` passes to children and is preserved by all the constructors. -/
structure Adm (O : Oracle) (Q : Expr → Prop) : Prop extends AdmE O Q where
  plog : ∀ {i b r : Expr}, Q i → Q b → logCtor O i b = .ok r → Q r
  ptrig : ∀ (n : Nat) (f : TrigFn) {i r : Expr}, Q i → trigCtor O n f i = .ok r → Q r

theorem Closed.adm {Q : Expr → Prop} (hQ : Closed Q) (O : Oracle) (he : Q euler)
    (hl : ∀ i b, Q i → Q b → Q (Expr.log i b)) (ht : ∀ f i, Q i → Q (Expr.trig f i)) : Adm O Q where
  acc := hQ.acc
  eul := he
  sum := hQ.sum.1
  prod := hQ.prod.1
  pow := hQ.pow.1
  log := hQ.log
  trig := hQ.trig
  absv := hQ.absv.1
  pres := ctors_pres hQ O
  rlog := fun _ hi h => logCtor_Q hQ (fun _ => id) hl hi he h
  rtrig := fun n f _ _ _ _ hi h => trigCtor_Q hQ n (ht f) hi h
  plog := fun hi hb h => logCtor_Q hQ (fun _ => id) hl hi hb h
  ptrig := fun n f _ _ hi h => trigCtor_Q hQ n (ht f) hi h

theorem adm_syms (O : Oracle) (S : Str → Prop) : Adm O (fun e => ∀ s ∈ syms e, S s) :=
  (closed_syms S).adm O (by simp [syms])
    (by intro i b hi hb; simp only [syms, List.mem_append]; rintro s (h | h); exacts [hi s h, hb s h])
    (by intro f i hi; simpa only [syms] using hi)

theorem adm_WF {O : Oracle} (hO : O.Exact) : Adm O WF where
  acc := by intro c hc; cases c <;> simp_all [isAcc, WF]
  eul := by simp [WF]
  sum := fun h => WF_sum.1 h
  prod := fun h => (WF_prod.1 h).2
  pow := fun h => ⟨h.1, h.2.1⟩
  log := fun h => h
  trig := fun h => h
  absv := fun h => h
  pres := fun n => ⟨(ctors_sound hO n).sumW, (ctors_sound hO n).prodW, (ctors_sound hO n).powW, (ctors_sound hO n).absW⟩
  rlog := fun _ hi h => logCtor_W hi (by simp [WF]) h
  rtrig := fun n _ _ _ _ _ hi h => trigCtor_W hO n hi h
  plog := fun hi hb h => logCtor_W hi hb h
  ptrig := fun n _ _ _ hi h => trigCtor_W hO n hi h

theorem forall₂_of_mem {α β : Type} {P Q : α → β → Prop} : ∀ {l : List α} {m : List β}, List.Forall₂ P l m →
    (∀ a ∈ l, ∀ b, P a b → Q a b) → List.Forall₂ Q l m
  | [], _, .nil, _ => .nil
  | _ :: _, _ :: _, .cons h1 h2, k => .cons (k _ (by simp) _ h1) (forall₂_of_mem h2 fun a ha => k a (by simp [ha]))

section
variable {O : Oracle} {Q : Expr → Prop} (hQ : AdmE O Q)
include hQ

theorem AdmE.rat (q : ℚ) : Q (rat q) := hQ.acc rfl

theorem AdmE.opAdd {n : Nat} {a b r : Expr} (ha : Q a) (hb : Q b) (h : opAdd (ctors O n) a b = .ok r) : Q r := by
  unfold Simpy.opAdd at h; split at h
  · simp only [Except.ok.injEq] at h; subst h; exact hQ.rat _
  · exact (hQ.pres n).sum _ _ (by simp [ha, hb]) h

theorem AdmE.opMul {n : Nat} {a b r : Expr} (ha : Q a) (hb : Q b) (h : opMul (ctors O n) a b = .ok r) : Q r := by
  unfold Simpy.opMul at h; split at h
  · simp only [Except.ok.injEq] at h; subst h; exact hQ.rat _
  · exact (hQ.pres n).prod _ _ (by simp [ha, hb]) h

theorem AdmE.opSub {n : Nat} {a b r : Expr} (ha : Q a) (hb : Q b) (h : opSub (ctors O n) a b = .ok r) : Q r := by
  unfold Simpy.opSub at h; split at h
  · simp only [Except.ok.injEq] at h; subst h; exact hQ.rat _
  · obtain ⟨m, hm, h⟩ := bind_ok.1 h
    exact hQ.opAdd ha (hQ.opMul (hQ.rat _) hb hm) h

theorem AdmE.opDiv {n : Nat} {a b r : Expr} (ha : Q a) (hb : Q b) (h : opDiv (ctors O n) a b = .ok r) : Q r := by
  have gen : (do let i ← (ctors O n).pow b (Expr.rat (-1)); (ctors O n).prod [a, i]) = .ok r → Q r := by
    intro h
    obtain ⟨i, hi, h⟩ := bind_ok.1 h
    exact (hQ.pres n).prod _ _ (by simp [ha, (hQ.pres n).pow _ _ _ hb (hQ.rat _) hi]) h
  unfold Simpy.opDiv at h; split at h
  · split at h
    · simp only [Except.ok.injEq] at h; subst h; exact hQ.rat _
    · exact gen h
  · exact gen h

theorem AdmE.opPow {n : Nat} {a b r : Expr} (ha : Q a) (hb : Q b) (h : opPow O (ctors O n) a b = .ok r) : Q r := by
  unfold Simpy.opPow at h; split at h
  · split at h
    · obtain ⟨v, hv, h⟩ := bind_ok.1 h
      simp only [pure_ok] at h; subst h; exact hQ.rat _
    · obtain ⟨v, hv, h⟩ := bind_ok.1 h
      exact (hQ.pres n).pow _ _ _ ha hb h
  · exact (hQ.pres n).pow _ _ _ ha hb h

theorem AdmE.opSqrt {n : Nat} {a r : Expr} (ha : Q a) (h : opSqrt O (ctors O n) a = .ok r) : Q r :=
  hQ.opPow ha (hQ.rat _) h

mutual
theorem AdmE.opNeg {n : Nat} : ∀ {a r : Expr}, Q a → opNeg (ctors O n) a = .ok r → Q r := by
  intro a r ha h
  have gen : (ctors O n).prod [Expr.rat (-1), a] = .ok r → Q r :=
    fun h => (hQ.pres n).prod _ _ (by simp [ha, hQ.rat]) h
  cases a with
  | rat q => simp only [Simpy.opNeg, Except.ok.injEq] at h; subst h; exact hQ.rat _
  | flt v =>
    cases v <;> simp only [Simpy.opNeg, Except.ok.injEq] at h <;> subst h <;> exact hQ.acc rfl
  | inf => simp only [Simpy.opNeg, Except.ok.injEq] at h; subst h; exact hQ.acc rfl
  | neginf => simp only [Simpy.opNeg, Except.ok.injEq] at h; subst h; exact hQ.acc rfl
  | sum ts =>
    have ih := fun ts' => AdmE.opNegL (n := n) ts (ts' := ts') (hQ.sum ha)
    simp only [Simpy.opNeg] at h
    split at h
    · simp at h
    · next ts' hts => exact (hQ.pres n).sum _ _ (ih ts' hts) h
  | _ => simp only [Simpy.opNeg] at h; exact gen h
theorem AdmE.opNegL {n : Nat} : ∀ (ts : List Expr) {ts' : List Expr}, (∀ t ∈ ts, Q t) →
    opNegL (ctors O n) ts = .ok ts' → ∀ t ∈ ts', Q t := by
  intro ts ts' hts h
  cases ts with
  | nil => simp only [Simpy.opNegL, Except.ok.injEq] at h; subst h; simp
  | cons a ts =>
    have h1 := fun r => AdmE.opNeg (n := n) (a := a) (r := r) (hts a (by simp))
    have h2 := fun r => AdmE.opNegL (n := n) ts (ts' := r) (fun t ht => hts t (by simp [ht]))
    simp only [Simpy.opNegL] at h
    split at h
    · simp at h
    · next t' ht =>
      split at h
      · simp at h
      · next r' hr =>
        simp only [Except.ok.injEq] at h; subst h
        intro t ht2
        rcases List.mem_cons.1 ht2 with rfl | ht2
        · exact h1 _ ht
        · exact h2 _ hr t ht2
end

omit hQ in
theorem forall₂_mem {α β : Type} {R' : α → β → Prop} {P : β → Prop} {l : List α} {m : List β}
    (h : List.Forall₂ R' l m) (hp : ∀ a ∈ l, ∀ b, R' a b → P b) : ∀ b ∈ m, P b := by
  induction h with
  | nil => simp
  | cons hab _ ih =>
    intro b hb
    rcases List.mem_cons.1 hb with rfl | hb
    · exact hp _ (by simp) _ hab
    · exact ih (fun a ha => hp a (by simp [ha])) b hb

omit hQ in
theorem mapR_mem {α β : Type} {f : α → R β} {P : β → Prop} {l : List α} {m : List β}
    (h : mapR f l = .ok m) (hp : ∀ a ∈ l, ∀ b, f a = .ok b → P b) : ∀ b ∈ m, P b :=
  forall₂_mem (mapR_ok.1 h) hp

end

section
variable {O : Oracle} {Q : Expr → Prop} (hQ : Adm O Q)
include hQ

/-- `subs`: the symbols are replaced, everything else is rebuilt. -/
theorem Adm.subsE (hpi : Q pi) {σ : Str → Option Expr} : ∀ (n : Nat) {e r : Expr},
    (∀ s ∈ syms e, Q ((σ s).getD (sym s))) → subsE O n σ e = .ok r → Q r
  | 0, e, r, _, h => by simp [Simpy.subsE] at h
  | n + 1, e, r, hs, h => by
    cases e with
    | sym s => simp only [Simpy.subsE, Except.ok.injEq] at h; subst h; exact hs s (by simp [syms])
    | any k => simp [Simpy.subsE] at h
    | sum ts =>
      simp only [Simpy.subsE] at h
      obtain ⟨us, hus, h⟩ := bind_ok.1 h
      refine (hQ.pres n).sum _ _ (mapR_mem hus ?_) h
      intro t ht u hu
      exact Adm.subsE hpi n (fun s hs' => hs s (by simp only [syms, symsL_mem]; exact ⟨t, ht, hs'⟩)) hu
    | prod ts =>
      simp only [Simpy.subsE] at h
      obtain ⟨us, hus, h⟩ := bind_ok.1 h
      refine (hQ.pres n).prod _ _ (mapR_mem hus ?_) h
      intro t ht u hu
      exact Adm.subsE hpi n (fun s hs' => hs s (by simp only [syms, symsL_mem]; exact ⟨t, ht, hs'⟩)) hu
    | pow b x =>
      simp only [Simpy.subsE] at h
      obtain ⟨b', hb, h⟩ := bind_ok.1 h
      obtain ⟨x', hx, h⟩ := bind_ok.1 h
      exact (hQ.pres n).pow _ _ _ (Adm.subsE hpi n (fun s hs' => hs s (by simp [syms, hs'])) hb)
        (Adm.subsE hpi n (fun s hs' => hs s (by simp [syms, hs'])) hx) h
    | log i b =>
      simp only [Simpy.subsE] at h
      obtain ⟨i', hi, h⟩ := bind_ok.1 h
      obtain ⟨b', hb, h⟩ := bind_ok.1 h
      exact hQ.plog (Adm.subsE hpi n (fun s hs' => hs s (by simp [syms, hs'])) hi)
        (Adm.subsE hpi n (fun s hs' => hs s (by simp [syms, hs'])) hb) h
    | trig f i =>
      simp only [Simpy.subsE] at h
      obtain ⟨i', hi, h⟩ := bind_ok.1 h
      exact hQ.ptrig n f (Adm.subsE hpi n (fun s hs' => hs s (by simp [syms, hs'])) hi) h
    | absv i =>
      simp only [Simpy.subsE] at h
      obtain ⟨i', hi, h⟩ := bind_ok.1 h
      exact (hQ.pres n).abs _ _ (Adm.subsE hpi n (fun s hs' => hs s (by simp [syms, hs'])) hi) h
    | pi => simp only [Simpy.subsE, Except.ok.injEq] at h; subst h; exact hpi
    | euler => simp only [Simpy.subsE, Except.ok.injEq] at h; subst h; exact hQ.eul
    | rat q => simp only [Simpy.subsE, Except.ok.injEq] at h; subst h; exact hQ.rat q
    | flt v => simp only [Simpy.subsE, Except.ok.injEq] at h; subst h; exact hQ.acc rfl
    | inf => simp only [Simpy.subsE, Except.ok.injEq] at h; subst h; exact hQ.acc rfl
    | neginf => simp only [Simpy.subsE, Except.ok.injEq] at h; subst h; exact hQ.acc rfl

theorem Adm.prodDiffTerms {n : Nat} {d : Expr → R Expr} : ∀ (ts pre : List Expr) {us : List Expr},
    (∀ t ∈ pre, Q t) → (∀ t ∈ ts, Q t) → (∀ t ∈ ts, ∀ r, d t = .ok r → Q r) →
    prodDiffTerms (ctors O n) d pre ts = .ok us → ∀ u ∈ us, Q u
  | [], pre, us, _, _, _, h => by
    simp only [Simpy.prodDiffTerms, Except.ok.injEq] at h; subst h; simp
  | t :: ts, pre, us, hp, ht, hd, h => by
    simp only [Simpy.prodDiffTerms] at h
    obtain ⟨dt, hdt, h⟩ := bind_ok.1 h
    obtain ⟨p, hp', h⟩ := bind_ok.1 h
    obtain ⟨ps, hps, h⟩ := bind_ok.1 h
    simp only [pure_ok] at h; subst h
    have h1 := Adm.prodDiffTerms ts (pre ++ [t]) (n := n) (d := d) (us := ps)
      (by intro u hu; rcases List.mem_append.1 hu with hu | hu
          · exact hp u hu
          · simp only [List.mem_singleton] at hu; subst hu; exact ht u (by simp))
      (fun u hu => ht u (by simp [hu])) (fun u hu => hd u (by simp [hu])) hps
    have h2 : Q p := by
      refine (hQ.pres n).prod _ _ ?_ hp'
      intro u hu
      rcases List.mem_cons.1 hu with rfl | hu
      · exact hd t (by simp) _ hdt
      · rcases List.mem_append.1 hu with hu | hu
        · exact hp u hu
        · exact ht u (by simp [hu])
    intro u hu
    rcases List.mem_cons.1 hu with rfl | hu
    · exact h2
    · exact h1 u hu

theorem Adm.diffE {v : Str} : ∀ (n : Nat) {e r : Expr}, Q e → diffE O n v e = .ok r → Q r
  | 0, e, r, _, h => by simp [Simpy.diffE] at h
  | n + 1, e, r, he, h => by
    have ih := fun {e r : Expr} => Adm.diffE (v := v) n (e := e) (r := r)
    cases e with
    | sym s =>
      simp only [Simpy.diffE, Except.ok.injEq] at h; subst h
      split <;> exact hQ.rat _
    | any k => simp [Simpy.diffE] at h
    | sum ts =>
      simp only [Simpy.diffE] at h
      obtain ⟨us, hus, h⟩ := bind_ok.1 h
      exact (hQ.pres n).sum _ _ (mapR_mem hus fun t ht u hu => ih (hQ.sum he t ht) hu) h
    | prod ts =>
      simp only [Simpy.diffE] at h
      obtain ⟨us, hus, h⟩ := bind_ok.1 h
      exact (hQ.pres n).sum _ _
        (hQ.prodDiffTerms ts [] (by simp) (hQ.prod he) (fun t ht u hu => ih (hQ.prod he t ht) hu) hus) h
    | pow b x =>
      simp only [Simpy.diffE] at h
      split at h
      · obtain ⟨x1, h1, h⟩ := bind_ok.1 h
        obtain ⟨p, h2, h⟩ := bind_ok.1 h
        obtain ⟨m, h3, h⟩ := bind_ok.1 h
        obtain ⟨db, h4, h⟩ := bind_ok.1 h
        obtain ⟨hb, hx⟩ := hQ.pow he
        exact hQ.opMul (hQ.opMul hx (hQ.opPow hb (hQ.opSub hx (hQ.rat _) h1) h2) h3) (ih hb h4) h
      · split at h
        · obtain ⟨l, h1, h⟩ := bind_ok.1 h
          obtain ⟨m, h2, h⟩ := bind_ok.1 h
          obtain ⟨dx, h3, h⟩ := bind_ok.1 h
          obtain ⟨hb, hx⟩ := hQ.pow he
          exact hQ.opMul (hQ.opMul (hQ.plog hb hQ.eul h1) he h2) (ih hx h3) h
        · simp at h
    | log i b =>
      simp only [Simpy.diffE] at h
      obtain ⟨di, h1, h⟩ := bind_ok.1 h
      exact hQ.opDiv (ih (hQ.log he).1 h1) (hQ.log he).1 h
    | trig f i =>
      have hi := hQ.trig he
      cases f <;> simp only [Simpy.diffE] at h
      · obtain ⟨c, h1, h⟩ := bind_ok.1 h
        obtain ⟨di, h2, h⟩ := bind_ok.1 h
        exact hQ.opMul (hQ.ptrig n _ hi h1) (ih hi h2) h
      · obtain ⟨c, h1, h⟩ := bind_ok.1 h
        obtain ⟨m, h3, h⟩ := bind_ok.1 h
        obtain ⟨di, h2, h⟩ := bind_ok.1 h
        exact hQ.opMul (hQ.opNeg (hQ.ptrig n _ hi h1) h3) (ih hi h2) h
      · obtain ⟨c, h1, h⟩ := bind_ok.1 h
        obtain ⟨m, h3, h⟩ := bind_ok.1 h
        obtain ⟨di, h2, h⟩ := bind_ok.1 h
        exact hQ.opMul (hQ.opPow (hQ.ptrig n _ hi h1) (hQ.rat _) h3) (ih hi h2) h
      · obtain ⟨c, h1, h⟩ := bind_ok.1 h
        obtain ⟨m, h3, h⟩ := bind_ok.1 h
        exact ih (hQ.opDiv (hQ.rat _) (hQ.ptrig n _ hi h1) h3) h
      · obtain ⟨c, h1, h⟩ := bind_ok.1 h
        obtain ⟨t, h3, h⟩ := bind_ok.1 h
        obtain ⟨m, h4, h⟩ := bind_ok.1 h
        obtain ⟨di, h2, h⟩ := bind_ok.1 h
        exact hQ.opMul (hQ.opMul (hQ.ptrig n _ hi h1) (hQ.ptrig n _ hi h3) h4) (ih hi h2) h
      · obtain ⟨c, h1, h⟩ := bind_ok.1 h
        obtain ⟨m, h3, h⟩ := bind_ok.1 h
        exact ih (hQ.opDiv (hQ.rat _) (hQ.ptrig n _ hi h1) h3) h
      · obtain ⟨p, h1, h⟩ := bind_ok.1 h
        obtain ⟨z, h2, h⟩ := bind_ok.1 h
        obtain ⟨s, h3, h⟩ := bind_ok.1 h
        obtain ⟨q, h4, h⟩ := bind_ok.1 h
        obtain ⟨di, h5, h⟩ := bind_ok.1 h
        exact hQ.opMul (hQ.opDiv (hQ.rat _) (hQ.opSqrt (hQ.opSub (hQ.rat _) (hQ.opPow hi (hQ.rat _) h1) h2) h3) h4)
          (ih hi h5) h
      · obtain ⟨p, h1, h⟩ := bind_ok.1 h
        obtain ⟨z, h2, h⟩ := bind_ok.1 h
        obtain ⟨s, h3, h⟩ := bind_ok.1 h
        obtain ⟨q, h4, h⟩ := bind_ok.1 h
        obtain ⟨di, h5, h⟩ := bind_ok.1 h
        exact hQ.opMul (hQ.opDiv (hQ.rat _) (hQ.opSqrt (hQ.opSub (hQ.rat _) (hQ.opPow hi (hQ.rat _) h1) h2) h3) h4)
          (ih hi h5) h
      · obtain ⟨p, h1, h⟩ := bind_ok.1 h
        obtain ⟨z, h2, h⟩ := bind_ok.1 h
        obtain ⟨q, h4, h⟩ := bind_ok.1 h
        obtain ⟨di, h5, h⟩ := bind_ok.1 h
        exact hQ.opMul (hQ.opDiv (hQ.rat _) (hQ.opAdd (hQ.rat _) (hQ.opPow hi (hQ.rat _) h1) h2) h4)
          (ih hi h5) h
    | absv i => simp only [Simpy.diffE] at h; exact ih (hQ.absv he) h
    | pi => simp only [Simpy.diffE, Except.ok.injEq] at h; subst h; exact hQ.rat _
    | euler => simp only [Simpy.diffE, Except.ok.injEq] at h; subst h; exact hQ.rat _
    | rat q => simp only [Simpy.diffE, Except.ok.injEq] at h; subst h; exact hQ.rat _
    | flt v => simp only [Simpy.diffE, Except.ok.injEq] at h; subst h; exact hQ.rat _
    | inf => simp only [Simpy.diffE, Except.ok.injEq] at h; subst h; exact hQ.rat _
    | neginf => simp only [Simpy.diffE, Except.ok.injEq] at h; subst h; exact hQ.rat _

end

end Simpy
