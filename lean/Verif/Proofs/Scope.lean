import Verif.Proofs.USubSound
import Verif.Proofs.PartsSound
import Verif.Proofs.PTSSound
import Verif.Proofs.FactorSound
import Verif.Proofs.PolyFrac
import Verif.Proofs.RewriteSound
import Verif.Model.Engine

/-! The transforms introduce no symbols. -/

namespace Simpy
open Expr

/-- All symbols of `e` are in `A`. -/
abbrev In (A : Str → Prop) (e : Expr) : Prop := ∀ s ∈ syms e, A s

variable {O : Oracle} {A : Str → Prop} {n : Nat} {v : Str}

theorem in_rat (q : ℚ) : In A (rat q) := fun s h => by simp [syms] at h

theorem in_sym (h : A v) : In A (sym v) := fun s hs => by simp [syms] at hs; exact hs ▸ h

theorem in_sum {ts : List Expr} : In A (sum ts) ↔ ∀ t ∈ ts, In A t := (closed_syms A).sum

theorem in_prod {ts : List Expr} : In A (prod ts) ↔ ∀ t ∈ ts, In A t := (closed_syms A).prod

theorem in_kid {e : Expr} (h : Kid (In A) e) : In A e := by
  cases e with
  | prod ts => exact in_prod.2 h
  | _ => exact h

theorem in_mkProdSkip {ts : List Expr} {r : Expr} (ht : ∀ t ∈ ts, In A t) (h : mkProdSkip ts = .ok r) : In A r :=
  mkProdSkip_Q (closed_syms A) h ht

theorem in_csum {ts : List Expr} {r : Expr} (ht : ∀ t ∈ ts, In A t) (h : (ctors O n).sum ts = .ok r) : In A r :=
  ((adm_syms O A).pres n).sum ts r ht h

theorem in_cprod {ts : List Expr} {r : Expr} (ht : ∀ t ∈ ts, In A t) (h : (ctors O n).prod ts = .ok r) : In A r :=
  ((adm_syms O A).pres n).prod ts r ht h

theorem in_cpow {a b r : Expr} (ha : In A a) (hb : In A b) (h : (ctors O n).pow a b = .ok r) : In A r :=
  ((adm_syms O A).pres n).pow a b r ha hb h

theorem in_cabs {a r : Expr} (ha : In A a) (h : (ctors O n).abs a = .ok r) : In A r :=
  ((adm_syms O A).pres n).abs a r ha h

theorem in_mul {a b r : Expr} (ha : In A a) (hb : In A b) (h : opMul (ctors O n) a b = .ok r) : In A r :=
  (adm_syms O A).toAdmE.opMul ha hb h

theorem in_div {a b r : Expr} (ha : In A a) (hb : In A b) (h : opDiv (ctors O n) a b = .ok r) : In A r :=
  (adm_syms O A).toAdmE.opDiv ha hb h

theorem in_add {a b r : Expr} (ha : In A a) (hb : In A b) (h : opAdd (ctors O n) a b = .ok r) : In A r :=
  (adm_syms O A).toAdmE.opAdd ha hb h

theorem in_subt {a b r : Expr} (ha : In A a) (hb : In A b) (h : opSub (ctors O n) a b = .ok r) : In A r :=
  (adm_syms O A).toAdmE.opSub ha hb h

theorem in_opPow {a b r : Expr} (ha : In A a) (hb : In A b) (h : opPow O (ctors O n) a b = .ok r) : In A r :=
  (adm_syms O A).toAdmE.opPow ha hb h

theorem in_neg {a r : Expr} (ha : In A a) (h : opNeg (ctors O n) a = .ok r) : In A r :=
  (adm_syms O A).toAdmE.opNeg ha h

theorem in_trig {f : TrigFn} {a r : Expr} (ha : In A a) (h : trigCtor O n f a = .ok r) : In A r :=
  (adm_syms O A).ptrig n f ha h

theorem in_diff {e r : Expr} (he : In A e) (h : diffE O n v e = .ok r) : In A r := (adm_syms O A).diffE n he h

theorem in_expand {e r : Expr} (he : In A e) (h : expandE O n e = .ok r) : In A r :=
  (adm_syms O A).toAdmE.expandE n ((adm_syms O A).toAdmE.kid he) h

theorem in_expandOr {e r : Expr} (he : In A e) (h : expandOr (expandableE O n) (expandE O n) e = .ok r) : In A r := by
  unfold expandOr at h
  obtain ⟨b, -, h⟩ := bind_ok.1 h
  split at h
  · exact in_expand he h
  · cases pure_ok.1 h; exact he

theorem in_replaceE {perf : Nat → Expr → R Rep} (hp : ∀ k e u, In A e → perf k e = .ok (.hit u) → In A u) {e r : Expr}
    (he : In A e) (h : replaceE O perf n e = .ok r) : In A r := (adm_syms O A).replaceE hp n he h

theorem in_replaceOld {old new e r : Expr} (hn : In A new) (he : In A e) (h : replaceOld O n e old new = .ok r) : In A r := by
  refine in_replaceE (fun k e u _ h => ?_) he h
  simp only [replacePerf, Except.ok.injEq] at h
  split at h
  · cases h; exact hn
  · cases h

/-! ### Pulling constants, expanding, the safe transforms -/

theorem pullLoop_in : ∀ {ts pre : List Expr} {c g : Expr}, (∀ t ∈ pre ++ ts, In A t) →
    pullLoop (ctors O n) v pre ts = .ok (some (c, g)) → In A c ∧ In A g
  | [], _, _, _, _, h => by simp [pullLoop] at h
  | t :: r, pre, c, g, hw, h => by
    rw [pullLoop] at h
    split at h
    · exact pullLoop_in (pre := pre ++ [t]) (by simpa using hw) h
    · obtain ⟨q, h1, h⟩ := bind_ok.1 h
      cases pure_ok.1 h
      exact ⟨hw _ (by simp), in_cprod (fun t ht => hw t (by simp at ht ⊢; tauto)) h1⟩

theorem pullConstant_in {e c g : Expr} (he : In A e) (h : pullConstant O n v e = .ok (some (c, g))) : In A c ∧ In A g := by
  unfold pullConstant at h
  split at h
  · exact pullLoop_in (pre := []) (by simpa using in_prod.1 he) h
  · cases h

theorem expandT_in {e g : Expr} (he : In A e) (h : expandT O n e = .ok (some g)) : In A g := by
  unfold expandT at h
  obtain ⟨b, -, h⟩ := bind_ok.1 h
  split at h
  · obtain ⟨r, h1, h⟩ := bind_ok.1 h
    cases pure_ok.1 h
    exact in_expand he h1
  · cases pure_ok.1 h

theorem addAnswer_in {c : Expr} {k : Nat} {ans r : List Expr} {m : Expr} (hc : In A c) (ha : ∀ t ∈ ans, In A t) (hm : In A m)
    (h : addAnswer (ctors O n) c k ans m = .ok r) : ∀ t ∈ r, In A t := by
  unfold addAnswer at h
  obtain ⟨nc, h1, h⟩ := bind_ok.1 h
  have h2 := in_mul hc hm h1
  split at h
  next old ho =>
    obtain ⟨s, h3, h⟩ := bind_ok.1 h
    cases pure_ok.1 h
    intro t ht
    rcases List.mem_or_eq_of_mem_set ht with ht | rfl
    · exact ha t ht
    · exact in_add (ha _ (List.mem_of_getElem? ho)) h2 h3
  next =>
    cases pure_ok.1 h
    intro t ht
    simp only [List.mem_append, List.mem_replicate, List.mem_singleton] at ht
    rcases ht with (ht | ⟨-, rfl⟩) | rfl
    · exact ha t ht
    · exact in_rat 0
    · exact h2

mutual
theorem toPoly_in : ∀ {e : Expr} {ans r : List Expr} {m : Expr}, In A e → (∀ t ∈ ans, In A t) → In A m →
    toPoly O (ctors O n) v e ans m = .ok r → ∀ t ∈ r, In A t
  | e, ans, r, m, he, ha, hm, h => by
    unfold toPoly at h
    split at h
    · exact addAnswer_in he ha hm h
    · split at h
      next ts => exact toPolyL_in (in_sum.1 he) ha h
      next => exact toPoly_in (in_prod.1 he _ (List.mem_cons_of_mem _ (List.mem_singleton.2 rfl))) ha (in_rat _) h
      next => cases h
      next b x =>
        split at h
        · split at h
          next => exact addAnswer_in (in_rat 1) ha hm h
          next => cases h
        · cases h
      next => split at h
              · exact addAnswer_in (in_rat 1) ha hm h
              · cases h
      next => cases h
theorem toPolyL_in : ∀ {ts : List Expr} {ans r : List Expr}, (∀ t ∈ ts, In A t) → (∀ t ∈ ans, In A t) →
    toPolyL O (ctors O n) v ts ans = .ok r → ∀ t ∈ r, In A t
  | [], ans, r, _, ha, h => by cases h; exact ha
  | t :: ts, ans, r, hw, ha, h => by
    rw [toPolyL] at h
    obtain ⟨ans', h1, h⟩ := bind_ok.1 h
    exact toPolyL_in (fun t ht => hw t (by simp [ht])) (toPoly_in (hw t (by simp)) ha (in_rat 1) h1) h
end

theorem toConstPoly_in {e : Expr} {r : List Expr} (he : In A e) (h : toConstPoly O n v e = .ok r) : ∀ t ∈ r, In A t := by
  unfold toConstPoly at h
  obtain ⟨e', h1, h⟩ := bind_ok.1 h
  exact toPoly_in (in_expandOr he h1) (by simp) (in_rat 1) h

theorem polyToExprFrom_in (hv : A v) : ∀ {cs : List Expr} {i : Nat} {acc r : Expr}, (∀ t ∈ cs, In A t) → In A acc →
    polyToExprFrom O (ctors O n) v i acc cs = .ok r → In A r
  | [], _, _, _, _, ha, h => by cases h; exact ha
  | c :: cs, i, acc, r, hc, ha, h => by
    rw [polyToExprFrom] at h
    obtain ⟨p, h1, h⟩ := bind_ok.1 h
    obtain ⟨m, h2, h⟩ := bind_ok.1 h
    obtain ⟨acc', h3, h⟩ := bind_ok.1 h
    exact polyToExprFrom_in hv (fun t ht => hc t (by simp [ht]))
      (in_add ha (in_mul (hc c (by simp)) (in_opPow (in_sym hv) (in_rat _) h1) h2) h3) h

theorem polyToExpr_in (hv : A v) {cs : List Expr} {r : Expr} (hc : ∀ t ∈ cs, In A t) (h : polyToExpr O (ctors O n) v cs = .ok r) :
    In A r := polyToExprFrom_in hv hc (in_rat 0) h

theorem zipR_in {f : Expr → Expr → R Expr} (hf : ∀ {a b r : Expr}, In A a → In A b → f a b = .ok r → In A r) :
    ∀ {l m r : List Expr}, (∀ t ∈ l, In A t) → (∀ t ∈ m, In A t) → zipR f l m = .ok r → ∀ t ∈ r, In A t
  | [], [], _, _, _, h => by cases h; simp
  | a :: l, b :: m, r, hl, hm, h => by
    rw [zipR] at h
    obtain ⟨c, h1, h⟩ := bind_ok.1 h
    obtain ⟨cs, h2, h⟩ := bind_ok.1 h
    cases pure_ok.1 h
    intro t ht
    rcases List.mem_cons.1 ht with rfl | ht
    · exact hf (hl a (by simp)) (hm b (by simp)) h1
    · exact zipR_in hf (fun t ht => hl t (by simp [ht])) (fun t ht => hm t (by simp [ht])) h2 t ht
  | [], b :: m, _, _, _, h => by cases h
  | a :: l, [], _, _, _, h => by cases h

theorem divLoop_in {dn : List Expr} (hd : ∀ t ∈ dn, In A t) : ∀ (k : Nat) {quo num quo' num' : List Expr}, (∀ t ∈ quo, In A t) →
    (∀ t ∈ num, In A t) → divLoop O (ctors O n) dn k quo num = .ok (quo', num') → (∀ t ∈ quo', In A t) ∧ ∀ t ∈ num', In A t
  | 0, quo, num, quo', num', hq, hn, h => by
    rw [divLoop] at h
    split at h
    · cases h
    · cases h; exact ⟨hq, hn⟩
  | k + 1, quo, num, quo', num', hq, hn, h => by
    rw [divLoop] at h
    split at h
    · obtain ⟨⟨q, nm⟩, h1, h⟩ := bind_ok.1 h
      unfold divStep at h1
      split at h1
      next a b ha hb =>
        obtain ⟨q', h2, h1⟩ := bind_ok.1 h1
        obtain ⟨dq, h3, h1⟩ := bind_ok.1 h1
        obtain ⟨nm', h4, h1⟩ := bind_ok.1 h1
        cases pure_ok.1 h1
        have qq := in_div (hn a (List.mem_of_getLast? ha)) (hd b (List.mem_of_getLast? hb)) h2
        have hdq : ∀ t ∈ dq, In A t := mapR_mem h3 fun a ha r hr => in_mul (hd a ha) qq hr
        refine divLoop_in hd k (fun t ht => ?_) (fun t ht => ?_) h
        · rcases List.mem_or_eq_of_mem_set ht with ht | rfl
          · exact hq t ht
          · exact qq
        · refine zipR_in (fun ha hb h => in_subt ha hb h) hn (fun t ht => ?_) h4 t (List.mem_of_mem_take ht)
          rcases List.mem_append.1 ht with ht | ht
          · obtain ⟨-, rfl⟩ := List.mem_replicate.1 ht; exact in_rat 0
          · exact hdq t ht
      next => cases h1
    · cases h; exact ⟨hq, hn⟩

theorem numDen_in {ts : List Expr} {a b : Expr} (ht : ∀ t ∈ ts, In A t) (h : numDen O (ctors O n) ts = .ok (a, b)) :
    In A a ∧ In A b := by
  obtain ⟨h1, h2⟩ := (adm_syms O A).toAdmE.numDen ht h
  exact ⟨in_kid h1, in_kid h2⟩

theorem fractionLists_in {ts : List Expr} {d : Expr} {nl dl : List Expr} (ht : ∀ t ∈ ts, In A t)
    (h : fractionLists O n v ts = .ok (some (d, nl, dl))) : In A d ∧ (∀ t ∈ nl, In A t) ∧ ∀ t ∈ dl, In A t := by
  obtain ⟨a, h1, h2, h3⟩ := fractionLists_some h
  obtain ⟨ha, hd⟩ := numDen_in ht h1
  exact ⟨hd, toConstPoly_in ha h2, toConstPoly_in hd h3⟩

theorem polyDiv_in (hv : A v) {k : Nat} {e g : Expr} (he : In A e) (h : polyDiv O n k v e = .ok (some g)) : In A g := by
  unfold polyDiv at h
  split at h
  next ts =>
    split at h
    · cases h
    · obtain ⟨l, h1, h⟩ := bind_ok.1 h
      split at h
      · cases pure_ok.1 h
      next d nl dl =>
        obtain ⟨hd, hn, hdl⟩ := fractionLists_in (in_prod.1 he) h1
        split at h
        · cases pure_ok.1 h
        · obtain ⟨r, h2, h⟩ := bind_ok.1 h
          cases pure_ok.1 h
          unfold polyDivForward at h2
          obtain ⟨⟨quo, rem⟩, h3, h2⟩ := bind_ok.1 h2
          obtain ⟨re, h4, h2⟩ := bind_ok.1 h2
          obtain ⟨de, h5, h2⟩ := bind_ok.1 h2
          obtain ⟨r, h6, h2⟩ := bind_ok.1 h2
          obtain ⟨q, h7, h2⟩ := bind_ok.1 h2
          obtain ⟨i1, i2⟩ := divLoop_in hdl k (fun t ht => by
            obtain ⟨-, rfl⟩ := List.mem_replicate.1 ht; exact in_rat 0) hn h3
          exact in_add (polyToExpr_in hv i1 h7) (in_div (polyToExpr_in hv i2 h4) (polyToExpr_in hv hdl h5) h6) h2
  next => cases h

mutual
theorem dfHead_in : ∀ {e : Expr} {f : Fac}, In A e → dfHead e = .ok f → In A f.base := by
  intro e f he h
  cases e with
  | prod ts =>
    rw [dfHead] at h
    obtain ⟨l, h1, h⟩ := bind_ok.1 h
    have := dfHeads_in (in_prod.1 he) h1
    split at h
    · cases h
    · cases pure_ok.1 h; exact this _ (by simp)
  | pow b x =>
    cases x <;> simp only [dfHead, Except.ok.injEq] at h <;> subst h
    case rat => exact ((closed_syms A).pow.1 he).1
    all_goals exact he
  | _ => simp only [dfHead, Except.ok.injEq] at h; subst h; exact he
theorem dfHeads_in : ∀ {ts : List Expr} {l : List Fac}, (∀ t ∈ ts, In A t) → dfHeads ts = .ok l → ∀ f ∈ l, In A f.base := by
  intro ts l ht h
  cases ts with
  | nil => cases h; simp
  | cons t r =>
    rw [dfHeads] at h
    split at h
    · exact dfHeads_in (fun t h => ht t (by simp [h])) h
    · obtain ⟨a, h1, h⟩ := bind_ok.1 h
      obtain ⟨l', h2, h⟩ := bind_ok.1 h
      cases pure_ok.1 h
      intro f hf
      rcases List.mem_cons.1 hf with rfl | hf
      · exact dfHead_in (ht t (by simp)) h1
      · exact dfHeads_in (fun t h => ht t (by simp [h])) h2 f hf
end

theorem dfTerm_in {e : Expr} {p : Expr × List Fac} (he : In A e) (h : dfTerm e = .ok p) : ∀ f ∈ p.2, In A f.base := by
  have gen : (do let f ← dfHead e; return (rat 1, [f])) = Except.ok p → ∀ f ∈ p.2, In A f.base := by
    intro h
    obtain ⟨f, h1, h⟩ := bind_ok.1 h
    have := (pure_ok.1 h).symm; subst this
    intro f hf
    simp only [List.mem_singleton] at hf; subst hf
    exact dfHead_in he h1
  cases e with
  | prod ts =>
    simp only [dfTerm] at h
    obtain ⟨c, h1, h⟩ := bind_ok.1 h
    obtain ⟨l, h2, h⟩ := bind_ok.1 h
    have := (pure_ok.1 h).symm; subst this
    exact dfHeads_in (in_prod.1 he) h2
  | rat q =>
    simp only [dfTerm, Except.ok.injEq] at h; subst h
    intro f hf
    simp only [List.mem_singleton] at hf; subst hf
    exact in_rat q
  | _ => exact gen h

theorem factorCommon_in {ts : List Expr} {c : Expr} (hw : ∀ t ∈ ts, In A t) (h : factorCommon (ctors O n) ts = .ok c) : In A c := by
  unfold factorCommon at h
  obtain ⟨dfs, h1, h⟩ := bind_ok.1 h
  have mem : ∀ l ∈ dfs.map Prod.snd, ∀ f ∈ l, In A f.base := by
    intro l hl
    obtain ⟨p, hp, rfl⟩ := List.mem_map.1 hl
    obtain ⟨t, ht, he⟩ := mapR_mem' h1 p hp
    exact dfTerm_in (hw t ht) he
  split at h
  · simp at h
  next f r heq =>
  rw [heq] at mem
  obtain ⟨fs, h2, h⟩ := bind_ok.1 h
  obtain ⟨cc, h3, h⟩ := bind_ok.1 h
  obtain ⟨m, h4, h⟩ := bind_ok.1 h
  have fW := commonLoop_P (P := fun f => In A f.base) (fun _ _ h _ => h) (fun u hu => mem u (by simp [hu])) (mem f (by simp)) h2
  have key : In A m := by
    unfold makeProd at h4
    split at h4
    · cases h4; exact in_rat 1
    · obtain ⟨ps, h5, h4⟩ := bind_ok.1 h4
      exact in_cprod (mapR_mem h5 fun f hf p hp => in_cpow (fW f hf) (in_rat _) hp) h4
  split at h
  · exact in_mul key (in_rat _) h
  · cases pure_ok.1 h; exact key

theorem factorSum_in {ts : List Expr} {r : Expr} (hw : ∀ t ∈ ts, In A t) (h : factorSum (ctors O n) ts = .ok r) : In A r := by
  unfold factorSum at h
  obtain ⟨c, h1, h⟩ := bind_ok.1 h
  obtain ⟨us, h2, h⟩ := bind_ok.1 h
  obtain ⟨s, h3, h⟩ := bind_ok.1 h
  have hc := factorCommon_in hw h1
  exact in_mul hc (in_csum (mapR_mem h2 fun t ht p hp => in_div (hw t ht) hc hp) h3) h

theorem denomFactors_in {d : Expr} {fs : List Expr} (hd : In A d) (h : denomFactors (ctors O n) d = .ok (some fs)) :
    ∀ t ∈ fs, In A t := by
  unfold denomFactors at h
  split at h
  · cases h; exact in_prod.1 hd
  next us =>
    obtain ⟨f, h1, h⟩ := bind_ok.1 h
    have := factorSum_in (in_sum.1 hd) h1
    split at h
    · cases pure_ok.1 h; exact in_prod.1 this
    · cases pure_ok.1 h
  · cases h

theorem invert_in {m i : List (List Expr)} (hm : ∀ l ∈ m, ∀ t ∈ l, In A t) (h : invert O (ctors O n) m = .ok (some i)) :
    ∀ l ∈ i, ∀ t ∈ l, In A t := by
  unfold invert at h
  obtain ⟨-, -, h⟩ := bind_ok.1 h
  split at h
  next a b c d _ =>
    have ha := hm [a, b] (by simp) a (by simp)
    have hb := hm [a, b] (by simp) b (by simp)
    have hc := hm [c, d] (by simp) c (by simp)
    have hd := hm [c, d] (by simp) d (by simp)
    obtain ⟨ad, h1, h⟩ := bind_ok.1 h
    obtain ⟨bc, h2, h⟩ := bind_ok.1 h
    obtain ⟨det, h3, h⟩ := bind_ok.1 h
    have hdet := in_subt (in_mul ha hd h1) (in_mul hb hc h2) h3
    split at h
    · cases pure_ok.1 h
    · obtain ⟨p, h4, h⟩ := bind_ok.1 h
      obtain ⟨nb, h5, h⟩ := bind_ok.1 h
      obtain ⟨q, h6, h⟩ := bind_ok.1 h
      obtain ⟨nc, h7, h⟩ := bind_ok.1 h
      obtain ⟨r, h8, h⟩ := bind_ok.1 h
      obtain ⟨s, h9, h⟩ := bind_ok.1 h
      cases pure_ok.1 h
      have i1 := in_div hd hdet h4
      have i2 := in_div (in_neg hb h5) hdet h6
      have i3 := in_div (in_neg hc h7) hdet h8
      have i4 := in_div ha hdet h9
      intro l hl t ht
      simp only [List.mem_cons, List.not_mem_nil, or_false] at hl
      rcases hl with rfl | rfl <;> simp only [List.mem_cons, List.not_mem_nil, or_false] at ht <;> rcases ht with rfl | rfl
      exacts [i1, i2, i3, i4]
  next => cases h

theorem pfSolve_in {nl : List Expr} {d1 d2 r : Expr} (hn : ∀ t ∈ nl, In A t) (i1 : In A d1) (i2 : In A d2)
    (h : pfSolve O n v nl d1 d2 = .ok (some r)) : In A r := by
  unfold pfSolve at h
  obtain ⟨l1, h1, h⟩ := bind_ok.1 h
  obtain ⟨l2, h2, h⟩ := bind_ok.1 h
  obtain ⟨m, h3, h⟩ := bind_ok.1 h
  obtain ⟨inv, h4, h⟩ := bind_ok.1 h
  split at h
  · cases pure_ok.1 h
  next i =>
    obtain ⟨⟨a, b⟩, h5, h⟩ := bind_ok.1 h
    obtain ⟨q1, h6, h⟩ := bind_ok.1 h
    obtain ⟨q2, h7, h⟩ := bind_ok.1 h
    obtain ⟨r', h8, h⟩ := bind_ok.1 h
    cases pure_ok.1 h
    have hm : ∀ l ∈ m, ∀ t ∈ l, In A t := by
      unfold pfMatrix at h3
      split at h3
      · cases h3
        intro l hl t ht
        obtain ⟨p, hp, rfl⟩ := List.mem_map.1 hl
        simp only [List.mem_cons, List.not_mem_nil, or_false] at ht
        rcases ht with rfl | rfl
        · exact toConstPoly_in i2 h2 _ (List.of_mem_zip hp).1
        · exact toConstPoly_in i1 h1 _ (List.of_mem_zip hp).2
      · cases h3
    have hi := invert_in hm h4
    have hp : ∀ t ∈ padNum nl, In A t := by
      unfold padNum
      split
      · intro t ht
        simp only [List.mem_cons, List.not_mem_nil, or_false] at ht
        rcases ht with rfl | rfl
        · exact hn _ (by simp)
        · exact in_rat 0
      · exact hn
    have hab : In A a ∧ In A b := by
      unfold matVec2 at h5
      split at h5
      next w p q r s x y hpad =>
        have hpad : padNum nl = [x, y] := by assumption
        rw [hpad] at hp
        obtain ⟨px, e1, h5⟩ := bind_ok.1 h5
        obtain ⟨qy, e2, h5⟩ := bind_ok.1 h5
        obtain ⟨a', e3, h5⟩ := bind_ok.1 h5
        obtain ⟨rx, e4, h5⟩ := bind_ok.1 h5
        obtain ⟨sy, e5, h5⟩ := bind_ok.1 h5
        obtain ⟨b', e6, h5⟩ := bind_ok.1 h5
        cases pure_ok.1 h5
        have hx := hp x (by simp)
        have hy := hp y (by simp)
        exact ⟨in_add (in_mul (hi [p, q] (by simp) p (by simp)) hx e1) (in_mul (hi [p, q] (by simp) q (by simp)) hy e2) e3,
          in_add (in_mul (hi [r, s] (by simp) r (by simp)) hx e4) (in_mul (hi [r, s] (by simp) s (by simp)) hy e5) e6⟩
      next => cases h5
    exact in_add (in_div hab.1 i1 h6) (in_div hab.2 i2 h7) h8

theorem partialFractions_in {e g : Expr} (he : In A e) (h : partialFractions O n v e = .ok (some g)) : In A g := by
  unfold partialFractions at h
  split at h
  next ts =>
    obtain ⟨l, h1, h⟩ := bind_ok.1 h
    split at h
    · cases pure_ok.1 h
    next d nl dl =>
      obtain ⟨hd, hn, hdl⟩ := fractionLists_in (in_prod.1 he) h1
      split at h
      · cases pure_ok.1 h
      · obtain ⟨fs, h2, h⟩ := bind_ok.1 h
        split at h
        next d1 d2 =>
          have := denomFactors_in hd h2
          split at h
          · exact pfSolve_in hn (this d1 (by simp)) (this d2 (by simp)) h
          · cases pure_ok.1 h
        · cases pure_ok.1 h
  · cases h

/-! ### Substitutions -/

variable {u : Str}

/-- After a substitution: the new variable and the old symbols. -/
def Plus (A : Str → Prop) (u s : Str) : Prop := s = u ∨ A s

theorem In.plus {e : Expr} (h : In A e) : In (Plus A u) e := fun s hs => .inr (h s hs)

theorem in_new : In (Plus A u) (sym u) := in_sym (.inl rfl)

theorem polyULoop_in : ∀ {ts pre : List Expr} {m g : Expr}, (∀ t ∈ pre ++ ts, In A t) →
    polyULoop O (ctors O n) v pre ts = .ok (some (m, g)) → In A m
  | [], _, _, _, _, h => by simp [polyULoop] at h
  | t :: r, pre, m, g, hw, h => by
    have recu := polyULoop_in (ts := r) (pre := pre ++ [t]) (m := m) (g := g) (by simpa using hw)
    rw [polyULoop.eq_def] at h
    simp only at h
    split at h
    next b x =>
      split at h
      · obtain ⟨k, h1, h⟩ := bind_ok.1 h
        obtain ⟨q, h2, h⟩ := bind_ok.1 h
        cases pure_ok.1 h
        exact in_add ((closed_syms A).pow.1 (hw (pow b x) (by simp))).2 (in_rat 1) h1
      · exact recu h
    next =>
      split at h
      · obtain ⟨q, h2, h⟩ := bind_ok.1 h
        cases pure_ok.1 h
        exact in_rat 2
      · exact recu h

theorem polynomialUSub_in (hv : A v) {e q g : Expr} (he : In A e) (h : polynomialUSub O n v u e = .ok (some (q, g))) :
    In A q ∧ In (Plus A u) g := by
  unfold polynomialUSub at h
  split at h
  next ts =>
    obtain ⟨k, h1, h⟩ := bind_ok.1 h
    split at h
    · cases pure_ok.1 h
    next m rest =>
      split at h
      · cases pure_ok.1 h
      · obtain ⟨q', h2, h⟩ := bind_ok.1 h
        have hm := polyULoop_in (pre := []) (by simpa using in_prod.1 he) h1
        have hq := in_cpow (in_sym hv) hm h2
        split at h
        · obtain ⟨d, h3, h⟩ := bind_ok.1 h
          obtain ⟨r, h4, h⟩ := bind_ok.1 h
          obtain ⟨g', h5, h⟩ := bind_ok.1 h
          cases pure_ok.1 h
          exact ⟨hq, in_div (in_replaceOld in_new he.plus h4) (in_diff hq h3).plus h5⟩
        · cases pure_ok.1 h
  next => cases h

theorem trigKey_in (hv : A v) {e : Expr} : ∀ {fs : List TrigFn} {f : TrigFn} {q : Expr}, trigKey O n v e fs = .ok (some (f, q)) → In A q
  | [], _, _, h => by cases h
  | f :: r, _, _, h => by
    rw [trigKey] at h
    obtain ⟨q, h1, h⟩ := bind_ok.1 h
    split at h
    · cases pure_ok.1 h; exact in_trig (in_sym hv) h1
    · exact trigKey_in hv h

theorem trigDx_in {f : TrigFn} {a r : Expr} (ha : In A a) (h : trigDx O (ctors O n) f a = .ok r) : In A r := by
  unfold trigDx at h
  obtain ⟨p, h1, h⟩ := bind_ok.1 h
  have hp := in_opPow ha (in_rat 2) h1
  split at h
  · obtain ⟨d, h2, h⟩ := bind_ok.1 h
    exact in_div (in_rat 1) (in_add (in_rat 1) hp h2) h
  · obtain ⟨d, h2, h⟩ := bind_ok.1 h
    obtain ⟨s, h3, h⟩ := bind_ok.1 h
    exact in_div (in_rat _) ((adm_syms O A).toAdmE.opSqrt (in_subt (in_rat 1) hp h2) h3) h

theorem trigUSub2_in (hv : A v) {e q g : Expr} (he : In A e) (h : trigUSub2 O n v u e = .ok (some (q, g))) :
    In A q ∧ In (Plus A u) g := by
  unfold trigUSub2 at h
  obtain ⟨k, h1, h⟩ := bind_ok.1 h
  split at h
  · cases pure_ok.1 h
  next f q' =>
    obtain ⟨r, h2, h⟩ := bind_ok.1 h
    obtain ⟨d, h3, h⟩ := bind_ok.1 h
    obtain ⟨g', h4, h⟩ := bind_ok.1 h
    cases pure_ok.1 h
    exact ⟨trigKey_in hv h1, in_mul (in_replaceOld in_new he.plus h2) (trigDx_in in_new h3) h4⟩

theorem inverseTrigUSub_in (hv : A v) {e q g : Expr} (he : In A e) (h : inverseTrigUSub O n v u e = .ok (some (q, g))) :
    In A q ∧ In (Plus A u) g := by
  unfold inverseTrigUSub at h
  obtain ⟨k, h1, h⟩ := bind_ok.1 h
  split at h
  · cases pure_ok.1 h
  next f =>
    obtain ⟨d, h2, h⟩ := bind_ok.1 h
    obtain ⟨s, h3, h⟩ := bind_ok.1 h
    obtain ⟨r, h4, h⟩ := bind_ok.1 h
    obtain ⟨g', h5, h⟩ := bind_ok.1 h
    obtain ⟨q', h6, h⟩ := bind_ok.1 h
    cases pure_ok.1 h
    have hd : In (Plus A u) d := by
      unfold invDx at h2
      split at h2
      · obtain ⟨s, h7, h2⟩ := bind_ok.1 h2
        exact in_opPow (in_trig in_new h7) (in_rat 2) h2
      · exact in_trig in_new h2
    exact ⟨in_trig (in_sym hv) h6, in_mul (in_replaceOld (in_trig in_new h3) he.plus h4) hd h5⟩

theorem genericLoop_in (hv : A v) : ∀ {ts pre : List Expr} {q : Expr}, (∀ t ∈ pre ++ ts, In A t) →
    genericLoop O n v pre ts = .ok (some q) → In A q
  | [], _, _, _, h => by simp [genericLoop] at h
  | t :: r, pre, q, hw, h => by
    have recu := genericLoop_in hv (ts := r) (pre := pre ++ [t]) (q := q) (by simpa using hw)
    rw [genericLoop] at h
    obtain ⟨k, h1, h⟩ := bind_ok.1 h
    split at h
    · exact recu h
    next F =>
      obtain ⟨q', h2, h⟩ := bind_ok.1 h
      obtain ⟨rest, h3, h⟩ := bind_ok.1 h
      split at h
      · cases h
      · split at h
        · cases pure_ok.1 h
          exact removeConstFactor_Q (closed_syms A) ((adm_syms O A).checkTable (in_sym hv) (hw t (by simp)) h1) h2
        · exact recu h

theorem genericUSub_in (hv : A v) {e q g : Expr} (he : In A e) (h : genericUSub O n v u e = .ok (some (q, g))) :
    In A q ∧ In (Plus A u) g := by
  unfold genericUSub at h
  split at h
  next ts =>
    obtain ⟨k, h1, h⟩ := bind_ok.1 h
    split at h
    · cases pure_ok.1 h
    next q' =>
      obtain ⟨d, h2, h⟩ := bind_ok.1 h
      obtain ⟨f, h3, h⟩ := bind_ok.1 h
      obtain ⟨g', h4, h⟩ := bind_ok.1 h
      cases pure_ok.1 h
      have hq := genericLoop_in hv (pre := []) (by simpa using in_prod.1 he) h1
      exact ⟨hq, in_replaceOld in_new (in_div he (in_diff hq h2) h3).plus h4⟩
  next => cases h

theorem linearShape_in (hv : A v) {e w : Expr} {ic : Option Expr} (he : In A e) (h : linearShape O n v e = .ok (some (w, ic))) :
    In A w ∧ ∀ c, ic = some c → In A c := by
  unfold linearShape at h
  simp only at h
  split at h
  · obtain ⟨b, h1, h⟩ := bind_ok.1 h
    split at h
    · cases pure_ok.1 h; exact ⟨he, by simp⟩
    · cases pure_ok.1 h
  · obtain ⟨q, h1, h⟩ := bind_ok.1 h
    split at h
    · cases pure_ok.1 h; exact ⟨he, by simp⟩
    · obtain ⟨e', h2, h⟩ := bind_ok.1 h
      obtain ⟨xyz, h3, h⟩ := bind_ok.1 h
      have he' : In A e' := by
        unfold negIfSub at h2
        split at h2
        · exact in_neg he h2
        · cases h2; exact he
      have hx := removeConstFactor_Q (closed_syms A) he' h3
      split at h
      next b x =>
        split at h
        · obtain ⟨c, h4, h⟩ := bind_ok.1 h
          have hc := in_div he' hx h4
          split at h
          · cases pure_ok.1 h
          · obtain ⟨a, h5, h⟩ := bind_ok.1 h
            obtain ⟨i, h6, h⟩ := bind_ok.1 h
            obtain ⟨ic', h7, h⟩ := bind_ok.1 h
            obtain ⟨w', h8, h⟩ := bind_ok.1 h
            cases pure_ok.1 h
            have ha : In A a := by
              unfold absIfNum at h5
              split at h5
              · exact in_cabs hc h5
              · cases h5; exact hc
            have hi := in_cpow ha (in_div (in_rat 1) ((closed_syms A).pow.1 hx).2 h6) h7
            exact ⟨in_mul hi (in_sym hv) h8, fun c h => by cases h; exact hi⟩
        · cases pure_ok.1 h
      · cases pure_ok.1 h
  · cases h

/-- The state of LinearUSub is in scope. -/
def LinIn (A : Str → Prop) (s : LinState) : Prop := (∀ w, s.1 = some w → In A w) ∧ ∀ c, s.2 = some c → In A c

theorem linPre_in (hv : A v) {e : Expr} {s : LinState} {p : Bool × LinState} (he : In A e) (hs : LinIn A s)
    (h : linPre O n v e s = .ok (some p)) : LinIn A p.2 := by
  unfold linPre at h
  split at h
  · cases h; exact hs
  · obtain ⟨k, h1, h⟩ := bind_ok.1 h
    have h := pure_ok.1 h
    cases k with
    | none => simp [linVerdict] at h
    | some k =>
      obtain ⟨w, ic⟩ := k
      unfold linVerdict at h
      simp only at h
      obtain ⟨i1, i2⟩ := linearShape_in hv he h1
      split at h
      · cases h; exact hs
      · cases h; exact ⟨fun w h => by cases h; exact i1, i2⟩

mutual
theorem linCheck_in (hv : A v) : ∀ {e : Expr} {s : LinState} {p : Bool × LinState}, In A e → LinIn A s →
    linCheck O n v e s = .ok p → LinIn A p.2 := by
  intro e s p he hs h
  have gen : (match linPre O n v e s with
    | .error er => .error er
    | .ok (some r) => .ok r
    | .ok none => Except.ok (false, s)) = Except.ok p → LinIn A p.2 := by
    intro h
    split at h
    · cases h
    next r hr => cases h; exact linPre_in hv he hs hr
    · cases h; exact hs
  cases e with
  | sum ts =>
    simp only [linCheck] at h
    split at h
    · cases h
    next r hr => cases h; exact linPre_in hv he hs hr
    · exact linCheckL_in hv (in_sum.1 he) hs h
  | prod ts =>
    simp only [linCheck] at h
    split at h
    · cases h
    next r hr => cases h; exact linPre_in hv he hs hr
    · exact linCheckL_in hv (in_prod.1 he) hs h
  | pow b x =>
    simp only [linCheck] at h
    obtain ⟨hb, hx⟩ := (closed_syms A).pow.1 he
    split at h
    · cases h
    next r hr => cases h; exact linPre_in hv he hs hr
    · split at h
      · cases h
      next s' h1 => exact linCheck_in hv hx (linCheck_in hv hb hs h1) h
      next s' h1 => cases h; exact linCheck_in hv hb hs h1
  | log i b =>
    simp only [linCheck] at h
    obtain ⟨hb, hx⟩ := (closed_syms A).log he
    split at h
    · cases h
    next r hr => cases h; exact linPre_in hv he hs hr
    · split at h
      · cases h
      next s' h1 => exact linCheck_in hv hx (linCheck_in hv hb hs h1) h
      next s' h1 => cases h; exact linCheck_in hv hb hs h1
  | trig f i =>
    simp only [linCheck] at h
    split at h
    · cases h
    next r hr => cases h; exact linPre_in hv he hs hr
    · exact linCheck_in hv ((closed_syms A).trig he) hs h
  | absv i =>
    simp only [linCheck] at h
    split at h
    · cases h
    next r hr => cases h; exact linPre_in hv he hs hr
    · exact linCheck_in hv ((closed_syms A).absv.1 he) hs h
  | _ => exact gen h
theorem linCheckL_in (hv : A v) : ∀ {ts : List Expr} {s : LinState} {p : Bool × LinState}, (∀ t ∈ ts, In A t) → LinIn A s →
    linCheckL O n v ts s = .ok p → LinIn A p.2 := by
  intro ts s p ht hs h
  cases ts with
  | nil => cases h; exact hs
  | cons t r =>
    simp only [linCheckL] at h
    split at h
    · cases h
    next s' h1 => exact linCheckL_in hv (fun t h => ht t (by simp [h])) (linCheck_in hv (ht t (by simp)) hs h1) h
    next s' h1 => cases h; exact linCheck_in hv (ht t (by simp)) hs h1
end

theorem linearUSub_in (hv : A v) {e q g : Expr} (he : In A e) (h : linearUSub O n v u e = .ok (some (q, g))) :
    In A q ∧ In (Plus A u) g := by
  unfold linearUSub at h
  split at h
  · cases h
  · obtain ⟨⟨b, s⟩, h1, h⟩ := bind_ok.1 h
    have hs := linCheck_in hv he ⟨by simp, by simp⟩ h1
    simp only at h
    split at h
    · split at h
      · cases h
      next q' hq' =>
        obtain ⟨d, h2, h⟩ := bind_ok.1 h
        obtain ⟨r, h3, h⟩ := bind_ok.1 h
        obtain ⟨g', h4, h⟩ := bind_ok.1 h
        cases pure_ok.1 h
        have hq := hs.1 _ hq'
        have hr : In (Plus A u) r := by
          unfold linReplace at h3
          split at h3
          next ic hic =>
            obtain ⟨w, h5, h3⟩ := bind_ok.1 h3
            exact in_replaceOld (in_div in_new (hs.2 _ hic).plus h5) he.plus h3
          · exact in_replaceOld in_new he.plus h3
        exact ⟨hq, in_div hr (in_diff hq h2).plus h4⟩
    · cases pure_ok.1 h

/-! ### Rewriting -/

theorem rewriteTrig_in {e g : Expr} {gs : List Expr} (he : In A e) (h : rewriteTrig O n e = .ok gs) (hg : g ∈ gs) : In A g := by
  have hA := adm_syms O A
  unfold rewriteTrig at h
  split at h
  · obtain ⟨r1, h1, h⟩ := bind_ok.1 h
    obtain ⟨r2, h2, h⟩ := bind_ok.1 h
    obtain ⟨r3, h3, h⟩ := bind_ok.1 h
    cases pure_ok.1 h
    have := (List.mem_filter.1 hg).1
    simp only [List.mem_cons, List.not_mem_nil, or_false] at this
    rcases this with rfl | rfl | rfl
    · exact hA.replaceClass (toSinCos_Q hA) n he h1
    · exact hA.replaceClass (toTanCsc_Q hA) n he h2
    · exact hA.replaceClass (toCotSec_Q hA) n he h3
  · cases h; cases hg

theorem rewritePythagorean_in {e g : Expr} (he : In A e) (h : rewritePythagorean O n e = .ok (some g)) : In A g := by
  unfold rewritePythagorean at h
  obtain ⟨⟨b, r⟩, h1, h⟩ := bind_ok.1 h
  have h := pure_ok.1 h
  split at h
  · cases h; exact pythReplace_Q (adm_syms O A) he h1
  · cases h

theorem catchAssert_ok {α : Type} {r : R α} {o : α} (h : catchAssert r = .ok (some o)) : r = .ok o := by
  unfold catchAssert at h
  split at h
  · cases h; rfl
  · cases h
  · cases h

theorem completeTheSquare_in (hv : A v) {e g : Expr} (he : In A e) (h : completeTheSquare O n v e = .ok (some g)) : In A g := by
  unfold completeTheSquare at h
  obtain ⟨b, h1, h⟩ := bind_ok.1 h
  split at h
  · obtain ⟨r, h2, h⟩ := bind_ok.1 h
    cases pure_ok.1 h
    refine in_replaceE (fun k e u he h => ?_) he h2
    unfold squarePerf at h
    obtain ⟨p, h3, h⟩ := bind_ok.1 h
    split at h
    next a0 a1 a2 =>
      obtain ⟨r, h4, h⟩ := bind_ok.1 h
      cases pure_ok.1 h
      have hp := toConstPoly_in he (catchAssert_ok h3)
      have i0 := hp a0 (by simp)
      have i1 := hp a1 (by simp)
      have i2 := hp a2 (by simp)
      unfold squarePerform at h4
      obtain ⟨b0, e0, h4⟩ := bind_ok.1 h4
      obtain ⟨b1, e1, h4⟩ := bind_ok.1 h4
      obtain ⟨-, -, h4⟩ := bind_ok.1 h4
      obtain ⟨c, e2, h4⟩ := bind_ok.1 h4
      obtain ⟨c2, e3, h4⟩ := bind_ok.1 h4
      obtain ⟨d, e4, h4⟩ := bind_ok.1 h4
      obtain ⟨vc, e5, h4⟩ := bind_ok.1 h4
      obtain ⟨s, e6, h4⟩ := bind_ok.1 h4
      obtain ⟨q, e7, h4⟩ := bind_ok.1 h4
      obtain ⟨q2, e8, h4⟩ := bind_ok.1 h4
      obtain ⟨q3, e9, h4⟩ := bind_ok.1 h4
      obtain ⟨q4, e10, h4⟩ := bind_ok.1 h4
      have hc := in_div (in_div i1 i2 e1) (in_rat 2) e2
      have hd := in_subt (in_div i0 i2 e0) (in_opPow hc (in_rat 2) e3) e4
      have hq := in_div (in_add (in_sym hv) hc e5) ((adm_syms O A).toAdmE.opSqrt hd e6) e7
      exact in_mul (in_mul (in_add (in_opPow hq (in_rat 2) e8) (in_rat 1) e9) hd e10) i2 h4
    · cases pure_ok.1 h
  · cases pure_ok.1 h

/-! ### Integration by parts -/

theorem byPartsTry_in (hv : A v) {integ : Expr → R (Option Expr)} {old : Expr → Bool} {e a b u du w : Expr} (ha : In A a)
    (hi : ∀ w, integ b = .ok (some w) → In A w) (h : byPartsTry O n v integ old e a b = .ok (some (u, du, w))) :
    In A u ∧ In A du ∧ In A w := by
  unfold byPartsTry at h
  obtain ⟨p, -, h⟩ := bind_ok.1 h
  split at h
  · cases pure_ok.1 h
  · obtain ⟨du', h1, h⟩ := bind_ok.1 h
    obtain ⟨k, h2, h⟩ := bind_ok.1 h
    split at h
    · cases pure_ok.1 h
    · obtain ⟨a', h3, h⟩ := bind_ok.1 h
      obtain ⟨g', h4, h⟩ := bind_ok.1 h
      obtain ⟨f', h5, h⟩ := bind_ok.1 h
      split at h
      · cases pure_ok.1 h
      · cases pure_ok.1 h
        exact ⟨ha, in_diff ha h1, hi _ h2⟩

theorem byPartsCheck_in (hv : A v) {integ : Expr → R (Option Expr)} {old : Expr → Bool} {e u du w : Expr} (he : In A e)
    (hi : ∀ dv w, dv ∈ Expr.children e → integ dv = .ok (some w) → In A w)
    (h : byPartsCheck O n v integ old e = .ok (some (u, du, w))) : In A u ∧ In A du ∧ In A w := by
  unfold byPartsCheck at h
  split at h
  next a b =>
    obtain ⟨k, h1, h⟩ := bind_ok.1 h
    have ia := in_prod.1 he a (by simp)
    have ib := in_prod.1 he b (by simp)
    split at h
    · cases pure_ok.1 h
      exact byPartsTry_in hv ia (fun w hw => hi b w (by simp [Expr.children]) hw) h1
    · exact byPartsTry_in hv ib (fun w hw => hi a w (by simp [Expr.children]) hw) h
  · cases h
  · split at h
    · obtain ⟨du', h1, h⟩ := bind_ok.1 h
      cases pure_ok.1 h
      exact ⟨he, in_diff he h1, in_sym hv⟩
    · cases h

theorem byPartsParts_in {e u du w c g f : Expr} (he : In A e) (hu : In A u) (hd : In A du) (hw : In A w)
    (h : byPartsParts O n e u du w = .ok (c, g, f)) : In A c ∧ In A g ∧ In A f := by
  unfold byPartsParts at h
  obtain ⟨c', h1, h⟩ := bind_ok.1 h
  obtain ⟨a', h2, h⟩ := bind_ok.1 h
  obtain ⟨g', h3, h⟩ := bind_ok.1 h
  obtain ⟨f', h4, h⟩ := bind_ok.1 h
  cases pure_ok.1 h
  have hg := in_mul (in_mul hd hw h2) (in_rat (-1)) h3
  exact ⟨in_mul hu hw h1, hg, in_div hg he h4⟩

theorem byPartsSolution_in {c f r : Expr} (hc : In A c) (hf : In A f) (h : byPartsSolution (ctors O n) c f = .ok r) : In A r := by
  unfold byPartsSolution at h
  obtain ⟨d, h1, h⟩ := bind_ok.1 h
  exact in_div hc (in_subt (in_rat 1) hf h1) h

end Simpy
