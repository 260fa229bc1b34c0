import Verif.Proofs.ReadSound
import Verif.Proofs.ExpandSound
import Verif.Proofs.PythSound
import Verif.Proofs.MatchSound

/-! `repr` is read back by the reader. -/

namespace Simpy
open Expr

variable {O : Oracle} {ρ : Str → ℝ}

def At : Nat → Str → Reading → Prop
  | 0 => RAtom
  | 1 => RPow
  | 2 => RProd
  | _ => RSum

theorem At.rsum {l : Nat} {s : Str} {T : Reading} (h : At l s T) : RSum s T := by
  match l, h with
  | 0, h => exact RProd.sum (RPow.prod (RAtom.pow h))
  | 1, h => exact RProd.sum (RPow.prod h)
  | 2, h => exact RProd.sum h
  | _ + 3, h => exact h

theorem At.rprod {l : Nat} {s : Str} {T : Reading} (h : At l s T) (hl : l ≤ 2) : RProd s T := by
  match l, h with
  | 0, h => exact RPow.prod (RAtom.pow h)
  | 1, h => exact RPow.prod h
  | 2, h => exact h
  | _ + 3, h => omega

theorem At.rpow {l : Nat} {s : Str} {T : Reading} (h : At l s T) (hl : l ≤ 1) : RPow s T := by
  match l, h with
  | 0, h => exact RAtom.pow h
  | 1, h => exact h
  | _ + 2, h => omega

theorem At.ratom {l : Nat} {s : Str} {T : Reading} (h : At l s T) (hl : l ≤ 0) : RAtom s T := by
  match l, h with
  | 0, h => exact h
  | _ + 1, h => omega

theorem intStr_nat (n : ℕ) : intStr (n : ℤ) = Nat.toDigits 10 n := by
  show (toString (n : ℤ)).toList = _
  have : toString (n : ℤ) = toString n := rfl
  rw [this, Nat.toString_eq_ofList_toDigits]; simp

theorem intStr_neg {z : ℤ} (h : z < 0) : intStr z = '-' :: Nat.toDigits 10 z.natAbs := by
  obtain ⟨n, rfl⟩ : ∃ n : ℕ, z = Int.negSucc n := by
    cases z with
    | ofNat n => exact absurd h (by simp)
    | negSucc n => exact ⟨n, rfl⟩
  show (toString (Int.negSucc n)).toList = _
  have : toString (Int.negSucc n) = "-" ++ toString (n + 1) := rfl
  rw [this, Nat.toString_eq_ofList_toDigits]; simp

/-- The text of a non-negative rational. -/
theorem ratStr_nonneg {q : ℚ} (h : 0 ≤ q) : ∃ T, At (if q.den = 1 then 0 else 2) (ratStr q) T ∧ T.val ρ = q := by
  obtain ⟨n, hn⟩ : ∃ n : ℕ, q.num = n := ⟨q.num.toNat, by have := Rat.num_nonneg.2 h; omega⟩
  have hq : (q : ℝ) = (n : ℝ) / (q.den : ℝ) := by
    have := Rat.cast_def (K := ℝ) q
    rw [this, hn]; simp
  unfold ratStr
  by_cases hd : q.den = 1
  · rw [if_pos hd, if_pos hd, hn, intStr_nat]
    exact ⟨.num n, RAtom.num n, by simp [Reading.val, hq, hd]⟩
  · rw [if_neg hd, if_neg hd, hn, intStr_nat, intStr_nat]
    exact ⟨.div (.num n) (.num q.den), (RAtom.num n).pow.prod.div (RAtom.num _).pow, by simp [Reading.val, hq]⟩

theorem ratStr_reads (q : ℚ) : ∃ T, At (level (rat q)) (ratStr q) T ∧ T.val ρ = q := by
  by_cases h : q < 0
  · have hl : level (rat q) = 3 := by simp [level, h]
    rw [hl]
    obtain ⟨T, h1, h2⟩ := ratStr_nonneg (ρ := ρ) (q := -q) (by linarith)
    refine ⟨.neg T, ?_, by simp [Reading.val, h2]⟩
    have e : ratStr q = '-' :: ratStr (-q) := by
      have hn : q.num < 0 := Rat.num_neg.2 h
      have hm : (-q).num = (q.num.natAbs : ℤ) := by rw [Rat.neg_num]; omega
      unfold ratStr
      rw [hm, intStr_neg hn]
      simp only [Rat.neg_den, intStr_nat]
      split <;> rfl
    rw [e]
    exact (h1.rprod (by split <;> simp)).neg
  · have hl : level (rat q) = if q.den = 1 then 0 else 2 := by simp [level, h]
    rw [hl]
    exact ratStr_nonneg (not_lt.1 h)

/-- What the induction says about the calls below. -/
def Back (O : Oracle) (ρ : Str → ℝ) (n : Nat) : Prop := ∀ {e : Expr} {s : Str}, Kid WF e → (level e = 3 → WF e) → DomS false ρ e →
  (∀ x ∈ syms e, goodName x = true) → clear O n e = true → (ctors O n).repr e = .ok s → ∃ T, At (level e) s T ∧ T.val ρ = den ρ e

theorem wf_kid {e : Expr} (h : WF e) : Kid WF e := by
  cases e with
  | prod ts => exact (WF_prod.1 h).2
  | _ => exact h

theorem kid_wf {e : Expr} (h : Kid WF e) (hp : ¬ e.isProd = true) : WF e := by
  cases e with
  | prod ts => exact absurd rfl hp
  | _ => exact h

theorem kid_level {k : Nat} {e : Expr} (hp : e.isProd = true) (h : factorOk k e = true) : level e ≤ k := by
  cases e <;> simp [isProd] at hp
  simpa [factorOk, isSum, isLongSymbol] using h

theorem name_reads {s : Str} (h : goodName s = true) : RAtom s (.name s) ∧ (Reading.name s).val ρ = ρ s := by
  simp only [goodName, Bool.and_eq_true, Bool.not_eq_true', List.isEmpty_eq_false_iff, List.all_eq_true, List.contains_eq_mem,
    decide_eq_false_iff_not, List.mem_cons, not_or] at h
  obtain ⟨⟨⟨h1, h2⟩, h3⟩, h4, h5, h6, h7⟩ := h
  exact ⟨RAtom.word h1 h2 h3 h4 h7, by rw [Reading.val, if_neg h5, if_neg h6]⟩

theorem level_sum {t : Expr} (h : t.isSum = true) : level t = 3 := by cases t <;> simp_all [isSum, level]

theorem level_long {t : Expr} (h : isLongSymbol t = true) : level t = 0 := by cases t <;> simp_all [isLongSymbol, level]

variable {n : Nat}

theorem prodTermRepr_reads (ih : Back O ρ n) {k : Nat} {t : Expr} {s : Str} (hk : k ≤ 2) (wt : Kid WF t) (hl : level t = 3 → WF t)
    (dt : DomS false ρ t) (gt : ∀ x ∈ syms t, goodName x = true) (ct : clear O n t = true) (ft : factorOk k t = true)
    (h : prodTermRepr (ctors O n) t = .ok s) : ∃ l T, l ≤ k ∧ At l s T ∧ T.val ρ = den ρ t := by
  obtain ⟨u, h1, h⟩ := bind_ok.1 h
  obtain ⟨T, h2, h3⟩ := ih wt hl dt gt ct h1
  have := (pure_ok.1 h).symm; subst this
  by_cases hw : (t.isSum || isLongSymbol t) = true
  · rw [if_pos hw]
    exact ⟨0, T, by omega, h2.rsum.paren, h3⟩
  · rw [if_neg hw]
    have hw' : (t.isSum || isLongSymbol t) = false := by simpa using hw
    simp only [factorOk, hw', Bool.false_or, decide_eq_true_eq] at ft
    exact ⟨_, T, ft, h2, h3⟩

theorem powTermRepr_reads (ih : Back O ρ n) {k : Nat} {t : Expr} {s : Str} (wt : Kid WF t) (hl : level t = 3 → WF t)
    (dt : DomS false ρ t) (gt : ∀ x ∈ syms t, goodName x = true) (ct : clear O n t = true) (ft : powerOk k t = true)
    (h : powTermRepr (ctors O n) t = .ok s) : ∃ l T, l ≤ k ∧ At l s T ∧ T.val ρ = den ρ t := by
  obtain ⟨u, h1, h⟩ := bind_ok.1 h
  obtain ⟨T, h2, h3⟩ := ih wt hl dt gt ct h1
  have := (pure_ok.1 h).symm; subst this
  by_cases hw : (t.isSum || t.isProd || isFractionOrNeg t || isLongSymbol t) = true
  · rw [if_pos hw]
    exact ⟨0, T, by omega, h2.rsum.paren, h3⟩
  · rw [if_neg hw]
    have hw' : (t.isSum || t.isProd || isFractionOrNeg t || isLongSymbol t) = false := by simpa using hw
    simp only [powerOk, hw', Bool.false_or, decide_eq_true_eq] at ft
    exact ⟨_, T, ft, h2, h3⟩

theorem good_names_of {ts : List Expr} : (∀ x ∈ syms (sum ts), goodName x = true) → ∀ t ∈ ts, ∀ x ∈ syms t, goodName x = true :=
  fun h => (closed_syms (fun x => goodName x = true)).sum.1 h

theorem sumReprRest_reads (hO : O.Exact) (ih : Back O ρ n) : ∀ {ts : List Expr} {s : Str} {a : Reading}, (∀ t ∈ ts, WF t) →
    (∀ t ∈ ts, DomS false ρ t) → (∀ t ∈ ts, ∀ x ∈ syms t, goodName x = true) → clearTerms O n (clear O n) ts = true →
    sumReprRest (ctors O n) ts = .ok s → ∃ T, Terms a s T ∧ T.val ρ = a.val ρ + (ts.map (den ρ)).sum
  | [], s, a, _, _, _, _, h => by
    cases h; exact ⟨a, .nil a, by simp⟩
  | t :: r, s, a, wt, dt, gt, ct, h => by
    rw [clearTerms, Bool.and_eq_true] at ct
    rw [sumReprRest] at h
    have wr := fun u (m : u ∈ r) => wt u (by simp [m])
    have dr := fun u (m : u ∈ r) => dt u (by simp [m])
    have gr := fun u (m : u ∈ r) => gt u (by simp [m])
    have wt := wt t (by simp)
    have dt := dt t (by simp)
    have gt := gt t (by simp)
    by_cases hs : t.isSubtraction = true
    · rw [if_pos hs] at h ct
      obtain ⟨u, h1, h⟩ := bind_ok.1 h
      obtain ⟨v, h2, h⟩ := bind_ok.1 h
      obtain ⟨w, h3, h⟩ := bind_ok.1 h
      have := (pure_ok.1 h).symm; subst this
      rw [h1] at ct
      simp only [Bool.and_eq_true, decide_eq_true_eq] at ct
      have wu := opNeg_W (ctors_sound hO n) wt h1
      obtain ⟨e1, du⟩ := opNeg_V (ctors_sound hO n) wt dt h1
      have gu : ∀ x ∈ syms u, goodName x = true := (adm_syms O (fun x => goodName x = true)).toAdmE.opNeg gt h1
      obtain ⟨T, a1, a2⟩ := ih (wf_kid wu) (fun _ => wu) du gu ct.1.1 h2
      obtain ⟨T', b1, b2⟩ := sumReprRest_reads hO ih (a := .sub a T) wr dr gr ct.2 h3
      refine ⟨T', ?_, ?_⟩
      · simpa using Terms.sub (a1.rprod ct.1.2) b1
      · rw [b2]; simp [Reading.val, a2, e1]; ring
    · rw [if_neg hs] at h ct
      obtain ⟨v, h2, h⟩ := bind_ok.1 h
      obtain ⟨w, h3, h⟩ := bind_ok.1 h
      have := (pure_ok.1 h).symm; subst this
      simp only [Bool.and_eq_true, decide_eq_true_eq] at ct
      obtain ⟨T, a1, a2⟩ := ih (wf_kid wt) (fun _ => wt) dt gt ct.1.1 h2
      obtain ⟨T', b1, b2⟩ := sumReprRest_reads hO ih (a := .add a T) wr dr gr ct.2 h3
      refine ⟨T', ?_, ?_⟩
      · simpa using Terms.add (a1.rprod ct.1.2) b1
      · rw [b2]; simp [Reading.val, a2]; ring

theorem join_reads (ih : Back O ρ n) : ∀ {ts : List Expr} {ss : List Str} {s : Str} {a : Reading}, RProd s a → (∀ t ∈ ts, WF t) →
    (∀ t ∈ ts, DomS false ρ t) → (∀ t ∈ ts, ∀ x ∈ syms t, goodName x = true) →
    (∀ t ∈ ts, clear O n t = true ∧ factorOk 1 t = true) → mapR (prodTermRepr (ctors O n)) ts = .ok ss →
    ∃ T, RProd (s ++ (ss.map (fun u => '*' :: u)).flatten) T ∧ T.val ρ = a.val ρ * (ts.map (den ρ)).prod
  | [], ss, s, a, ha, _, _, _, _, h => by
    cases h; exact ⟨a, by simpa using ha, by simp⟩
  | t :: r, ss, s, a, ha, wt, dt, gt, ct, h => by
    obtain ⟨u, us, h1, h2, rfl⟩ := mapR_cons' h
    obtain ⟨l, T, hl, a1, a2⟩ := prodTermRepr_reads ih (k := 1) (by omega) (wf_kid (wt t (by simp))) (fun _ => wt t (by simp))
      (dt t (by simp)) (gt t (by simp)) (ct t (by simp)).1 (ct t (by simp)).2 h1
    obtain ⟨T', b1, b2⟩ := join_reads ih (ha.mul (a1.rpow hl)) (fun x m => wt x (by simp [m])) (fun x m => dt x (by simp [m]))
      (fun x m => gt x (by simp [m])) (fun x m => ct x (by simp [m])) h2
    refine ⟨T', by simpa using b1, ?_⟩
    rw [b2]; simp [Reading.val, a2]; ring

theorem joinStr_cons (a : Str) : ∀ (ss : List Str), joinStr ['*'] (a :: ss) = a ++ (ss.map (fun u => '*' :: u)).flatten
  | [] => by simp [joinStr]
  | b :: r => by
    rw [joinStr, joinStr_cons b r]; simp

theorem wrap_reads {s u : Str} {f : Str} {T : Reading} (hf : f ∈ fnNames) (hT : RSum s T) (hw : unwrapped (.ok s) = true)
    (h : wrapRepr s f = .ok u) : RAtom u (.fn f T) := by
  have hl := hT.length
  match s, hl with
  | c :: r, _ =>
    unfold wrapRepr at h
    simp only at h
    rw [if_neg] at h
    · cases h; exact RAtom.fn hf hT
    · rintro ⟨rfl, h2⟩
      simp [unwrapped, h2] at hw

theorem wrap_log {s u t : Str} {T b : Reading} (hb : RSum t b) (hT : RSum s T) (hw : unwrapped (.ok s) = true)
    (h : wrapRepr s ("log[base=".toList ++ t ++ [']']) = .ok u) : RAtom u (.logBase b T) := by
  have hl := hT.length
  match s, hl with
  | c :: r, _ =>
    unfold wrapRepr at h
    simp only at h
    rw [if_neg] at h
    · cases h; exact RAtom.logBase hb hT
    · rintro ⟨rfl, h2⟩
      simp [unwrapped, h2] at hw

theorem fn_label (f : TrigFn) : f.label ∈ fnNames ∧ ∀ t, fnVal f.label t = f.real t := by
  cases f <;> refine ⟨by decide, fun t => ?_⟩ <;> simp only [TrigFn.real, fnVal] <;>
    simp [TrigFn.label, TrigFn.isInverse, TrigFn.func]

theorem kid_good {e : Expr} (h : Kid (fun e => ∀ x ∈ syms e, goodName x = true) e) : ∀ x ∈ syms e, goodName x = true := by
  cases e with
  | prod ts => exact (closed_syms (fun x => goodName x = true)).prod.2 h
  | _ => exact h

theorem prodRepr_reads (hO : O.Exact) (ih : Back O ρ n) {ts : List Expr} {s : Str} (wt : ∀ t ∈ ts, WF t)
    (hl : level (prod ts) = 3 → WF (prod ts)) (dt : DomS false ρ (prod ts)) (gt : ∀ x ∈ syms (prod ts), goodName x = true)
    (ct : clear O (n + 1) (prod ts) = true) (h : prodRepr O (ctors O n) ts = .ok s) :
    ∃ T, At (level (prod ts)) s T ∧ T.val ρ = den ρ (prod ts) := by
  have hQ := adm_syms O (fun x => goodName x = true)
  have gts : ∀ t ∈ ts, ∀ x ∈ syms t, goodName x = true := (closed_syms (fun x => goodName x = true)).prod.1 gt
  have dts : ∀ t ∈ ts, DomS false ρ t := (DomSL_iff ρ ts).1 (by rw [DomS] at dt; exact dt)
  have hv : den ρ (prod ts) = (ts.map (den ρ)).prod := by rw [den, denP_eq]
  unfold prodRepr at h
  rw [clear] at ct
  by_cases hs : (prod ts).isSubtraction = true
  · rw [if_pos hs] at h ct
    have hlv : level (prod ts) = 3 := by simp [level, hs]
    have wp := hl hlv
    obtain ⟨p, h1, h⟩ := bind_ok.1 h
    rw [h1] at ct
    simp only [Bool.and_eq_true] at ct
    have hm : ∀ t ∈ [prod ts, rat (-1)], WF t := by simp [wp]
    have hd : ∀ t ∈ [prod ts, rat (-1)], DomS false ρ t := by simp [dt]
    have w1 := (ctors_sound hO n).prodW _ _ hm h1
    obtain ⟨e1, d1⟩ := (ctors_sound hO n).prod ρ _ _ hm hd h1
    have g1 : ∀ x ∈ syms p, goodName x = true := (hQ.pres n).prod _ _ (by
      intro t ht; simp only [List.mem_cons, List.not_mem_nil, or_false] at ht
      rcases ht with rfl | rfl
      · exact gt
      · simp [syms]) h1
    have val : ∀ {T : Reading}, T.val ρ = den ρ p → (Reading.neg T).val ρ = den ρ (prod ts) := by
      intro T hT; rw [Reading.val, hT, e1]; simp
    rw [hlv]
    by_cases hp : p.isProd = true
    · simp only [hp, Bool.not_true, Bool.false_eq_true, if_false] at h
      by_cases hps : p.isSubtraction = true
      · rw [if_pos hps] at h; cases h
      · rw [if_neg hps] at h
        obtain ⟨u, h2, h⟩ := bind_ok.1 h
        have := (pure_ok.1 h).symm; subst this
        obtain ⟨T, a1, a2⟩ := ih (wf_kid w1) (fun _ => w1) d1 g1 ct.1 h2
        refine ⟨.neg T, (a1.rprod ?_).neg, val a2⟩
        cases p <;> simp [isProd] at hp
        simp [level, hps]
    · simp only [hp, Bool.not_false, if_true] at h
      obtain ⟨u, h2, h⟩ := bind_ok.1 h
      have := (pure_ok.1 h).symm; subst this
      obtain ⟨l, T, hl', a1, a2⟩ := prodTermRepr_reads ih (k := 2) (le_refl _) (wf_kid w1) (fun _ => w1) d1 g1 ct.1 ct.2 h2
      exact ⟨.neg T, (a1.rprod hl').neg, val a2⟩
  · rw [if_neg hs] at h ct
    have hlv : level (prod ts) = 2 := by simp [level, hs]
    rw [hlv]
    obtain ⟨⟨a, d⟩, h1, h⟩ := bind_ok.1 h
    rw [h1] at ct
    obtain ⟨ka, kd, da, dd, d0, hval⟩ := numDen_V hO (fun t ht => ⟨wt t ht, dts t ht⟩) h1
    obtain ⟨ga, gd⟩ := hQ.toAdmE.numDen gts h1
    have ga := kid_good ga
    have gd := kid_good gd
    simp only at h ct
    by_cases hb : beq O d (rat 1) = true
    · rw [hb, if_neg (by simp)] at h
      rw [if_pos hb] at ct
      simp only [Bool.and_eq_true, List.all_eq_true] at ct
      obtain ⟨ss, h2, h⟩ := bind_ok.1 h
      have := (pure_ok.1 h).symm; subst this
      cases ts with
      | nil => simp at ct
      | cons t r =>
        obtain ⟨u, us, h3, h4, rfl⟩ := mapR_cons' h2
        obtain ⟨l, T, hl', a1, a2⟩ := prodTermRepr_reads ih (k := 1) (by omega) (wf_kid (wt t (by simp))) (fun _ => wt t (by simp))
          (dts t (by simp)) (gts t (by simp)) (ct.2 t (by simp)).1 (ct.2 t (by simp)).2 h3
        obtain ⟨T', b1, b2⟩ := join_reads ih (a1.rpow hl').prod (fun x m => wt x (by simp [m])) (fun x m => dts x (by simp [m]))
          (fun x m => gts x (by simp [m])) (fun x m => ct.2 x (by simp [m])) h4
        refine ⟨T', ?_, ?_⟩
        · rw [joinStr_cons]; exact b1
        · rw [b2, a2, hv]; simp
    · rw [if_pos (by simpa using hb)] at h
      rw [if_neg hb] at ct
      simp only [Bool.and_eq_true] at ct
      obtain ⟨⟨⟨ca, cd⟩, fa⟩, fd⟩ := ct
      have key : ∀ {u w : Str}, (∃ T, RProd u T ∧ T.val ρ = den ρ a) → (∃ T, RPow w T ∧ T.val ρ = den ρ d) →
          ∃ T, At 2 (u ++ '/' :: w) T ∧ T.val ρ = den ρ (prod ts) := by
        rintro u w ⟨T, a1, a2⟩ ⟨T', b1, b2⟩
        refine ⟨.div T T', a1.div b1, ?_⟩
        rw [Reading.val, a2, b2, hv, ← hval]; field_simp
      have num : ∀ {u : Str}, (if a.isProd = true then (ctors O n).repr a else prodTermRepr (ctors O n) a) = .ok u →
          ∃ T, RProd u T ∧ T.val ρ = den ρ a := by
        intro u hu
        by_cases hp : a.isProd = true
        · rw [if_pos hp] at hu
          have hla : level a ≤ 2 := kid_level hp fa
          obtain ⟨T, a1, a2⟩ := ih ka (by omega) da ga ca hu
          exact ⟨T, a1.rprod hla, a2⟩
        · rw [if_neg hp] at hu
          have wa : WF a := kid_wf ka hp
          obtain ⟨l, T, hl', a1, a2⟩ := prodTermRepr_reads ih (k := 2) (le_refl _) ka (fun _ => wa) da ga ca fa hu
          exact ⟨T, a1.rprod hl', a2⟩
      have den : ∀ {w : Str}, (if d.isProd = true then (do let s ← (ctors O n).repr d; return parens s)
          else prodTermRepr (ctors O n) d) = .ok w → ∃ T, RPow w T ∧ T.val ρ = den ρ d := by
        intro w hw
        by_cases hp : d.isProd = true
        · rw [if_pos hp] at hw
          obtain ⟨v, h2, hw⟩ := bind_ok.1 hw
          have := (pure_ok.1 hw).symm; subst this
          have hld : level d ≤ 2 := by
            rw [Bool.or_eq_true, Bool.and_eq_true, decide_eq_true_eq] at fd
            rcases fd with fd | fd
            · exact fd.2
            · exact (kid_level hp fd).trans (by omega)
          obtain ⟨T, a1, a2⟩ := ih kd (by omega) dd gd cd h2
          exact ⟨T, a1.rsum.paren.pow, a2⟩
        · rw [if_neg hp] at hw
          have wd : WF d := kid_wf kd hp
          have fd : factorOk 1 d = true := by
            rw [Bool.or_eq_true, Bool.and_eq_true] at fd
            exact fd.resolve_left fun h => hp h.1
          obtain ⟨l, T, hl', a1, a2⟩ := prodTermRepr_reads ih (k := 1) (by omega) kd (fun _ => wd) dd gd cd fd hw
          exact ⟨T, a1.rpow hl', a2⟩
      by_cases hp : a.isProd = true
      · rw [if_pos hp] at num
        simp only [hp, if_true] at h
        obtain ⟨u, h2, h⟩ := bind_ok.1 h
        by_cases hq : d.isProd = true
        · rw [if_pos hq] at den
          simp only [hq, if_true] at h
          obtain ⟨v, h3, h⟩ := bind_ok.1 h
          have := (pure_ok.1 h).symm; subst this
          exact key (num h2) (den h3)
        · rw [if_neg hq] at den
          simp only [hq] at h
          obtain ⟨v, h3, h⟩ := bind_ok.1 h
          have := (pure_ok.1 h).symm; subst this
          exact key (num h2) (den h3)
      · rw [if_neg hp] at num
        simp only [hp] at h
        obtain ⟨u, h2, h⟩ := bind_ok.1 h
        by_cases hq : d.isProd = true
        · rw [if_pos hq] at den
          simp only [hq, if_true] at h
          obtain ⟨v, h3, h⟩ := bind_ok.1 h
          have := (pure_ok.1 h).symm; subst this
          exact key (num h2) (den h3)
        · rw [if_neg hq] at den
          simp only [hq] at h
          obtain ⟨v, h3, h⟩ := bind_ok.1 h
          have := (pure_ok.1 h).symm; subst this
          exact key (num h2) (den h3)

theorem powRepr_reads (hO : O.Exact) (ih : Back O ρ n) {b x : Expr} {s : Str} (wp : WF (pow b x)) (dt : DomS false ρ (pow b x))
    (gt : ∀ y ∈ syms (pow b x), goodName y = true) (ct : clear O (n + 1) (pow b x) = true)
    (h : powRepr O (ctors O n) b x = .ok s) : ∃ T, At (level (pow b x)) s T ∧ T.val ρ = den ρ (pow b x) := by
  have hQ := adm_syms O (fun x => goodName x = true)
  obtain ⟨gb, gx⟩ := hQ.pow gt
  obtain ⟨wb, wx, _⟩ := wp
  have dd := dt
  obtain ⟨db, dx, d3, d4, _⟩ := dt
  unfold powRepr at h
  rw [clear] at ct
  rw [beq_rat hO dx.noFlt, beq_rat hO dx.noFlt] at h ct
  simp only [decide_eq_true_eq] at h ct
  by_cases h1 : x = rat (-1)
  · rw [if_pos h1] at h ct
    subst h1
    simp only [Bool.and_eq_true] at ct
    obtain ⟨u, h2, h⟩ := bind_ok.1 h
    have := (pure_ok.1 h).symm; subst this
    obtain ⟨l, T, hl, a1, a2⟩ := powTermRepr_reads ih (k := 1) (wf_kid wb) (fun _ => wb) db gb ct.1 ct.2 h2
    have hlv : level (pow b (rat (-1))) = 2 := by simp [level]
    rw [hlv]
    refine ⟨.div (.num 1) T, (RAtom.num 1).pow.prod.div (a1.rpow hl), ?_⟩
    simp [Reading.val, a2, den]
  · rw [if_neg h1] at h ct
    have hfl : x.isFlt = false := by cases x <;> simp_all [isFlt, DomS]
    rw [hfl, Bool.or_false] at h
    by_cases h2 : (x.isRat && negNum x) = true
    · rw [if_pos h2] at h ct
      obtain ⟨q, rfl, hq⟩ : ∃ q : ℚ, x = rat q ∧ q < 0 := by
        cases x <;> simp [isRat, negNum] at h2; exact ⟨_, rfl, h2⟩
      obtain ⟨nx, h3, h⟩ := bind_ok.1 h
      obtain ⟨p, h4, h⟩ := bind_ok.1 h
      obtain ⟨u, h5, h⟩ := bind_ok.1 h
      have := (pure_ok.1 h).symm; subst this
      rw [h3] at ct
      simp only [h4, Bool.and_eq_true, decide_eq_true_eq] at ct
      have hb0 : den ρ b ≠ 0 := by
        rcases d3 with h | h
        · exact h
        · simp only [den_rat, Rat.cast_nonneg] at h; exact absurd h (not_le.2 hq)
      obtain ⟨w1, d1, e1⟩ := recip_pow_V hO wb wx dd (.inl hb0) h3 h4
      have gn : ∀ y ∈ syms nx, goodName y = true := hQ.toAdmE.opNeg gx h3
      have gp : ∀ y ∈ syms p, goodName y = true := (hQ.pres n).pow _ _ _ gb gn h4
      obtain ⟨T, a1, a2⟩ := ih (wf_kid w1) (fun _ => w1) d1 gp ct.1 h5
      have hlv : level (pow b (rat q)) = 2 := by simp [level, hq]
      rw [hlv]
      refine ⟨.div (.num 1) T, (RAtom.num 1).pow.prod.div (a1.rpow ct.2), ?_⟩
      simp [Reading.val, a2, e1]
    · rw [if_neg h2] at h ct
      by_cases h3 : x = rat (1 / 2)
      · rw [if_pos h3] at h ct
        subst h3
        simp only [Bool.and_eq_true] at ct
        obtain ⟨u, h4, h⟩ := bind_ok.1 h
        rw [h4] at ct
        obtain ⟨T, a1, a2⟩ := ih (wf_kid wb) (fun _ => wb) db gb ct.1 h4
        have hlv : level (pow b (rat (1 / 2))) = 0 := by norm_num [level]
        rw [hlv]
        refine ⟨.fn "sqrt".toList T, wrap_reads (by decide) a1.rsum ct.2 h, ?_⟩
        simp [Reading.val, fnVal, a2, den]
      · rw [if_neg h3] at h ct
        simp only [Bool.and_eq_true] at ct
        obtain ⟨⟨⟨cb, cx⟩, fb⟩, fx⟩ := ct
        obtain ⟨u, h4, h⟩ := bind_ok.1 h
        obtain ⟨v, h5, h⟩ := bind_ok.1 h
        have := (pure_ok.1 h).symm; subst this
        obtain ⟨l, T, hl, a1, a2⟩ := powTermRepr_reads ih (k := 0) (wf_kid wb) (fun _ => wb) db gb cb fb h4
        obtain ⟨l', T', hl', b1, b2⟩ := powTermRepr_reads ih (k := 1) (wf_kid wx) (fun _ => wx) dx gx cx fx h5
        have hlv : level (pow b x) = 1 := by
          cases x with
          | rat q =>
            have : ¬ q < 0 := by simpa [isRat, negNum] using h2
            have h3' : q ≠ 1 / 2 := fun e => h3 (by rw [e])
            simp only [level, if_neg this, if_neg h3']
          | _ => rfl
        rw [hlv]
        exact ⟨.pow T T', (a1.ratom hl).powOf (b1.rpow hl'), by simp [Reading.val, a2, b2, den]⟩

theorem back (hO : O.Exact) : ∀ n, Back O ρ n
  | 0 => by intro _ _ _ _ h; simp [clear] at h
  | n + 1 => by
    intro ke hl de ge ce h
    rename_i e s
    have ih : Back O ρ n := @back hO n
    change reprOf O (ctors O n) e = .ok s at h
    have hQ := adm_syms O (fun x => goodName x = true)
    cases e with
    | rat q => cases h; simpa [den] using ratStr_reads q
    | flt v => simp [DomS] at de
    | pi =>
      cases h
      exact ⟨.name ['p', 'i'], RAtom.word (by decide) (by decide) (by decide) (by decide) (by decide), by simp [Reading.val, den]⟩
    | euler =>
      cases h
      exact ⟨.name ['e'], RAtom.word (by decide) (by decide) (by decide) (by decide) (by decide), by simp [Reading.val, den]⟩
    | inf => simp [DomS] at de
    | neginf => simp [DomS] at de
    | sym x =>
      cases h
      have := name_reads (ρ := ρ) (ge s (by simp [syms]))
      exact ⟨.name s, this.1, by simpa [den] using this.2⟩
    | any k => simp [DomS] at de
    | sum ts =>
      have we : WF (sum ts) := hl rfl
      cases ts with
      | nil => simp [clear] at ce
      | cons t r =>
        have wt := WF_sum.1 we
        have dt := (DomSL_iff ρ _).1 (by rw [DomS] at de; exact de)
        have gt := good_names_of ge
        rw [clear, Bool.and_eq_true] at ce
        simp only [reprOf, sumRepr] at h
        obtain ⟨u, h1, h⟩ := bind_ok.1 h
        obtain ⟨v, h2, h⟩ := bind_ok.1 h
        have := (pure_ok.1 h).symm; subst this
        obtain ⟨T, a1, a2⟩ := ih (wf_kid (wt t (by simp))) (fun _ => wt t (by simp)) (dt t (by simp)) (gt t (by simp)) ce.1 h1
        obtain ⟨T', b1, b2⟩ := sumReprRest_reads hO ih (a := T) (fun x m => wt x (by simp [m])) (fun x m => dt x (by simp [m]))
          (fun x m => gt x (by simp [m])) ce.2 h2
        exact ⟨T', a1.rsum.terms b1, by rw [b2, a2, den, denS_eq]; simp⟩
    | prod ts => exact prodRepr_reads hO ih ke hl de ge ce h
    | pow b x => exact powRepr_reads hO ih ke de ge ce h
    | log i b =>
      obtain ⟨gi, gb⟩ := hQ.log ge
      obtain ⟨wi, wb⟩ : WF i ∧ WF b := ke
      obtain ⟨di, db, _⟩ := de
      rw [clear, Bool.and_eq_true, Bool.and_eq_true] at ce
      simp only [reprOf] at h
      obtain ⟨u, h1, h⟩ := bind_ok.1 h
      obtain ⟨v, h2, h⟩ := bind_ok.1 h
      rw [h1] at ce
      obtain ⟨T, a1, a2⟩ := ih (wf_kid wi) (fun _ => wi) di gi ce.1.1 h1
      unfold logLabel at h2
      by_cases hb : beq O b euler = true
      · rw [if_pos hb] at h2
        cases h2
        have hbe := (beq_iff hO db.noFlt (by simp [NoFlt])).1 hb
        subst hbe
        exact ⟨.fn ['l', 'n'] T, wrap_reads (by decide) a1.rsum ce.1.2 h, by simp [Reading.val, fnVal, a2, den]⟩
      · rw [if_neg hb] at h2
        have hu : ∃ w, (ctors O n).repr b = .ok w ∧ v = "log[base=".toList ++ w ++ [']'] := by
          cases b with
          | rat q =>
            simp only at h2
            split at h2
            · cases h2
            · obtain ⟨w, h3, h2⟩ := bind_ok.1 h2
              exact ⟨w, h3, (pure_ok.1 h2).symm⟩
          | _ =>
            obtain ⟨w, h3, h2⟩ := bind_ok.1 h2
            exact ⟨w, h3, (pure_ok.1 h2).symm⟩
        obtain ⟨w, h3, rfl⟩ := hu
        obtain ⟨T', b1, b2⟩ := ih (wf_kid wb) (fun _ => wb) db gb ce.2 h3
        exact ⟨.logBase T' T, wrap_log b1.rsum a1.rsum ce.1.2 h, by simp [Reading.val, a2, b2, den]⟩
    | trig f i =>
      have gi := hQ.trig ge
      have wi : WF i := ke
      rw [clear, Bool.and_eq_true] at ce
      simp only [reprOf] at h
      obtain ⟨u, h1, h⟩ := bind_ok.1 h
      rw [h1] at ce
      obtain ⟨T, a1, a2⟩ := ih (wf_kid wi) (fun _ => wi) de.1 gi ce.1 h1
      exact ⟨.fn f.label T, wrap_reads (fn_label f).1 a1.rsum ce.2 h, by rw [Reading.val, (fn_label f).2, a2, den]⟩
    | absv i =>
      have gi := hQ.absv ge
      have wi : WF i := ke
      rw [clear] at ce
      simp only [reprOf] at h
      obtain ⟨u, h1, h⟩ := bind_ok.1 h
      have := (pure_ok.1 h).symm; subst this
      obtain ⟨T, a1, a2⟩ := ih (wf_kid wi) (fun _ => wi) de.1 gi ce h1
      exact ⟨.bars T, a1.rsum.bars, by simp [Reading.val, a2, den]⟩

end Simpy
