import Verif.Proofs.ReadLatex
import Verif.Proofs.ReprReads

/-! What `latex` prints is read back by the reader. -/

namespace Simpy.Tex
open Simpy Expr

variable {O : Oracle} {ρ : Str → ℝ}

def At : Nat → Str → Reading → Prop
  | 0 => RAtom
  | 1 => RPow
  | 2 => RProd
  | _ => RSum

theorem At.rsum {l : Nat} {s : Str} {T : Reading} (h : At l s T) : RSum s T := by
  match l, h with
  | 0, h => exact RProd.sum (RPow.prod (RAtom.pow h))
  | 1, h => exact RProd.sum (RPow.prod h)
  | 2, h => exact RProd.sum h
  | _ + 3, h => exact h

theorem At.rprod {l : Nat} {s : Str} {T : Reading} (h : At l s T) (hl : l ≤ 2) : RProd s T := by
  match l, h with
  | 0, h => exact RPow.prod (RAtom.pow h)
  | 1, h => exact RPow.prod h
  | 2, h => exact h
  | _ + 3, h => omega

/-- The text of a whole number. -/
theorem intStr_reads (z : ℤ) : ∃ T, At (if z < 0 then 3 else 0) (intStr z) T ∧ T.val ρ = z := by
  by_cases h : z < 0
  · rw [if_pos h, intStr_neg h]
    refine ⟨.neg (.num z.natAbs), (RAtom.num _).pow.prod.neg, ?_⟩
    rw [Reading.val, Reading.val]
    have : (z.natAbs : ℝ) = |(z : ℝ)| := by rw [Nat.cast_natAbs]; simp
    rw [this, abs_of_neg (by exact_mod_cast h)]
    simp
  · obtain ⟨n, rfl⟩ : ∃ n : ℕ, z = n := ⟨z.toNat, by omega⟩
    rw [if_neg h, intStr_nat]
    exact ⟨.num n, RAtom.num n, by simp [Reading.val]⟩

/-- What the induction says about the calls below. -/
def Back (O : Oracle) (ρ : Str → ℝ) (n : Nat) : Prop := ∀ {e : Expr} {s : Str}, Kid WF e → (texLevel e = 3 → WF e) → DomS false ρ e →
  (∀ x ∈ syms e, goodTexName x = true) → texClear O n e = true → latexE O n e = .ok s → ∃ T, At (texLevel e) s T ∧ T.val ρ = den ρ e

theorem name_reads {s : Str} (h : goodTexName s = true) : RAtom s (.name s) ∧ (Reading.name s).val ρ = ρ s := by
  simp only [goodTexName, Bool.and_eq_true, Bool.not_eq_true', List.isEmpty_eq_false_iff, List.all_eq_true, List.contains_eq_mem,
    decide_eq_false_iff_not, List.mem_cons, not_or] at h
  obtain ⟨⟨⟨h1, h2⟩, h3⟩, h4, h5, _⟩ := h
  exact ⟨RAtom.word h1 h2 h3, by rw [Reading.val, if_neg h4, if_neg h5]⟩

theorem kid_level {e : Expr} (hp : e.isProd = true) (h : texFactorOk e = true) : texLevel e ≤ 2 := by
  cases e <;> simp [isProd] at hp
  simpa [texFactorOk, isSum] using h

theorem kid_good {e : Expr} (h : Kid (fun e => ∀ x ∈ syms e, goodTexName x = true) e) : ∀ x ∈ syms e, goodTexName x = true := by
  cases e with
  | prod ts => exact (closed_syms (fun x => goodTexName x = true)).prod.2 h
  | _ => exact h

variable {n : Nat}

theorem prodTerm_reads (ih : Back O ρ n) {t : Expr} {s : Str} (wt : WF t)
    (dt : DomS false ρ t) (gt : ∀ x ∈ syms t, goodTexName x = true) (ct : texClear O n t = true) (ft : texFactorOk t = true)
    (h : prodTermLatex (latexE O n) t = .ok s) : ∃ T, RProd s T ∧ T.val ρ = den ρ t := by
  obtain ⟨u, h1, h⟩ := bind_ok.1 h
  obtain ⟨T, h2, h3⟩ := ih (wf_kid wt) (fun _ => wt) dt gt ct h1
  have := (pure_ok.1 h).symm; subst this
  by_cases hw : t.isSum = true
  · rw [if_pos hw]
    exact ⟨T, (bracketfy_reads h2.rsum).pow.prod, h3⟩
  · rw [if_neg hw]
    have hw' : t.isSum = false := by simpa using hw
    simp only [texFactorOk, hw', Bool.false_or, decide_eq_true_eq] at ft
    exact ⟨T, h2.rprod ft, h3⟩

theorem base_level {t : Expr} (h : (t.isSum || t.isProd || isFractionOrNeg t || isLongSymbol t) = false) (hb : baseOk t = true)
    : texLevel t = 0 := by
  cases t <;> simp_all [isSum, isProd, isFractionOrNeg, texLevel, baseOk]

theorem base_reads (ih : Back O ρ n) {t : Expr} {s : Str} (wt : WF t) (hb : baseOk t = true)
    (dt : DomS false ρ t) (gt : ∀ x ∈ syms t, goodTexName x = true) (ct : texClear O n t = true)
    (h : baseLatex (latexE O n) t = .ok s) : ∃ T, RAtom s T ∧ T.val ρ = den ρ t := by
  obtain ⟨u, h1, h⟩ := bind_ok.1 h
  obtain ⟨T, h2, h3⟩ := ih (wf_kid wt) (fun _ => wt) dt gt ct h1
  have := (pure_ok.1 h).symm; subst this
  by_cases hw : (t.isSum || t.isProd || isFractionOrNeg t || isLongSymbol t) = true
  · rw [if_pos hw]
    exact ⟨T, bracketfy_reads h2.rsum, h3⟩
  · rw [if_neg hw]
    rw [base_level (by simpa using hw) hb] at h2
    exact ⟨T, h2, h3⟩

theorem sumRest_reads (hO : O.Exact) (ih : Back O ρ n) : ∀ {ts : List Expr} {s : Str} {a : Reading}, (∀ t ∈ ts, WF t) →
    (∀ t ∈ ts, DomS false ρ t) → (∀ t ∈ ts, ∀ x ∈ syms t, goodTexName x = true) → texClearTerms O n (texClear O n) ts = true →
    sumLatexRest (ctors O n) (latexE O n) ts = .ok s → ∃ T, Terms a s T ∧ T.val ρ = a.val ρ + (ts.map (den ρ)).sum
  | [], s, a, _, _, _, _, h => by
    cases h; exact ⟨a, .nil a, by simp⟩
  | t :: r, s, a, wt, dt, gt, ct, h => by
    rw [texClearTerms, Bool.and_eq_true] at ct
    rw [sumLatexRest] at h
    have wr := fun u (m : u ∈ r) => wt u (by simp [m])
    have dr := fun u (m : u ∈ r) => dt u (by simp [m])
    have gr := fun u (m : u ∈ r) => gt u (by simp [m])
    have wt := wt t (by simp)
    have dt := dt t (by simp)
    have gt := gt t (by simp)
    by_cases hs : t.isSubtraction = true
    · rw [if_pos hs] at h ct
      obtain ⟨u, h1, h⟩ := bind_ok.1 h
      obtain ⟨v, h2, h⟩ := bind_ok.1 h
      obtain ⟨w, h3, h⟩ := bind_ok.1 h
      have := (pure_ok.1 h).symm; subst this
      rw [h1] at ct
      simp only [Bool.and_eq_true, decide_eq_true_eq] at ct
      have wu := opNeg_W (ctors_sound hO n) wt h1
      obtain ⟨e1, du⟩ := opNeg_V (ctors_sound hO n) wt dt h1
      have gu : ∀ x ∈ syms u, goodTexName x = true := (adm_syms O (fun x => goodTexName x = true)).toAdmE.opNeg gt h1
      obtain ⟨T, a1, a2⟩ := ih (wf_kid wu) (fun _ => wu) du gu ct.1.1 h2
      obtain ⟨T', b1, b2⟩ := sumRest_reads hO ih (a := .sub a T) wr dr gr ct.2 h3
      refine ⟨T', ?_, ?_⟩
      · simpa using Terms.sub (.inl (a1.rprod ct.1.2)) b1
      · rw [b2]; simp [Reading.val, a2, e1]; ring
    · rw [if_neg hs] at h ct
      obtain ⟨v, h2, h⟩ := bind_ok.1 h
      obtain ⟨w, h3, h⟩ := bind_ok.1 h
      have := (pure_ok.1 h).symm; subst this
      obtain ⟨T, a1, a2⟩ := ih (wf_kid wt) (fun _ => wt) dt gt ct.1 h2
      obtain ⟨T1, c1, c2⟩ := a1.rsum.plus (a := a)
      obtain ⟨T', b1, b2⟩ := sumRest_reads hO ih (a := T1) wr dr gr ct.2 h3
      refine ⟨T', ?_, ?_⟩
      · simpa using c1.append b1
      · rw [b2, c2, a2]; simp; ring

theorem join_reads (ih : Back O ρ n) : ∀ {ts : List Expr} {ss : List Str} {s : Str} {a : Reading}, RProd s a → (∀ t ∈ ts, WF t) →
    (∀ t ∈ ts, DomS false ρ t) → (∀ t ∈ ts, ∀ x ∈ syms t, goodTexName x = true) →
    (∀ t ∈ ts, texClear O n t = true ∧ texFactorOk t = true) → mapR (prodTermLatex (latexE O n)) ts = .ok ss →
    ∃ T, RProd (s ++ (ss.map (fun u => " \\cdot ".toList ++ u)).flatten) T ∧ T.val ρ = a.val ρ * (ts.map (den ρ)).prod
  | [], ss, s, a, ha, _, _, _, _, h => by
    cases h; exact ⟨a, by simpa using ha, by simp⟩
  | t :: r, ss, s, a, ha, wt, dt, gt, ct, h => by
    obtain ⟨u, us, h1, h2, rfl⟩ := mapR_cons' h
    obtain ⟨T, a1, a2⟩ := prodTerm_reads ih (wt t (by simp)) (dt t (by simp)) (gt t (by simp)) (ct t (by simp)).1 (ct t (by simp)).2 h1
    obtain ⟨T1, c1, c2⟩ := ha.mul a1
    obtain ⟨T', b1, b2⟩ := join_reads ih c1 (fun x m => wt x (by simp [m])) (fun x m => dt x (by simp [m]))
      (fun x m => gt x (by simp [m])) (fun x m => ct x (by simp [m])) h2
    refine ⟨T', by simpa using b1, ?_⟩
    rw [b2, c2, a2]; simp; ring

theorem joinStr_cons (d a : Str) : ∀ (ss : List Str), joinStr d (a :: ss) = a ++ (ss.map (fun u => d ++ u)).flatten
  | [] => by simp [joinStr]
  | b :: r => by
    rw [joinStr, joinStr_cons d b r]; simp

theorem prod_reads (hO : O.Exact) (ih : Back O ρ n) {ts : List Expr} {s : Str} (wt : ∀ t ∈ ts, WF t)
    (hl : texLevel (prod ts) = 3 → WF (prod ts)) (dt : DomS false ρ (prod ts)) (gt : ∀ x ∈ syms (prod ts), goodTexName x = true)
    (ct : texClear O (n + 1) (prod ts) = true) (h : prodLatex O (ctors O n) (latexE O n) ts = .ok s) :
    ∃ T, At (texLevel (prod ts)) s T ∧ T.val ρ = den ρ (prod ts) := by
  have hQ := adm_syms O (fun x => goodTexName x = true)
  have gts : ∀ t ∈ ts, ∀ x ∈ syms t, goodTexName x = true := (closed_syms (fun x => goodTexName x = true)).prod.1 gt
  have dts : ∀ t ∈ ts, DomS false ρ t := (DomSL_iff ρ ts).1 (by rw [DomS] at dt; exact dt)
  have hv : den ρ (prod ts) = (ts.map (den ρ)).prod := by rw [den, denP_eq]
  unfold prodLatex at h
  rw [texClear] at ct
  by_cases hs : (prod ts).isSubtraction = true
  · rw [if_pos hs] at h ct
    have hlv : texLevel (prod ts) = 3 := by simp [texLevel, hs]
    have wp := hl hlv
    obtain ⟨p, h1, h⟩ := bind_ok.1 h
    rw [h1] at ct
    simp only [Bool.and_eq_true] at ct
    have w1 := opMul_W (ctors_sound hO n) wp (by simp [WF]) h1
    obtain ⟨e1, d1⟩ := opMul_V (ctors_sound hO n) wp (by simp [WF]) dt (by simp [DomS]) h1
    have g1 : ∀ x ∈ syms p, goodTexName x = true := hQ.toAdmE.opMul gt (by simp [syms]) h1
    rw [hlv]
    have key : ∀ {u : Str}, (∃ T, RProd u T ∧ T.val ρ = den ρ p) → ∃ T, At 3 ('-' :: u) T ∧ T.val ρ = den ρ (prod ts) := by
      rintro u ⟨T, a1, a2⟩
      exact ⟨.neg T, a1.neg, by rw [Reading.val, a2, e1]; simp [den]⟩
    by_cases hp : p.isProd = true
    · simp only [hp, Bool.not_true, Bool.false_eq_true, if_false] at h
      obtain ⟨u, h2, h⟩ := bind_ok.1 h
      have := (pure_ok.1 h).symm; subst this
      obtain ⟨T, a1, a2⟩ := ih (wf_kid w1) (fun _ => w1) d1 g1 ct.1 h2
      exact key ⟨T, a1.rprod (kid_level hp ct.2), a2⟩
    · simp only [hp, Bool.not_false, if_true] at h
      obtain ⟨u, h2, h⟩ := bind_ok.1 h
      have := (pure_ok.1 h).symm; subst this
      exact key (prodTerm_reads ih w1 d1 g1 ct.1 ct.2 h2)
  · rw [if_neg hs] at h ct
    have hlv : texLevel (prod ts) = 2 := by simp [texLevel, hs]
    rw [hlv]
    obtain ⟨⟨a, d⟩, h1, h⟩ := bind_ok.1 h
    rw [h1] at ct
    obtain ⟨ka, kd, da, dd, d0, hval⟩ := numDen_V hO (fun t ht => ⟨wt t ht, dts t ht⟩) h1
    obtain ⟨ga, gd⟩ := hQ.toAdmE.numDen gts h1
    have ga := kid_good ga
    have gd := kid_good gd
    simp only at h ct
    by_cases hb : beq O d (rat 1) = true
    · rw [hb, if_neg (by simp)] at h
      rw [if_pos hb] at ct
      simp only [Bool.and_eq_true, List.all_eq_true] at ct
      obtain ⟨ss, h2, h⟩ := bind_ok.1 h
      have := (pure_ok.1 h).symm; subst this
      cases ts with
      | nil => simp at ct
      | cons t r =>
        obtain ⟨u, us, h3, h4, rfl⟩ := mapR_cons' h2
        obtain ⟨T, a1, a2⟩ := prodTerm_reads ih (wt t (by simp)) (dts t (by simp)) (gts t (by simp)) (ct.2 t (by simp)).1 (ct.2 t (by simp)).2 h3
        obtain ⟨T', b1, b2⟩ := join_reads ih a1 (fun x m => wt x (by simp [m])) (fun x m => dts x (by simp [m]))
          (fun x m => gts x (by simp [m])) (fun x m => ct.2 x (by simp [m])) h4
        refine ⟨T', ?_, ?_⟩
        · rw [joinStr_cons]; exact b1
        · rw [b2, a2, hv]; simp
    · rw [if_pos (by simpa using hb)] at h
      rw [if_neg hb] at ct
      simp only [Bool.and_eq_true, Bool.or_eq_true, Bool.not_eq_true'] at ct
      obtain ⟨⟨⟨ca, cd⟩, fa⟩, fd⟩ := ct
      obtain ⟨u, h2, h⟩ := bind_ok.1 h
      obtain ⟨v, h3, h⟩ := bind_ok.1 h
      have := (pure_ok.1 h).symm; subst this
      have wf3 : ∀ {c : Expr}, Kid WF c → (c.isProd = false ∨ texFactorOk c = true) → texLevel c = 3 → WF c := by
        intro c kc fc h3
        by_cases hp : c.isProd = true
        · have := kid_level hp (fc.resolve_left (by simp [hp])); omega
        · exact kid_wf kc hp
      obtain ⟨T, a1, a2⟩ := ih ka (wf3 ka fa) da ga ca h2
      obtain ⟨T', b1, b2⟩ := ih kd (wf3 kd fd) dd gd cd h3
      refine ⟨.div T T', (RAtom.frac (groupStr_reads a1.rsum) (groupStr_reads b1.rsum)).pow.prod, ?_⟩
      rw [Reading.val, a2, b2, hv, ← hval]; field_simp

theorem pow_reads (hO : O.Exact) (ih : Back O ρ n) {b x : Expr} {s : Str} (wp : WF (pow b x)) (dt : DomS false ρ (pow b x))
    (gt : ∀ y ∈ syms (pow b x), goodTexName y = true) (ct : texClear O (n + 1) (pow b x) = true)
    (h : powLatex O (latexE O n) b x = .ok s) : ∃ T, At (texLevel (pow b x)) s T ∧ T.val ρ = den ρ (pow b x) := by
  have hQ := adm_syms O (fun x => goodTexName x = true)
  obtain ⟨gb, gx⟩ := hQ.pow gt
  obtain ⟨wb, wx, hb⟩ := wp
  have dd := dt
  obtain ⟨db, dx, d3, d4, _⟩ := dt
  unfold powLatex at h
  rw [texClear] at ct
  rw [beq_rat hO dx.noFlt, beq_rat hO dx.noFlt] at h ct
  simp only [decide_eq_true_eq, Bool.and_eq_true, Bool.or_eq_true] at h ct
  by_cases h1 : x = rat (1 / 2)
  · rw [if_pos h1] at h
    subst h1
    obtain ⟨u, h2, h⟩ := bind_ok.1 h
    have := (pure_ok.1 h).symm; subst this
    obtain ⟨T, a1, a2⟩ := ih (wf_kid wb) (fun _ => wb) db gb ct.1 h2
    have hlv : texLevel (pow b (rat (1 / 2))) = 0 := by simp [texLevel]
    rw [hlv]
    exact ⟨.fn "sqrt".toList T, RAtom.sqrt a1.rsum, by simp [Reading.val, fnVal, a2, den]⟩
  · rw [if_neg h1] at h
    have hlv : texLevel (pow b x) = 1 := by
      cases x with
      | rat q =>
        have h3' : q ≠ 1 / 2 := fun e => h1 (by rw [e])
        simp only [texLevel, if_neg h3']
      | _ => rfl
    rw [hlv]
    by_cases h2 : x = rat (-1 / 2)
    · rw [if_pos h2] at h
      subst h2
      obtain ⟨u, h3, h⟩ := bind_ok.1 h
      have := (pure_ok.1 h).symm; subst this
      obtain ⟨T, a1, a2⟩ := ih (wf_kid wb) (fun _ => wb) db gb ct.1 h3
      have r1 : RAtom ("{\\sqrt{".toList ++ u ++ ['}'] ++ ['}']) (.fn "sqrt".toList T) := by
        simpa using (RAtom.sqrt a1.rsum).pow.prod.sum.group
      have r2 : RArg "{-1}".toList (.neg (.num 1)) := (RAtom.num 1).pow.prod.neg.arg
      refine ⟨.pow (.fn "sqrt".toList T) (.neg (.num 1)), ?_, ?_⟩
      · have := r1.powOf r2
        simpa [At] using this
      · have hpos : 0 < den ρ b := by
          have hnn : 0 ≤ den ρ b := HN.nonneg (d4 (by decide +kernel))
          rcases d3 with h | h
          · exact lt_of_le_of_ne hnn (Ne.symm h)
          · norm_num [den] at h
        simp only [Reading.val, fnVal, if_true, a2, den]
        rw [pw_of_nonneg hpos.le, pw_of_nonneg hpos.le, pw_of_nonneg (Real.rpow_nonneg hpos.le _), ← Real.rpow_mul hpos.le]
        norm_num
    · rw [if_neg h2] at h
      obtain ⟨u, h3, h⟩ := bind_ok.1 h
      obtain ⟨v, h4, h⟩ := bind_ok.1 h
      have := (pure_ok.1 h).symm; subst this
      obtain ⟨T, a1, a2⟩ := base_reads ih wb hb db gb ct.1 h3
      have cx : texClear O n x = true := by rcases ct.2 with (h | h) | h <;> first | exact h | exact absurd h ‹_›
      obtain ⟨T', b1, b2⟩ := ih (wf_kid wx) (fun _ => wx) dx gx cx h4
      exact ⟨.pow T T', a1.powOf (groupStr_reads b1.rsum), by simp [Reading.val, a2, b2, den]⟩

theorem fn_label (f : TrigFn) (h : f.isInverse = false) : f.func ∈ texFns ∧ ∀ t, fnVal f.func t = f.real t := by
  cases f <;> simp [TrigFn.isInverse] at h <;> refine ⟨by decide, fun t => ?_⟩ <;> simp only [TrigFn.real, fnVal] <;>
    simp [TrigFn.func]

theorem inv_label (f : TrigFn) (h : f.isInverse = true) : f.func ∈ texInv ∧ ∀ t, fnVal ('a' :: f.func) t = f.real t := by
  cases f <;> simp [TrigFn.isInverse] at h <;> refine ⟨by decide, fun t => ?_⟩ <;> simp only [TrigFn.real, fnVal] <;>
    simp [TrigFn.func]

theorem back (hO : O.Exact) : ∀ n, Back O ρ n
  | 0 => by intro _ _ _ _ h; simp [texClear] at h
  | n + 1 => by
    intro ke hl de ge ce h
    rename_i e s
    have ih : Back O ρ n := @back hO n
    have hQ := adm_syms O (fun x => goodTexName x = true)
    cases e with
    | rat q =>
      cases h
      have hv : den ρ (rat q) = (q.num : ℝ) / (q.den : ℝ) := by rw [den, Rat.cast_def]
      obtain ⟨T, a1, a2⟩ := intStr_reads (ρ := ρ) q.num
      by_cases hd : q.den = 1
      · rw [if_pos hd]
        have : texLevel (rat q) = if q.num < 0 then 3 else 0 := by simp [texLevel, hd]
        rw [this]
        exact ⟨T, a1, by rw [hv, a2, hd]; simp⟩
      · rw [if_neg hd]
        have : texLevel (rat q) = 0 := by simp [texLevel, hd]
        rw [this]
        obtain ⟨T', b1, b2⟩ := intStr_reads (ρ := ρ) (q.den : ℤ)
        exact ⟨.div T T', RAtom.frac (groupStr_reads a1.rsum) (groupStr_reads b1.rsum), by rw [hv, Reading.val, a2, b2]; simp⟩
    | flt v => simp [DomS] at de
    | pi =>
      cases h
      exact ⟨.name "pi".toList, RAtom.pi, by simp [Reading.val, den]⟩
    | euler =>
      cases h
      exact ⟨.name ['e'], RAtom.word (by decide) (by decide) (by decide), by simp [Reading.val, den]⟩
    | inf => simp [DomS] at de
    | neginf => simp [DomS] at de
    | sym x =>
      cases h
      have := name_reads (ρ := ρ) (ge s (by simp [syms]))
      exact ⟨.name s, this.1, by simpa [den] using this.2⟩
    | any k => simp [DomS] at de
    | sum ts =>
      have we : WF (sum ts) := hl rfl
      cases ts with
      | nil => simp [texClear] at ce
      | cons t r =>
        have wt := WF_sum.1 we
        have dt := (DomSL_iff ρ _).1 (by rw [DomS] at de; exact de)
        have gt : ∀ t ∈ _, ∀ x ∈ syms t, goodTexName x = true := (closed_syms (fun x => goodTexName x = true)).sum.1 ge
        rw [texClear, Bool.and_eq_true] at ce
        simp only [latexE, sumLatex] at h
        obtain ⟨u, h1, h⟩ := bind_ok.1 h
        obtain ⟨v, h2, h⟩ := bind_ok.1 h
        have := (pure_ok.1 h).symm; subst this
        obtain ⟨T, a1, a2⟩ := ih (wf_kid (wt t (by simp))) (fun _ => wt t (by simp)) (dt t (by simp)) (gt t (by simp)) ce.1 h1
        obtain ⟨T', b1, b2⟩ := sumRest_reads hO ih (a := T) (fun x m => wt x (by simp [m])) (fun x m => dt x (by simp [m]))
          (fun x m => gt x (by simp [m])) ce.2 h2
        exact ⟨T', a1.rsum.terms b1, by rw [b2, a2, den, denS_eq]; simp⟩
    | prod ts => exact prod_reads hO ih ke hl de ge ce h
    | pow b x => exact pow_reads hO ih ke de ge ce h
    | log i b =>
      obtain ⟨gi, gb⟩ := hQ.log ge
      obtain ⟨wi, wb⟩ : WF i ∧ WF b := ke
      obtain ⟨di, db, _⟩ := de
      rw [texClear, Bool.and_eq_true, Bool.or_eq_true] at ce
      simp only [latexE] at h
      by_cases hb : beq O b euler = true
      · rw [if_pos hb] at h
        obtain ⟨u, h1, h⟩ := bind_ok.1 h
        have := (pure_ok.1 h).symm; subst this
        obtain ⟨T, a1, a2⟩ := ih (wf_kid wi) (fun _ => wi) di gi ce.1 h1
        have hbe := (beq_iff hO db.noFlt (by simp [NoFlt])).1 hb
        subst hbe
        exact ⟨.fn "ln".toList T, RAtom.fn (f := "ln".toList) (by decide) (bracketfy_reads a1.rsum), by simp [Reading.val, fnVal, a2, den]⟩
      · rw [if_neg hb] at h
        obtain ⟨v, h2, h⟩ := bind_ok.1 h
        obtain ⟨u, h1, h⟩ := bind_ok.1 h
        have := (pure_ok.1 h).symm; subst this
        obtain ⟨T, a1, a2⟩ := ih (wf_kid wi) (fun _ => wi) di gi ce.1 h1
        obtain ⟨T', b1, b2⟩ := ih (wf_kid wb) (fun _ => wb) db gb (ce.2.resolve_left hb) h2
        exact ⟨.logBase T' T, RAtom.log b1.rsum (bracketfy_reads a1.rsum), by simp [Reading.val, a2, b2, den]⟩
    | trig f i =>
      have gi := hQ.trig ge
      have wi : WF i := ke
      rw [texClear] at ce
      simp only [latexE] at h
      obtain ⟨u, h1, h⟩ := bind_ok.1 h
      have := (pure_ok.1 h).symm; subst this
      obtain ⟨T, a1, a2⟩ := ih (wf_kid wi) (fun _ => wi) de.1 gi ce h1
      by_cases hf : f.isInverse = true
      · rw [if_pos hf]
        exact ⟨.fn ('a' :: f.func) T, RAtom.inv (inv_label f hf).1 (bracketfy_reads a1.rsum), by rw [Reading.val, (inv_label f hf).2, a2, den]⟩
      · rw [if_neg hf]
        have hf' : f.isInverse = false := by simpa using hf
        exact ⟨.fn f.func T, RAtom.fn (fn_label f hf').1 (bracketfy_reads a1.rsum), by rw [Reading.val, (fn_label f hf').2, a2, den]⟩
    | absv i =>
      have gi := hQ.absv ge
      have wi : WF i := ke
      rw [texClear] at ce
      simp only [latexE] at h
      obtain ⟨u, h1, h⟩ := bind_ok.1 h
      have := (pure_ok.1 h).symm; subst this
      obtain ⟨T, a1, a2⟩ := ih (wf_kid wi) (fun _ => wi) de.1 gi ce h1
      exact ⟨.bars T, bars_reads a1.rsum, by simp [Reading.val, a2, den]⟩

end Simpy.Tex
