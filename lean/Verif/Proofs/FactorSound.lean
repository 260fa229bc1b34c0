import Verif.Proofs.PolySound

/-! Values of `Sum.factor`, `invert` and partial fractions. -/

namespace Simpy
open Expr

variable {O : Oracle}

theorem mapR_mem' {α β : Type} {f : α → R β} : ∀ {l : List α} {r : List β}, mapR f l = .ok r →
    ∀ b ∈ r, ∃ a ∈ l, f a = .ok b
  | [], r, h, b, hb => by simp only [mapR, Except.ok.injEq] at h; subst h; simp at hb
  | a :: as, r, h, b, hb => by
    simp only [mapR] at h
    split at h
    · simp at h
    · next x h1 =>
      split at h
      · simp at h
      · next xs h2 =>
        simp only [Except.ok.injEq] at h; subst h
        rcases List.mem_cons.1 hb with rfl | hb
        · exact ⟨a, by simp, h1⟩
        · obtain ⟨c, hc, he⟩ := mapR_mem' h2 b hb
          exact ⟨c, by simp [hc], he⟩

/-! ### `Sum.factor` -/

theorem mapR_div_V {C : Ctors} (hC : Sound C) {st : Bool} {ρ : Str → ℝ} {c : Expr} (wc : WF c) (dc : DomS st ρ c)
    (h0 : den ρ c ≠ 0) : ∀ {ts us : List Expr}, Good st ρ ts → mapR (fun t => opDiv C t c) ts = .ok us →
    Good st ρ us ∧ (us.map (den ρ)).sum = (ts.map (den ρ)).sum / den ρ c
  | [], us, _, h => by simp only [mapR, Except.ok.injEq] at h; subst h; simp [Good]
  | a :: as, us, ga, h => by
    simp only [mapR] at h
    split at h
    · simp at h
    · next x h1 =>
      split at h
      · simp at h
      · next xs h2 =>
        simp only [Except.ok.injEq] at h; subst h
        obtain ⟨wa, da⟩ := ga a (by simp)
        obtain ⟨v1, d1⟩ := opDiv_V hC wa wc da dc h0 h1
        obtain ⟨g2, v2⟩ := mapR_div_V hC wc dc h0 (fun u hu => ga u (by simp [hu])) h2
        refine ⟨?_, ?_⟩
        · intro u hu
          rcases List.mem_cons.1 hu with rfl | hu
          exacts [⟨opDiv_W hC wa wc h1, d1⟩, g2 u hu]
        · simp only [List.map_cons, List.sum_cons, v1, v2]; ring

theorem factorSum_V (hO : O.Exact) {n : Nat} {st : Bool} {ρ : Str → ℝ} {ts : List Expr} {c r : Expr}
    (hg : Good st ρ ts) (hc : factorCommon (ctors O n) ts = .ok c) (wc : WF c) (dc : DomS st ρ c) (h0 : den ρ c ≠ 0)
    (h : factorSum (ctors O n) ts = .ok r) : WF r ∧ DomS st ρ r ∧ den ρ r = (ts.map (den ρ)).sum := by
  have hC := ctors_sound hO n
  unfold factorSum at h
  obtain ⟨c', h1, h⟩ := bind_ok.1 h
  rw [hc] at h1
  simp only [Except.ok.injEq] at h1; subst h1
  obtain ⟨us, h2, h⟩ := bind_ok.1 h
  obtain ⟨s, h3, h⟩ := bind_ok.1 h
  obtain ⟨g2, v2⟩ := mapR_div_V hC wc dc h0 hg h2
  obtain ⟨v3, d3⟩ := hC.sum ρ _ _ (fun t ht => (g2 t ht).1) (fun t ht => (g2 t ht).2) h3
  have w3 := hC.sumW _ _ (fun t ht => (g2 t ht).1) h3
  obtain ⟨v4, d4⟩ := opMul_V hC wc w3 dc d3 h
  refine ⟨opMul_W hC wc w3 h, d4, ?_⟩
  rw [v4, v3, v2]; field_simp

/-! the common factor is well-formed, and defined if all exponents are integers -/

/-- base well-formed -/
def FacW (f : Fac) : Prop := WF f.base

mutual
theorem dfHead_W : ∀ {e : Expr} {f : Fac}, WF e → dfHead e = .ok f → FacW f := by
  intro e f we h
  cases e with
  | prod ts =>
    simp only [dfHead] at h
    obtain ⟨l, h1, h⟩ := bind_ok.1 h
    have := dfHeads_W ts (WF_prod.1 we).2 h1
    split at h
    · simp at h
    · simp only [pure_ok] at h; subst h; exact this _ (by simp)
  | pow b x =>
    cases x <;> simp only [dfHead, Except.ok.injEq] at h <;> subst h
    case rat => exact we.1
    all_goals exact we
  | _ => simp only [dfHead, Except.ok.injEq] at h; subst h; exact we
theorem dfHeads_W : ∀ (ts : List Expr) {l : List Fac}, (∀ t ∈ ts, WF t) → dfHeads ts = .ok l → ∀ f ∈ l, FacW f := by
  intro ts l hts h
  cases ts with
  | nil => simp only [dfHeads, Except.ok.injEq] at h; subst h; simp
  | cons t r =>
    simp only [dfHeads] at h
    split at h
    · exact dfHeads_W r (fun u hu => hts u (by simp [hu])) h
    · obtain ⟨a, h1, h⟩ := bind_ok.1 h
      obtain ⟨l', h2, h⟩ := bind_ok.1 h
      have := (pure_ok.1 h).symm; subst this
      have i1 := dfHead_W (hts t (by simp)) h1
      have i2 := dfHeads_W r (fun u hu => hts u (by simp [hu])) h2
      intro f hf
      rcases List.mem_cons.1 hf with rfl | hf
      exacts [i1, i2 f hf]
end

/-- base defined, exponent a natural number, not a negative power of 0 -/
def FacV (ρ : Str → ℝ) (f : Fac) : Prop :=
  Dom ρ f.base ∧ (∃ k : ℕ, f.expo = k) ∧ (f.pos = false → f.expo = 0 ∨ den ρ f.base ≠ 0)

mutual
theorem dfHead_V {ρ : Str → ℝ} : ∀ {e : Expr} {f : Fac}, Dom ρ e → intPows e = true → dfHead e = .ok f → FacV ρ f := by
  intro e f de hp h
  have gen : f = ⟨e, 1, true⟩ → FacV ρ f := by rintro rfl; exact ⟨de, ⟨1, by simp⟩, by simp⟩
  cases e with
  | prod ts =>
    simp only [dfHead] at h
    obtain ⟨l, h1, h⟩ := bind_ok.1 h
    have hp' : intPowsL ts = true := hp
    have := dfHeads_V ts (Dom_prod.1 de) hp' h1
    split at h
    · simp at h
    · simp only [pure_ok] at h; subst h; exact this _ (by simp)
  | pow b x =>
    simp only [intPows, Bool.and_eq_true] at hp
    obtain ⟨k, rfl⟩ := intExp_iff.1 hp.2
    simp only [dfHead, Except.ok.injEq] at h
    subst h
    refine ⟨de.1, ⟨k.natAbs, ?_⟩, ?_⟩
    · show |(k : ℚ)| = _
      rw [← Int.cast_abs, Int.abs_eq_natAbs]; simp
    · intro hpos
      simp only [decide_eq_false_iff_not, not_lt, Int.cast_nonpos] at hpos
      rcases hpos.lt_or_eq with hk | rfl
      · right
        rcases de.2.2.1 with h | h
        · exact h
        · simp only [den_rat, Rat.cast_intCast, Int.cast_nonneg_iff] at h; omega
      · left; simp
  | _ => exact gen (by simpa [dfHead, eq_comm] using h)
theorem dfHeads_V {ρ : Str → ℝ} : ∀ (ts : List Expr) {l : List Fac}, (∀ t ∈ ts, Dom ρ t) → intPowsL ts = true →
    dfHeads ts = .ok l → ∀ f ∈ l, FacV ρ f := by
  intro ts l hts hp h
  cases ts with
  | nil => simp only [dfHeads, Except.ok.injEq] at h; subst h; simp
  | cons t r =>
    simp only [dfHeads] at h
    simp only [intPowsL, Bool.and_eq_true] at hp
    split at h
    · exact dfHeads_V r (fun u hu => hts u (by simp [hu])) hp.2 h
    · obtain ⟨a, h1, h⟩ := bind_ok.1 h
      obtain ⟨l', h2, h⟩ := bind_ok.1 h
      have := (pure_ok.1 h).symm; subst this
      have i1 := dfHead_V (hts t (by simp)) hp.1 h1
      have i2 := dfHeads_V r (fun u hu => hts u (by simp [hu])) hp.2 h2
      intro f hf
      rcases List.mem_cons.1 hf with rfl | hf
      exacts [i1, i2 f hf]
end

theorem dfTerm_W {e : Expr} {p : Expr × List Fac} (we : WF e) (h : dfTerm e = .ok p) : ∀ f ∈ p.2, FacW f := by
  have gen : (do let f ← dfHead e; return (rat 1, [f])) = Except.ok p → ∀ f ∈ p.2, FacW f := by
    intro h
    obtain ⟨f, h1, h⟩ := bind_ok.1 h
    have := (pure_ok.1 h).symm; subst this
    have := dfHead_W we h1
    simpa using this
  cases e with
  | prod ts =>
    simp only [dfTerm] at h
    obtain ⟨c, h1, h⟩ := bind_ok.1 h
    obtain ⟨l, h2, h⟩ := bind_ok.1 h
    have := (pure_ok.1 h).symm; subst this
    exact dfHeads_W ts (WF_prod.1 we).2 h2
  | rat q => simp only [dfTerm, Except.ok.injEq] at h; subst h; simp [FacW]
  | _ => exact gen h

theorem dfTerm_V {ρ : Str → ℝ} {e : Expr} {p : Expr × List Fac} (de : Dom ρ e) (hp : intPows e = true)
    (h : dfTerm e = .ok p) : ∀ f ∈ p.2, FacV ρ f := by
  have gen : (do let f ← dfHead e; return (rat 1, [f])) = Except.ok p → ∀ f ∈ p.2, FacV ρ f := by
    intro h
    obtain ⟨f, h1, h⟩ := bind_ok.1 h
    have := (pure_ok.1 h).symm; subst this
    have := dfHead_V de hp h1
    simpa using this
  cases e with
  | prod ts =>
    simp only [dfTerm] at h
    obtain ⟨c, h1, h⟩ := bind_ok.1 h
    obtain ⟨l, h2, h⟩ := bind_ok.1 h
    have := (pure_ok.1 h).symm; subst this
    exact dfHeads_V ts (Dom_prod.1 de) hp h2
  | rat q =>
    simp only [dfTerm, Except.ok.injEq] at h; subst h
    intro f hf; simp only [List.mem_singleton] at hf; subst hf
    exact ⟨by simp [Dom, DomS], ⟨1, by simp⟩, by simp⟩
  | _ => exact gen h

section
variable {P : Fac → Prop} {C : Ctors}

/-- a property of factors that depends on the base, and survives taking the smaller exponent -/
def MinClosed (P : Fac → Prop) : Prop := ∀ f g : Fac, P f → P g → P { f with expo := min f.expo g.expo }

theorem minClosed_W : MinClosed FacW := fun _ _ h _ => h

theorem minClosed_V {ρ : Str → ℝ} : MinClosed (FacV ρ) := by
  rintro f g ⟨d, ⟨k, hk⟩, z⟩ ⟨-, ⟨m, hm⟩, -⟩
  refine ⟨d, ⟨min k m, by simp [hk, hm]⟩, fun hp => ?_⟩
  rcases z hp with h | h
  · left; simp only [h, hm]; simp
  · exact .inr h

theorem matchFac_P (hP : MinClosed P) {f : Fac} (hf : P f) : ∀ {gs : List Fac} {o : Option Fac}, (∀ g ∈ gs, P g) →
    matchFac C f gs = .ok o → ∀ f', o = some f' → P f'
  | [], o, _, h, f', ho => by simp only [matchFac, Except.ok.injEq] at h; subst h; simp at ho
  | g :: r, o, hg, h, f', ho => by
    simp only [matchFac] at h
    obtain ⟨a, h1, h⟩ := bind_ok.1 h
    obtain ⟨b, h2, h⟩ := bind_ok.1 h
    split at h
    · simp only [pure_ok] at h; subst h
      simp only [Option.some.injEq] at ho; subst ho
      exact hP f g hf (hg g (by simp))
    · exact matchFac_P hP hf (fun u hu => hg u (by simp [hu])) h f' ho

theorem commonFacs_P (hP : MinClosed P) {gs : List Fac} (hg : ∀ g ∈ gs, P g) : ∀ {fs l : List Fac}, (∀ f ∈ fs, P f) →
    commonFacs C gs fs = .ok l → ∀ f ∈ l, P f
  | [], l, _, h => by simp only [commonFacs, Except.ok.injEq] at h; subst h; simp
  | f :: r, l, hf, h => by
    simp only [commonFacs] at h
    obtain ⟨m, h1, h⟩ := bind_ok.1 h
    obtain ⟨l', h2, h⟩ := bind_ok.1 h
    have i2 := commonFacs_P hP hg (fun u hu => hf u (by simp [hu])) h2
    have i1 := matchFac_P hP (hf f (by simp)) hg h1
    split at h
    · have := (pure_ok.1 h).symm; subst this
      intro u hu
      rcases List.mem_cons.1 hu with rfl | hu
      exacts [i1 _ rfl, i2 u hu]
    · have := (pure_ok.1 h).symm; subst this; exact i2

theorem commonLoop_P (hP : MinClosed P) : ∀ {gss : List (List Fac)} {fs l : List Fac}, (∀ gs ∈ gss, ∀ g ∈ gs, P g) →
    (∀ f ∈ fs, P f) → commonLoop C fs gss = .ok l → ∀ f ∈ l, P f
  | [], fs, l, _, hf, h => by simp only [commonLoop, Except.ok.injEq] at h; subst h; exact hf
  | gs :: r, fs, l, hg, hf, h => by
    simp only [commonLoop] at h
    obtain ⟨fs', h1, h⟩ := bind_ok.1 h
    exact commonLoop_P hP (fun u hu => hg u (by simp [hu])) (commonFacs_P hP (hg gs (by simp)) hf h1) h

end

theorem factorCommon_W (hO : O.Exact) {n : Nat} {ts : List Expr} {c : Expr} (hw : ∀ t ∈ ts, WF t)
    (h : factorCommon (ctors O n) ts = .ok c) : WF c ∧ ∀ ρ, (∀ t ∈ ts, Dom ρ t) → (∀ t ∈ ts, intPows t = true) → Dom ρ c := by
  have hC := ctors_sound hO n
  unfold factorCommon at h
  obtain ⟨dfs, h1, h⟩ := bind_ok.1 h
  have memW : ∀ l ∈ dfs.map Prod.snd, ∀ f ∈ l, FacW f := by
    intro l hl
    obtain ⟨p, hp, rfl⟩ := List.mem_map.1 hl
    obtain ⟨t, ht, he⟩ := mapR_mem' h1 p hp
    exact dfTerm_W (hw t ht) he
  have memV : ∀ ρ, (∀ t ∈ ts, Dom ρ t) → (∀ t ∈ ts, intPows t = true) → ∀ l ∈ dfs.map Prod.snd, ∀ f ∈ l, FacV ρ f := by
    intro ρ hd hi l hl
    obtain ⟨p, hp, rfl⟩ := List.mem_map.1 hl
    obtain ⟨t, ht, he⟩ := mapR_mem' h1 p hp
    exact dfTerm_V (hd t ht) (hi t ht) he
  split at h
  · simp at h
  · next f r heq =>
    rw [heq] at memW memV
    obtain ⟨fs, h2, h⟩ := bind_ok.1 h
    obtain ⟨cc, h3, h⟩ := bind_ok.1 h
    obtain ⟨m, h4, h⟩ := bind_ok.1 h
    have fW := commonLoop_P minClosed_W (fun u hu => memW u (by simp [hu])) (memW f (by simp)) h2
    have key : WF m ∧ ∀ ρ, (∀ t ∈ ts, Dom ρ t) → (∀ t ∈ ts, intPows t = true) → Dom ρ m := by
      unfold makeProd at h4
      split at h4
      · simp only [Except.ok.injEq] at h4; subst h4; exact ⟨by simp, fun ρ _ _ => by simp [Dom, DomS]⟩
      · obtain ⟨ps, h5, h4⟩ := bind_ok.1 h4
        have wps : ∀ p ∈ ps, WF p := by
          intro p hp
          obtain ⟨f, hf, he⟩ := mapR_mem' h5 p hp
          exact hC.powW _ _ _ (fW f hf) (by simp) he
        refine ⟨hC.prodW _ _ wps h4, fun ρ hd hi => ?_⟩
        have fV := commonLoop_P minClosed_V (fun u hu => memV ρ hd hi u (by simp [hu])) (memV ρ hd hi f (by simp)) h2
        refine (hC.prod ρ _ _ wps (fun p hp => ?_) h4).2
        obtain ⟨f, hf, he⟩ := mapR_mem' h5 p hp
        obtain ⟨d, ⟨k, hk⟩, z⟩ := fV f hf
        have hpd : PowDom ρ f.base (rat (if f.pos then f.expo else -f.expo)) := by
          by_cases hp : f.pos = true
          · rw [if_pos hp, hk]
            have := PowDom_int (s := false) (n := (k : ℤ)) d (.inr (by simp)) (by simp)
            simpa using this
          · rw [if_neg hp, hk]
            simp only [Bool.not_eq_true] at hp
            have := PowDom_int (s := false) (n := -(k : ℤ)) d (by
              rcases z hp with h | h
              · right; rw [hk] at h; simp at h; simp [h]
              · exact .inl h) (by simp)
            simpa using this
        exact (hC.pow ρ _ _ _ (fW f hf) (by simp) hpd he).2
    split at h
    · refine ⟨opMul_W hC key.1 (by simp) h, fun ρ hd hi => ?_⟩
      exact (opMul_V hC key.1 (by simp) (key.2 ρ hd hi) (by simp) h).2
    · simp only [pure_ok] at h; subst h; exact key

/-! ### `invert` -/

theorem opDivNeg_V {C : Ctors} (hC : Sound C) {st : Bool} {ρ : Str → ℝ} {a b m r : Expr} (wa : WF a) (wb : WF b)
    (da : DomS st ρ a) (db : DomS st ρ b) (h0 : den ρ b ≠ 0) (h1 : opNeg C a = .ok m) (h2 : opDiv C m b = .ok r) :
    WF r ∧ DomS st ρ r ∧ den ρ r = -den ρ a / den ρ b := by
  obtain ⟨v1, d1⟩ := opNeg_V hC wa da h1
  have w1 := opNeg_W hC wa h1
  obtain ⟨v2, d2⟩ := opDiv_V hC w1 wb d1 db h0 h2
  exact ⟨opDiv_W hC w1 wb h2, d2, by rw [v2, v1]⟩

theorem invert_V (hO : O.Exact) {n : Nat} {st : Bool} {ρ : Str → ℝ} {a b c d p q r s : Expr}
    (hg : Good st ρ [a, b, c, d]) (h0 : den ρ a * den ρ d - den ρ b * den ρ c ≠ 0)
    (h : invert O (ctors O n) [[a, b], [c, d]] = .ok (some [[p, q], [r, s]])) :
    Good st ρ [p, q, r, s] ∧ den ρ p = den ρ d / (den ρ a * den ρ d - den ρ b * den ρ c) ∧
      den ρ q = -den ρ b / (den ρ a * den ρ d - den ρ b * den ρ c) ∧
      den ρ r = -den ρ c / (den ρ a * den ρ d - den ρ b * den ρ c) ∧
      den ρ s = den ρ a / (den ρ a * den ρ d - den ρ b * den ρ c) := by
  have hC := ctors_sound hO n
  obtain ⟨⟨wa, da⟩, ⟨wb, db⟩, ⟨wc, dc⟩, ⟨wd, dd⟩⟩ : (WF a ∧ DomS st ρ a) ∧ (WF b ∧ DomS st ρ b) ∧ (WF c ∧ DomS st ρ c) ∧
      (WF d ∧ DomS st ρ d) := ⟨hg a (by simp), hg b (by simp), hg c (by simp), hg d (by simp)⟩
  unfold invert at h
  obtain ⟨_, -, h⟩ := bind_ok.1 h
  obtain ⟨ad, h1, h⟩ := bind_ok.1 h
  obtain ⟨bc, h2, h⟩ := bind_ok.1 h
  obtain ⟨det, h3, h⟩ := bind_ok.1 h
  obtain ⟨v1, d1⟩ := opMul_V hC wa wd da dd h1
  have w1 := opMul_W hC wa wd h1
  obtain ⟨v2, d2⟩ := opMul_V hC wb wc db dc h2
  have w2 := opMul_W hC wb wc h2
  obtain ⟨v3, d3⟩ := opSub_V hC w1 w2 d1 d2 h3
  have w3 := opSub_W hC w1 w2 h3
  rw [v1, v2] at v3
  have hdet : den ρ det ≠ 0 := by rw [v3]; exact h0
  split at h
  · simp [pure_ok] at h
  · obtain ⟨p', h4, h⟩ := bind_ok.1 h
    obtain ⟨nb, h5, h⟩ := bind_ok.1 h
    obtain ⟨q', h6, h⟩ := bind_ok.1 h
    obtain ⟨nc, h7, h⟩ := bind_ok.1 h
    obtain ⟨r', h8, h⟩ := bind_ok.1 h
    obtain ⟨s', h9, h⟩ := bind_ok.1 h
    have := pure_ok.1 h
    simp only [Option.some.injEq, List.cons.injEq, and_true] at this
    obtain ⟨⟨rfl, rfl⟩, rfl, rfl⟩ := this
    obtain ⟨vp, dp⟩ := opDiv_V hC wd w3 dd d3 hdet h4
    obtain ⟨vs, ds⟩ := opDiv_V hC wa w3 da d3 hdet h9
    obtain ⟨wq, dq, vq⟩ := opDivNeg_V hC wb w3 db d3 hdet h5 h6
    obtain ⟨wr, dr, vr⟩ := opDivNeg_V hC wc w3 dc d3 hdet h7 h8
    rw [v3] at vp vs vq vr
    refine ⟨?_, vp, vq, vr, vs⟩
    intro u hu
    simp only [List.mem_cons, List.not_mem_nil, or_false] at hu
    rcases hu with rfl | rfl | rfl | rfl
    exacts [⟨opDiv_W hC wd w3 h4, dp⟩, ⟨wq, dq⟩, ⟨wr, dr⟩, ⟨opDiv_W hC wa w3 h9, ds⟩]

/-- what `invert` returns for a 2x2 matrix has the shape of a 2x2 matrix -/
theorem invert_shape {C : Ctors} {a b c d : Expr} {m : List (List Expr)}
    (h : invert O C [[a, b], [c, d]] = .ok (some m)) : ∃ p q r s, m = [[p, q], [r, s]] := by
  unfold invert at h
  obtain ⟨_, -, h⟩ := bind_ok.1 h
  obtain ⟨ad, h1, h⟩ := bind_ok.1 h
  obtain ⟨bc, h2, h⟩ := bind_ok.1 h
  obtain ⟨det, h3, h⟩ := bind_ok.1 h
  split at h
  · simp [pure_ok] at h
  · obtain ⟨p', h4, h⟩ := bind_ok.1 h
    obtain ⟨nb, h5, h⟩ := bind_ok.1 h
    obtain ⟨q', h6, h⟩ := bind_ok.1 h
    obtain ⟨nc, h7, h⟩ := bind_ok.1 h
    obtain ⟨r', h8, h⟩ := bind_ok.1 h
    obtain ⟨s', h9, h⟩ := bind_ok.1 h
    have := pure_ok.1 h
    simp only [Option.some.injEq] at this
    exact ⟨_, _, _, _, this.symm⟩

/-- `None`: the determinant expression is the number 0. -/
theorem invert_none (hO : O.Exact) {n : Nat} {st : Bool} {ρ : Str → ℝ} {a b c d : Expr}
    (hg : Good st ρ [a, b, c, d]) (h : invert O (ctors O n) [[a, b], [c, d]] = .ok none) :
    den ρ a * den ρ d - den ρ b * den ρ c = 0 := by
  have hC := ctors_sound hO n
  obtain ⟨⟨wa, da⟩, ⟨wb, db⟩, ⟨wc, dc⟩, ⟨wd, dd⟩⟩ : (WF a ∧ DomS st ρ a) ∧ (WF b ∧ DomS st ρ b) ∧ (WF c ∧ DomS st ρ c) ∧
      (WF d ∧ DomS st ρ d) := ⟨hg a (by simp), hg b (by simp), hg c (by simp), hg d (by simp)⟩
  unfold invert at h
  obtain ⟨_, -, h⟩ := bind_ok.1 h
  obtain ⟨ad, h1, h⟩ := bind_ok.1 h
  obtain ⟨bc, h2, h⟩ := bind_ok.1 h
  obtain ⟨det, h3, h⟩ := bind_ok.1 h
  obtain ⟨v1, d1⟩ := opMul_V hC wa wd da dd h1
  have w1 := opMul_W hC wa wd h1
  obtain ⟨v2, d2⟩ := opMul_V hC wb wc db dc h2
  have w2 := opMul_W hC wb wc h2
  obtain ⟨v3, d3⟩ := opSub_V hC w1 w2 d1 d2 h3
  rw [v1, v2] at v3
  split at h
  · next hz => rw [← v3]; exact beq_zero_den hO d3 hz
  · obtain ⟨p', h4, h⟩ := bind_ok.1 h
    obtain ⟨nb, h5, h⟩ := bind_ok.1 h
    obtain ⟨q', h6, h⟩ := bind_ok.1 h
    obtain ⟨nc, h7, h⟩ := bind_ok.1 h
    obtain ⟨r', h8, h⟩ := bind_ok.1 h
    obtain ⟨s', h9, h⟩ := bind_ok.1 h
    simp [pure_ok] at h

end Simpy
