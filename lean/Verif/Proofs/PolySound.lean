import Verif.Proofs.ExpandSound
import Verif.Proofs.Syms
import Verif.Model.Poly
import Verif.Spec.Poly

/-! Values of the polynomial functions. -/

namespace Simpy
open Expr

variable {O : Oracle}

/-! ### coefficient lists -/

theorem polyVal_append {ρ : Str → ℝ} {t : ℝ} : ∀ a b : List Expr,
    polyVal ρ (a ++ b) t = polyVal ρ a t + t ^ a.length * polyVal ρ b t
  | [], b => by simp [polyVal]
  | c :: r, b => by
    simp only [List.cons_append, polyVal, List.length_cons, polyVal_append r b]; ring

theorem polyVal_zeros {ρ : Str → ℝ} {t : ℝ} : ∀ k, polyVal ρ (List.replicate k (rat 0)) t = 0
  | 0 => by simp [polyVal]
  | k + 1 => by simp [List.replicate_succ, polyVal, polyVal_zeros k]

theorem polyVal_set {ρ : Str → ℝ} {t : ℝ} {c : Expr} : ∀ (l : List Expr) (i : Nat) (old : Expr), l[i]? = some old →
    polyVal ρ (l.set i c) t = polyVal ρ l t + (den ρ c - den ρ old) * t ^ i
  | [], i, old, h => by simp at h
  | a :: r, 0, old, h => by simp at h; subst h; simp [polyVal]; ring
  | a :: r, i + 1, old, h => by
    simp only [List.getElem?_cons_succ] at h
    simp only [List.set_cons_succ, polyVal, polyVal_set r i old h]; ring

theorem polyVal_concat {ρ : Str → ℝ} {t : ℝ} (a : List Expr) (c : Expr) :
    polyVal ρ (a ++ [c]) t = polyVal ρ a t + t ^ a.length * den ρ c := by
  rw [polyVal_append]; simp [polyVal]

theorem polyVal_congr {ρ ρ' : Str → ℝ} {t : ℝ} : ∀ (l : List Expr), (∀ c ∈ l, den ρ c = den ρ' c) →
    polyVal ρ l t = polyVal ρ' l t
  | [], _ => rfl
  | c :: r, h => by
    simp only [polyVal]; rw [h c (by simp), polyVal_congr r fun d hd => h d (by simp [hd])]

theorem Good.set {st : Bool} {ρ : Str → ℝ} {l : List Expr} {i : Nat} {c : Expr} (hl : Good st ρ l)
    (hc : WF c ∧ DomS st ρ c) : Good st ρ (l.set i c) := by
  intro u hu
  rcases List.mem_or_eq_of_mem_set hu with h | rfl
  exacts [hl u h, hc]

theorem Good.zeros {st : Bool} {ρ : Str → ℝ} (k : Nat) : Good st ρ (List.replicate k (rat 0)) := by
  intro u hu
  rw [List.eq_of_mem_replicate hu]; simp

theorem Good.append {st : Bool} {ρ : Str → ℝ} {a b : List Expr} (ha : Good st ρ a) (hb : Good st ρ b) :
    Good st ρ (a ++ b) := by
  intro u hu
  rcases List.mem_append.1 hu with h | h
  exacts [ha u h, hb u h]

/-! ### a product of two things -/

theorem flatPL_append : ∀ a b : List Expr, flatPL (a ++ b) = flatPL a ++ flatPL b
  | [], b => rfl
  | t :: r, b => by simp [flatPL, flatPL_append r b]

theorem ctors_prod_flat (n : Nat) (us l : List Expr) : (ctors O n).prod (prod us :: l) = (ctors O n).prod (us ++ l) := by
  cases n with
  | zero => rfl
  | succ n =>
    change prodCtor O (ctors O n) _ = prodCtor O (ctors O n) _
    unfold prodCtor
    rw [flatPL_append]
    rfl

theorem opMul_kid (hO : O.Exact) {n : Nat} {st : Bool} {ρ : Str → ℝ} {a b r : Expr} (ha : Kid WF a) (hb : WF b)
    (da : DomS st ρ a) (db : DomS st ρ b) (h : opMul (ctors O n) a b = .ok r) :
    WF r ∧ DomS st ρ r ∧ den ρ r = den ρ a * den ρ b := by
  have hC := ctors_sound hO n
  have gen : ∀ {a : Expr}, WF a → DomS st ρ a → opMul (ctors O n) a b = .ok r →
      WF r ∧ DomS st ρ r ∧ den ρ r = den ρ a * den ρ b := fun wa da h =>
    ⟨opMul_W hC wa hb h, (opMul_V hC wa hb da db h).2, (opMul_V hC wa hb da db h).1⟩
  cases a with
  | prod us =>
    have h' : (ctors O n).prod [prod us, b] = .ok r := h
    rw [ctors_prod_flat] at h'
    have w : ∀ t ∈ us ++ [b], WF t := by
      intro t ht
      rcases List.mem_append.1 ht with h | h
      · exact ha t h
      · simp only [List.mem_singleton] at h; subst h; exact hb
    have d : ∀ t ∈ us ++ [b], DomS st ρ t := by
      intro t ht
      rcases List.mem_append.1 ht with h | h
      · exact Dom_prod.1 da t h
      · simp only [List.mem_singleton] at h; subst h; exact db
    obtain ⟨v, dr⟩ := hC.prod ρ _ _ w d h'
    refine ⟨hC.prodW _ _ w h', dr, ?_⟩
    rw [v, den_prod]; simp
  | _ => exact gen ha da h

/-! ### `to_const_polynomial` -/

theorem addAnswer_V (hO : O.Exact) {n : Nat} {st : Bool} {ρ : Str → ℝ} {c m : Expr} {i : Nat} {ans r : List Expr} {t : ℝ}
    (hc : Kid WF c) (dc : DomS st ρ c) (hm : WF m) (dm : DomS st ρ m) (ha : Good st ρ ans)
    (h : addAnswer (ctors O n) c i ans m = .ok r) :
    Good st ρ r ∧ polyVal ρ r t = polyVal ρ ans t + den ρ c * den ρ m * t ^ i := by
  unfold addAnswer at h
  obtain ⟨nc, h1, h⟩ := bind_ok.1 h
  obtain ⟨w1, d1, v1⟩ := opMul_kid hO hc hm dc dm h1
  have hC := ctors_sound hO n
  cases hi : ans[i]? with
  | some old =>
    rw [hi] at h
    obtain ⟨s, h2, h⟩ := bind_ok.1 h
    have := (pure_ok.1 h).symm; subst this
    obtain ⟨wo, d_o⟩ := ha old (List.mem_of_getElem? hi)
    obtain ⟨v2, d2⟩ := opAdd_V hC wo w1 d_o d1 h2
    refine ⟨ha.set ⟨opAdd_W hC wo w1 h2, d2⟩, ?_⟩
    rw [polyVal_set _ _ _ hi, v2, v1]; ring
  | none =>
    rw [hi] at h
    have := (pure_ok.1 h).symm; subst this
    refine ⟨(ha.append (.zeros _)).append (by intro u hu; simp only [List.mem_singleton] at hu; subst hu; exact ⟨w1, d1⟩), ?_⟩
    have hle : ans.length ≤ i := by simpa using hi
    rw [polyVal_concat, polyVal_append, polyVal_zeros, v1]
    simp only [List.length_append, List.length_replicate, mul_zero, add_zero]
    rw [Nat.add_sub_cancel' hle]; ring

theorem natExponent_some {x : Expr} {k : Nat} (h : natExponent x = some k) : x = rat k := by
  cases x <;> simp only [natExponent, reduceCtorEq] at h
  split at h
  · next q hq =>
    simp only [Option.some.injEq] at h
    subst h
    congr 1
    have h1 : (q.num : ℚ) = q := Rat.coe_int_num_of_den_eq_one hq.1
    have h2 : 0 ≤ q.num := by
      have : (0 : ℚ) ≤ q.num := by rw [h1]; linarith [hq.2]
      exact_mod_cast this
    have h3 : ((q.num.toNat : ℤ) : ℚ) = q := by rw [Int.toNat_of_nonneg h2, h1]
    exact_mod_cast h3.symm
  · simp at h

theorem plainTermsL_iff : ∀ {ts : List Expr}, plainTermsL ts = true ↔ ∀ t ∈ ts, plainTerms t = true
  | [] => by simp [plainTermsL]
  | t :: r => by simp [plainTermsL, plainTermsL_iff (ts := r)]

mutual
theorem toPoly_V (hO : O.Exact) {n : Nat} {st : Bool} {ρ : Str → ℝ} {v : Str} : ∀ (e : Expr) {ans r : List Expr} {q : ℚ},
    Kid WF e → DomS st ρ e → plainTerms e = true → Good st ρ ans → (q = 1 ∨ e.isSum = false ∧ e.isProd = false) →
    toPoly O (ctors O n) v e ans (rat q) = .ok r →
    Good st ρ r ∧ polyVal ρ r (ρ v) = polyVal ρ ans (ρ v) + den ρ e * q := by
  intro e ans r q we de hp ha hq h
  unfold toPoly at h
  by_cases hv : e.contains v = true
  · simp only [hv, Bool.not_true, Bool.false_eq_true, if_false] at h
    cases e with
    | sum ts =>
      have hq : q = 1 := by simpa [isSum] using hq
      subst hq
      simp only [plainTerms, plainTermsL_iff] at hp
      have := toPolyL_V hO ts (WF_sum.1 we) (Dom_sum.1 de) hp ha h
      simpa [den_sum] using this
    | prod us =>
      have hq : q = 1 := by simpa [isSum, isProd] using hq
      subst hq
      match us, h with
      | [rat c, w], h =>
        simp only [plainTerms, Bool.and_eq_true, Bool.not_eq_true'] at hp
        have ww : WF w := we w (by simp)
        have dw : DomS st ρ w := Dom_prod.1 de w (by simp)
        have hpw : plainTerms w = true := by
          cases w <;> first | rfl | simp [isSum, isProd] at hp
        obtain ⟨g, e1⟩ := toPoly_V hO w ((adm_WF hO).kid ww) dw hpw ha (.inr hp) h
        refine ⟨g, ?_⟩
        rw [e1]; simp [den, denP]; ring
    | pow b x =>
      simp only at h
      split at h
      · next hb =>
        split at h
        · next k hk =>
          have hb' : b = sym v := by
            cases b <;> simp [beq] at hb
            rw [hb]
          subst hb'
          rw [natExponent_some hk]
          obtain ⟨g, e1⟩ := addAnswer_V hO (t := ρ v) (show Kid WF (rat 1) by simp [Kid]) (by simp) (by simp) (by simp) ha h
          refine ⟨g, ?_⟩
          rw [e1]
          have : pw (ρ v) (k : ℝ) = ρ v ^ k := by
            have := pw_int (ρ v) (k : ℤ); simpa using this
          simp [den, this]; ring
        · simp at h
      · simp at h
    | sym s =>
      simp only at h
      split at h
      · next hs =>
        subst hs
        obtain ⟨g, e1⟩ := addAnswer_V hO (t := ρ s) (show Kid WF (rat 1) by simp [Kid]) (by simp) (by simp) (by simp) ha h
        exact ⟨g, by rw [e1]; simp [den]; ring⟩
      · simp at h
    | _ => simp at h
  · simp only [Bool.not_eq_true] at hv
    simp only [hv, Bool.not_false, if_true] at h
    obtain ⟨g, e1⟩ := addAnswer_V hO (t := ρ v) we de (show WF (rat q) by simp) (by simp) ha h
    exact ⟨g, by rw [e1]; simp⟩
theorem toPolyL_V (hO : O.Exact) {n : Nat} {st : Bool} {ρ : Str → ℝ} {v : Str} : ∀ (ts : List Expr) {ans r : List Expr},
    (∀ t ∈ ts, WF t) → (∀ t ∈ ts, DomS st ρ t) → (∀ t ∈ ts, plainTerms t = true) → Good st ρ ans →
    toPolyL O (ctors O n) v ts ans = .ok r →
    Good st ρ r ∧ polyVal ρ r (ρ v) = polyVal ρ ans (ρ v) + (ts.map (den ρ)).sum := by
  intro ts ans r hw hd hp ha h
  cases ts with
  | nil =>
    simp only [toPolyL, Except.ok.injEq] at h; subst h
    exact ⟨ha, by simp⟩
  | cons t ts =>
    simp only [toPolyL] at h
    obtain ⟨a', h1, h⟩ := bind_ok.1 h
    obtain ⟨g1, e1⟩ := toPoly_V hO t ((adm_WF hO).kid (hw t (by simp))) (hd t (by simp)) (hp t (by simp)) ha (.inl rfl) h1
    obtain ⟨g2, e2⟩ := toPolyL_V hO ts (fun u hu => hw u (by simp [hu])) (fun u hu => hd u (by simp [hu]))
      (fun u hu => hp u (by simp [hu])) g1 h
    refine ⟨g2, ?_⟩
    rw [e2, e1]; simp; ring
end

/-- The coefficients do not contain the variable. -/
theorem addAnswer_free {n : Nat} {v : Str} {c m : Expr} {i : Nat} {ans r : List Expr}
    (hc : v ∉ syms c) (hm : v ∉ syms m) (ha : ∀ u ∈ ans, v ∉ syms u)
    (h : addAnswer (ctors O n) c i ans m = .ok r) : ∀ u ∈ r, v ∉ syms u := by
  have cl := (closed_syms (· ≠ v))
  have hP := ctors_pres cl O n
  have conv : ∀ {e : Expr}, v ∉ syms e → ∀ s ∈ syms e, s ≠ v := fun h s hs he => h (he ▸ hs)
  have conv' : ∀ {e : Expr}, (∀ s ∈ syms e, s ≠ v) → v ∉ syms e := fun h hs => h v hs rfl
  unfold addAnswer at h
  obtain ⟨nc, h1, h⟩ := bind_ok.1 h
  have f1 := opMul_G (cl.g O) hP (conv hc) (conv hm) h1
  cases hi : ans[i]? with
  | some old =>
    rw [hi] at h
    obtain ⟨s, h2, h⟩ := bind_ok.1 h
    have := (pure_ok.1 h).symm; subst this
    intro u hu
    rcases List.mem_or_eq_of_mem_set hu with h | rfl
    · exact ha u h
    · exact conv' (opAdd_G (cl.g O) hP (conv (ha old (List.mem_of_getElem? hi))) f1 h2)
  | none =>
    rw [hi] at h
    have := (pure_ok.1 h).symm; subst this
    intro u hu
    simp only [List.mem_append, List.mem_singleton] at hu
    rcases hu with (hu | hu) | rfl
    · exact ha u hu
    · rw [List.eq_of_mem_replicate hu]; simp [syms]
    · exact conv' f1

mutual
theorem toPoly_free {n : Nat} {v : Str} : ∀ (e : Expr) {ans r : List Expr} {q : ℚ}, (∀ u ∈ ans, v ∉ syms u) →
    toPoly O (ctors O n) v e ans (rat q) = .ok r → ∀ u ∈ r, v ∉ syms u := by
  intro e ans r q ha h
  unfold toPoly at h
  by_cases hv : e.contains v = true
  · simp only [hv, Bool.not_true, Bool.false_eq_true, if_false] at h
    cases e with
    | sum ts => exact toPolyL_free ts ha h
    | prod us =>
      match us, h with
      | [rat c, w], h => exact toPoly_free w ha h
    | pow b x =>
      simp only at h
      split at h
      · split at h
        · exact addAnswer_free (by simp [syms]) (by simp [syms]) ha h
        · simp at h
      · simp at h
    | sym s =>
      simp only at h
      split at h
      · exact addAnswer_free (by simp [syms]) (by simp [syms]) ha h
      · simp at h
    | _ => simp at h
  · have hf := (not_congr (contains_iff v e)).1 hv
    simp only [Bool.not_eq_true] at hv
    simp only [hv, Bool.not_false, if_true] at h
    exact addAnswer_free hf (by simp [syms]) ha h
theorem toPolyL_free {n : Nat} {v : Str} : ∀ (ts : List Expr) {ans r : List Expr}, (∀ u ∈ ans, v ∉ syms u) →
    toPolyL O (ctors O n) v ts ans = .ok r → ∀ u ∈ r, v ∉ syms u := by
  intro ts ans r ha h
  cases ts with
  | nil => simp only [toPolyL, Except.ok.injEq] at h; subst h; exact ha
  | cons t ts =>
    simp only [toPolyL] at h
    obtain ⟨a', h1, h⟩ := bind_ok.1 h
    exact toPolyL_free ts (toPoly_free t ha h1) h
end

/-! ### `polynomial_to_expr` -/

private theorem pow_zero {n : Nat} {b p : Expr} (h : opPow O (ctors O n) b (rat 0) = .ok p) : p = rat 1 := by
  have gen : (ctors O n).pow b (rat 0) = .ok p → p = rat 1 := by
    intro h
    cases n with
    | zero => simp [ctors] at h
    | succ n =>
      have h' : powCtor O (ctors O n) b (rat 0) = .ok p := h
      simp [powCtor, beq] at h'
      exact h'.symm
  cases b with
  | rat q => simpa [opPow, fracPowInt, Bind.bind, Except.bind, Pure.pure, Except.pure, eq_comm] using h
  | _ => exact gen h

theorem polyToExprFrom_V (hO : O.Exact) {n : Nat} {st : Bool} {ρ : Str → ℝ} {v : Str} : ∀ (cs : List Expr) {i : Nat} {acc r : Expr},
    WF acc → DomS st ρ acc → Good st ρ cs → polyToExprFrom O (ctors O n) v i acc cs = .ok r →
    WF r ∧ DomS st ρ r ∧ den ρ r = den ρ acc + ρ v ^ i * polyVal ρ cs (ρ v)
  | [], i, acc, r, wa, da, _, h => by
    simp only [polyToExprFrom, Except.ok.injEq] at h; subst h
    exact ⟨wa, da, by simp [polyVal]⟩
  | c :: cs, i, acc, r, wa, da, hg, h => by
    have hC := ctors_sound hO n
    simp only [polyToExprFrom] at h
    obtain ⟨p, h1, h⟩ := bind_ok.1 h
    obtain ⟨m, h2, h⟩ := bind_ok.1 h
    obtain ⟨acc', h3, h⟩ := bind_ok.1 h
    obtain ⟨wc, dc⟩ := hg c (by simp)
    have ws : WF (sym v) := by simp [WF]
    have ds : DomS st ρ (sym v) := by simp [DomS]
    have hpow : WF p ∧ DomS st ρ p ∧ den ρ p = ρ v ^ i := by
      by_cases hi : i = 0
      · subst hi
        rw [Nat.cast_zero] at h1
        have := pow_zero h1
        subst this
        exact ⟨by simp, by simp, by simp⟩
      · have hpd : PowDomS st ρ (sym v) (rat i) := by
          have := PowDom_int (s := st) (n := (i : ℤ)) ds (.inr (by simp)) (fun _ => .inr (by omega))
          simpa using this
        obtain ⟨v1, d1⟩ := opPow_V hC ws (by simp) hpd h1
        have w1 := opPow_W hC ws (by simp) h1
        refine ⟨w1, d1, ?_⟩
        have e1 : pw (ρ v) (i : ℝ) = ρ v ^ i := by have := pw_int (ρ v) (i : ℤ); simpa using this
        have e2 : den ρ (sym v) = ρ v := rfl
        have e3 : den ρ (rat i) = (i : ℝ) := by simp
        rw [v1, e2, e3, e1]
    obtain ⟨w1, d1, v1⟩ := hpow
    obtain ⟨v2, d2⟩ := opMul_V hC wc w1 dc d1 h2
    have w2 := opMul_W hC wc w1 h2
    obtain ⟨v3, d3⟩ := opAdd_V hC wa w2 da d2 h3
    have w3 := opAdd_W hC wa w2 h3
    obtain ⟨w4, d4, v4⟩ := polyToExprFrom_V hO cs w3 d3 (fun u hu => hg u (by simp [hu])) h
    refine ⟨w4, d4, ?_⟩
    rw [v4, v3, v2, v1]
    simp only [polyVal, pow_succ]; ring

theorem polyToExpr_V (hO : O.Exact) {n : Nat} {st : Bool} {ρ : Str → ℝ} {v : Str} {cs : List Expr} {r : Expr}
    (hg : Good st ρ cs) (h : polyToExpr O (ctors O n) v cs = .ok r) :
    WF r ∧ DomS st ρ r ∧ den ρ r = polyVal ρ cs (ρ v) := by
  have := polyToExprFrom_V hO cs (i := 0) (by simp) (by simp) hg h
  simpa using this

/-! ### `rid_ending_zeros` -/

theorem countZeros_spec : ∀ l : List Expr, countZeros O l ≤ l.length ∧ (∀ c ∈ l.take (countZeros O l), beq O c (rat 0) = true) ∧
    ∀ c, (l.drop (countZeros O l)).head? = some c → beq O c (rat 0) = false
  | [] => by simp [countZeros]
  | c :: r => by
    obtain ⟨h1, h2, h3⟩ := countZeros_spec r
    simp only [countZeros]
    split
    · next hc =>
      refine ⟨by simp; omega, ?_, ?_⟩
      · intro d hd
        rw [List.take_succ_cons] at hd
        rcases List.mem_cons.1 hd with rfl | hd
        exacts [hc, h2 d hd]
      · intro d hd; exact h3 d (by simpa using hd)
    · next hc =>
      refine ⟨by simp, by simp, ?_⟩
      intro d hd; simp at hd; subst hd; simpa using hc

/-- the list is the kept prefix followed by the dropped elements, which are all equal to 0 -/
theorem ridEndingZeros_split (cs : List Expr) : ∃ z : List Expr, cs = ridEndingZeros O cs ++ z ∧
    (∀ c ∈ z, beq O c (rat 0) = true) ∧ ∀ c, (ridEndingZeros O cs).getLast? = some c → beq O c (rat 0) = false := by
  obtain ⟨h1, h2, h3⟩ := countZeros_spec (O := O) cs.reverse
  refine ⟨cs.drop (cs.length - countZeros O cs.reverse), (List.take_append_drop _ _).symm, ?_, ?_⟩
  · intro c hc
    refine h2 c ?_
    rw [List.take_reverse]
    simpa using hc
  · intro c hc
    refine h3 c ?_
    rw [List.drop_reverse, List.head?_reverse]
    exact hc

theorem beq_zero_den (hO : O.Exact) {st : Bool} {ρ : Str → ℝ} {c : Expr} (hd : DomS st ρ c)
    (h : beq O c (rat 0) = true) : den ρ c = 0 := by
  have : c = rat 0 := by
    have := hd
    cases c <;> simp_all [beq, DomS, hO.isPi]
  subst this; simp

theorem polyVal_of_zero {ρ : Str → ℝ} {t : ℝ} : ∀ l : List Expr, (∀ c ∈ l, den ρ c = 0) → polyVal ρ l t = 0
  | [], _ => rfl
  | c :: r, h => by simp [polyVal, h c (by simp), polyVal_of_zero r fun d hd => h d (by simp [hd])]

theorem ridEndingZeros_V (hO : O.Exact) {st : Bool} {ρ : Str → ℝ} {cs : List Expr} (hg : Good st ρ cs) (t : ℝ) :
    Good st ρ (ridEndingZeros O cs) ∧ polyVal ρ (ridEndingZeros O cs) t = polyVal ρ cs t := by
  obtain ⟨z, h1, h2, -⟩ := ridEndingZeros_split (O := O) cs
  refine ⟨fun u hu => hg u (by rw [h1]; simp [hu]), ?_⟩
  conv_rhs => rw [h1, polyVal_append]
  rw [polyVal_of_zero z fun c hc => beq_zero_den hO (hg c (by rw [h1]; simp [hc])).2 (h2 c hc)]
  simp

/-! ### division -/

theorem zipR_V {C : Ctors} (hC : Sound C) {st : Bool} {ρ : Str → ℝ} {t : ℝ} : ∀ {a b r : List Expr}, Good st ρ a → Good st ρ b →
    zipR (opSub C) a b = .ok r → Good st ρ r ∧ polyVal ρ r t = polyVal ρ a t - polyVal ρ b t ∧ r.length = a.length
  | [], [], r, _, _, h => by
    simp only [zipR, Except.ok.injEq] at h; subst h; simp [polyVal, Good]
  | a :: as, b :: bs, r, ga, gb, h => by
    simp only [zipR] at h
    obtain ⟨c, h1, h⟩ := bind_ok.1 h
    obtain ⟨cs, h2, h⟩ := bind_ok.1 h
    have := (pure_ok.1 h).symm; subst this
    obtain ⟨wa, da⟩ := ga a (by simp)
    obtain ⟨wb, db⟩ := gb b (by simp)
    obtain ⟨v1, d1⟩ := opSub_V hC wa wb da db h1
    obtain ⟨g2, v2, l2⟩ := zipR_V hC (t := t) (fun u hu => ga u (by simp [hu])) (fun u hu => gb u (by simp [hu])) h2
    refine ⟨?_, ?_, by simp [l2]⟩
    · intro u hu
      rcases List.mem_cons.1 hu with rfl | hu
      exacts [⟨opSub_W hC wa wb h1, d1⟩, g2 u hu]
    · simp only [polyVal, v1, v2]; ring
  | [], _ :: _, r, _, _, h => by simp [zipR] at h
  | _ :: _, [], r, _, _, h => by simp [zipR] at h

theorem scale_V {C : Ctors} (hC : Sound C) {st : Bool} {ρ : Str → ℝ} {t : ℝ} {q : Expr} (wq : WF q) (dq : DomS st ρ q) :
    ∀ {l r : List Expr}, Good st ρ l → mapR (fun d => opMul C d q) l = .ok r →
    Good st ρ r ∧ polyVal ρ r t = polyVal ρ l t * den ρ q ∧ r.length = l.length
  | [], r, _, h => by simp only [mapR, Except.ok.injEq] at h; subst h; simp [polyVal, Good]
  | a :: as, r, ga, h => by
    simp only [mapR] at h
    split at h
    · simp at h
    · next c h1 =>
      split at h
      · simp at h
      · next cs h2 =>
        simp only [Except.ok.injEq] at h; subst h
        obtain ⟨wa, da⟩ := ga a (by simp)
        obtain ⟨v1, d1⟩ := opMul_V hC wa wq da dq h1
        obtain ⟨g2, v2, l2⟩ := scale_V hC (t := t) wq dq (fun u hu => ga u (by simp [hu])) h2
        refine ⟨?_, ?_, by simp [l2]⟩
        · intro u hu
          rcases List.mem_cons.1 hu with rfl | hu
          exacts [⟨opMul_W hC wa wq h1, d1⟩, g2 u hu]
        · simp only [polyVal, v1, v2]; ring

theorem divStep_V (hO : O.Exact) {n : Nat} {st : Bool} {ρ : Str → ℝ} {num dn num' : List Expr} {q : Expr}
    (gn : Good st ρ num) (gd : Good st ρ dn) (h0 : ∀ b, dn.getLast? = some b → den ρ b ≠ 0)
    (h : divStep O (ctors O n) num dn = .ok (q, num')) :
    (WF q ∧ DomS st ρ q) ∧ Good st ρ num' ∧
      ∀ t, polyVal ρ num t = den ρ q * t ^ (num.length - dn.length) * polyVal ρ dn t + polyVal ρ num' t := by
  have hC := ctors_sound hO n
  unfold divStep at h
  split at h
  · next a b ha hb =>
    obtain ⟨q', h1, h⟩ := bind_ok.1 h
    obtain ⟨dq, h2, h⟩ := bind_ok.1 h
    obtain ⟨nm, h3, h⟩ := bind_ok.1 h
    have := pure_ok.1 h
    simp only [Prod.mk.injEq] at this
    obtain ⟨rfl, rfl⟩ := this
    obtain ⟨wa, da⟩ := gn a (List.mem_of_getLast? ha)
    obtain ⟨wb, db⟩ := gd b (List.mem_of_getLast? hb)
    obtain ⟨vq, dq'⟩ := opDiv_V hC wa wb da db (h0 b hb) h1
    have wq := opDiv_W hC wa wb h1
    have g2 := (scale_V hC (t := 0) wq dq' gd h2).1
    have g2' := (Good.zeros (st := st) (ρ := ρ) (num.length - dn.length)).append g2
    have g3 := (zipR_V hC (t := 0) gn g2' h3).1
    refine ⟨⟨wq, dq'⟩, (ridEndingZeros_V hO g3 0).1, fun t => ?_⟩
    rw [(ridEndingZeros_V hO g3 t).2, (zipR_V hC (t := t) gn g2' h3).2.1, polyVal_append, polyVal_zeros,
      (scale_V hC (t := t) wq dq' gd h2).2.1]
    simp only [List.length_replicate]; ring
  · simp at h

/-- Every pass of the loop shortens the numerator. -/
def DivShrinks (O : Oracle) (C : Ctors) (dn : List Expr) : Nat → List Expr → Prop
  | 0, _ => True
  | k + 1, num => dn.length ≤ num.length → ∀ q num', divStep O C num dn = .ok (q, num') →
      num'.length < num.length ∧ DivShrinks O C dn k num'

theorem divLoop_V (hO : O.Exact) {n : Nat} {st : Bool} {ρ : Str → ℝ} {dn : List Expr}
    (gd : Good st ρ dn) (h0 : ∀ b, dn.getLast? = some b → den ρ b ≠ 0) :
    ∀ (k : Nat) {quo num quo' num' : List Expr}, Good st ρ quo → Good st ρ num →
    (∀ i, i + dn.length ≤ num.length → quo[i]? = some (rat 0)) → DivShrinks O (ctors O n) dn k num →
    divLoop O (ctors O n) dn k quo num = .ok (quo', num') →
    Good st ρ quo' ∧ Good st ρ num' ∧ num'.length < dn.length ∧
      ∀ t, polyVal ρ num t + polyVal ρ quo t * polyVal ρ dn t = polyVal ρ quo' t * polyVal ρ dn t + polyVal ρ num' t := by
  have fin : ∀ {quo num quo' num' : List Expr}, Good st ρ quo → Good st ρ num → ¬ dn.length ≤ num.length →
      (quo, num) = (quo', num') → Good st ρ quo' ∧ Good st ρ num' ∧ num'.length < dn.length ∧
      ∀ t, polyVal ρ num t + polyVal ρ quo t * polyVal ρ dn t = polyVal ρ quo' t * polyVal ρ dn t + polyVal ρ num' t := by
    intro quo num quo' num' gq gn hlt h
    simp only [Prod.mk.injEq] at h
    obtain ⟨rfl, rfl⟩ := h
    exact ⟨gq, gn, by omega, fun t => by ring⟩
  intro k
  induction k with
  | zero =>
    intro quo num quo' num' gq gn _ _ h
    simp only [divLoop] at h
    split at h
    · simp at h
    · next hlt => simp only [Except.ok.injEq] at h; exact fin gq gn hlt h
  | succ k ih =>
    intro quo num quo' num' gq gn hz hs h
    simp only [divLoop] at h
    split at h
    · next hle =>
      obtain ⟨⟨q, num1⟩, h1, h⟩ := bind_ok.1 h
      obtain ⟨s1, s2⟩ := hs hle q num1 h1
      obtain ⟨hq, gn1, v1⟩ := divStep_V hO gn gd h0 h1
      have hL := hz (num.length - dn.length) (by omega)
      obtain ⟨a, b, c, d⟩ := ih (gq.set hq) gn1 (by
        intro i hi
        rw [List.getElem?_set_ne (by omega)]
        exact hz i (by omega)) s2 h
      refine ⟨a, b, c, fun t => ?_⟩
      rw [← d t, v1 t, polyVal_set _ _ _ hL]
      simp; ring
    · next hlt => simp only [Except.ok.injEq] at h; exact fin gq gn hlt h

/-! ### rational coefficients -/

theorem zipR_rat {C : Ctors} : ∀ (a b : List ℚ), a.length = b.length →
    zipR (opSub C) (a.map rat) (b.map rat) = .ok ((List.zipWith (· - ·) a b).map rat)
  | [], [], _ => rfl
  | a :: as, b :: bs, h => by
    simp only [List.map_cons, zipR, opSub, zipR_rat as bs (by simpa using h), List.zipWith_cons_cons]; rfl
  | [], _ :: _, h => by simp at h
  | _ :: _, [], h => by simp at h

theorem scale_rat {C : Ctors} (q : ℚ) : ∀ (a : List ℚ), mapR (fun d => opMul C d (rat q)) (a.map rat) =
    .ok ((a.map (· * q)).map rat)
  | [] => rfl
  | a :: as => by
    have h1 : opMul C (rat a) (rat q) = .ok (rat (a * q)) := rfl
    simp only [List.map_cons, mapR, scale_rat q as, h1]

theorem countZeros_rat : ∀ (a : List ℚ), ∃ k ≤ a.length, countZeros O (a.map rat) = k
  | a => ⟨_, by simpa using (countZeros_spec (O := O) (a.map rat)).1, rfl⟩

theorem ridEndingZeros_rat (a : List ℚ) : ∃ b : List ℚ, ridEndingZeros O (a.map rat) = b.map rat ∧ b.length ≤ a.length ∧
    (a.getLast? = some 0 → b.length < a.length) := by
  unfold ridEndingZeros
  refine ⟨a.take (a.length - countZeros O (a.map rat).reverse), by simp, by simp, fun h => ?_⟩
  obtain ⟨c, rfl⟩ : ∃ c, a = c ++ [0] := by
    rcases List.eq_nil_or_concat a with rfl | ⟨c, x, rfl⟩
    · simp at h
    · simp at h; subst h; exact ⟨c, by simp⟩
  have : countZeros O ((c ++ [0]).map rat).reverse = countZeros O (c.map rat).reverse + 1 := by
    simp [countZeros, beq]
  rw [this]; simp

theorem divStep_rat {C : Ctors} {num dn : List ℚ} {b : ℚ} (hb : dn.getLast? = some b) (hb0 : b ≠ 0)
    (hle : dn.length ≤ num.length) : ∃ (q : ℚ) (num' : List ℚ),
      divStep O C (num.map rat) (dn.map rat) = .ok (rat q, num'.map rat) ∧ num'.length < num.length := by
  have hdn : dn ≠ [] := by rintro rfl; simp at hb
  obtain ⟨d', rfl⟩ : ∃ d', dn = d' ++ [b] := by
    rcases List.eq_nil_or_concat dn with h | ⟨c, x, h⟩
    · exact absurd h hdn
    · subst h; simp at hb; subst hb; exact ⟨c, by simp⟩
  obtain ⟨n', a, rfl⟩ : ∃ n' a, num = n' ++ [a] := by
    rcases List.eq_nil_or_concat num with h | ⟨c, x, h⟩
    · subst h; simp at hle
    · exact ⟨c, x, by simpa using h⟩
  have hl : (List.replicate ((n' ++ [a]).length - (d' ++ [b]).length) (0 : ℚ) ++ (d' ++ [b]).map (· * (a / b))).length =
      (n' ++ [a]).length := by
    simp only [List.length_append, List.length_replicate, List.length_map, List.length_singleton] at hle ⊢; omega
  obtain ⟨r, h1, h2, h3⟩ := ridEndingZeros_rat (O := O) (List.zipWith (· - ·) (n' ++ [a])
    (List.replicate ((n' ++ [a]).length - (d' ++ [b]).length) (0 : ℚ) ++ (d' ++ [b]).map (· * (a / b))))
  have hlen : (List.zipWith (· - ·) (n' ++ [a])
    (List.replicate ((n' ++ [a]).length - (d' ++ [b]).length) (0 : ℚ) ++ (d' ++ [b]).map (· * (a / b)))).length =
      (n' ++ [a]).length := by rw [List.length_zipWith, hl]; simp
  refine ⟨a / b, r, ?_, ?_⟩
  · unfold divStep
    have e1 : ((n' ++ [a]).map rat).getLast? = some (rat a) := by simp
    have e2 : ((d' ++ [b]).map rat).getLast? = some (rat b) := by simp
    rw [e1, e2]
    have e3 : opDiv C (rat a) (rat b) = .ok (rat (a / b)) := by simp [opDiv, hb0]
    refine bind_ok.2 ⟨_, e3, bind_ok.2 ⟨_, scale_rat _ _, ?_⟩⟩
    have e4 := zipR_rat (C := C) _ _ hl.symm
    have e5 : (List.replicate ((n' ++ [a]).length - (d' ++ [b]).length) (0 : ℚ) ++ (d' ++ [b]).map (· * (a / b))).map rat =
        List.replicate (((n' ++ [a]).map rat).length - ((d' ++ [b]).map rat).length) (rat 0) ++
          ((d' ++ [b]).map (· * (a / b))).map rat := by
      rw [List.map_append, List.map_replicate, List.length_map, List.length_map]
    rw [e5] at e4
    refine bind_ok.2 ⟨_, e4, ?_⟩
    rw [← h1]
    rfl
  · refine lt_of_lt_of_eq (h3 ?_) hlen
    rw [List.getLast?_eq_getElem?, hlen, List.getElem?_zipWith]
    have g1 : (n' ++ [a])[(n' ++ [a]).length - 1]? = some a := by simp
    have g2 : (List.replicate ((n' ++ [a]).length - (d' ++ [b]).length) (0 : ℚ) ++ (d' ++ [b]).map (· * (a / b)))[(n' ++ [a]).length - 1]? =
        some (b * (a / b)) := by
      have key : ∀ (L : List ℚ) (m : Nat), L.length = m → L[m - 1]? = L.getLast? := by
        rintro L _ rfl; exact List.getLast?_eq_getElem?.symm
      rw [key _ _ hl]; simp
    rw [g1, g2]
    simp; field_simp; ring

theorem divShrinks_rat {C : Ctors} {dn : List ℚ} {b : ℚ} (hb : dn.getLast? = some b) (hb0 : b ≠ 0) :
    ∀ (k : Nat) (num : List ℚ), DivShrinks O C (dn.map rat) k (num.map rat)
  | 0, _ => trivial
  | k + 1, num => by
    intro hle q num' h
    obtain ⟨q1, n1, h1, h2⟩ := divStep_rat (O := O) (C := C) hb hb0 (by simpa using hle)
    rw [h1] at h
    simp only [Except.ok.injEq, Prod.mk.injEq] at h
    obtain ⟨rfl, rfl⟩ := h
    exact ⟨by simpa using h2, divShrinks_rat hb hb0 k n1⟩

theorem divLoop_rat {C : Ctors} {dn : List ℚ} {b : ℚ} (hb : dn.getLast? = some b) (hb0 : b ≠ 0) :
    ∀ (k : Nat) (quo num : List ℚ), num.length < k + dn.length →
      ∃ quo' num' : List ℚ, divLoop O C (dn.map rat) k (quo.map rat) (num.map rat) = .ok (quo'.map rat, num'.map rat) ∧
        num'.length < dn.length ∧ quo'.length = quo.length
  | 0, quo, num, hk => ⟨quo, num, by simp only [divLoop, List.length_map]; rw [if_neg (by omega)], by omega, rfl⟩
  | k + 1, quo, num, hk => by
    by_cases hle : dn.length ≤ num.length
    · obtain ⟨q1, n1, h1, h2⟩ := divStep_rat (O := O) (C := C) hb hb0 hle
      obtain ⟨quo', num', h3, h4, h5⟩ := divLoop_rat hb hb0 k (quo.set (num.length - dn.length) q1) n1 (by omega)
      refine ⟨quo', num', ?_, h4, by simpa using h5⟩
      simp only [divLoop, List.length_map]
      rw [if_pos hle]
      refine bind_ok.2 ⟨_, h1, ?_⟩
      rw [List.map_set] at h3
      exact h3
    · exact ⟨quo, num, by simp only [divLoop, List.length_map]; rw [if_neg hle], by omega, rfl⟩

theorem Good.rats {st : Bool} {ρ : Str → ℝ} (a : List ℚ) : Good st ρ (a.map rat) := by
  intro u hu
  obtain ⟨q, -, rfl⟩ := List.mem_map.1 hu
  simp

end Simpy
