import Verif.Proofs.EasyRep
import Verif.Proofs.FactorSound
import Verif.Spec.PTS

/-! Product to sum. -/

namespace Simpy
open Expr

variable {O : Oracle}

/-- Well formed, defined, without inverse functions. -/
def PV (st : Bool) (ρ : Str → ℝ) (e : Expr) : Prop := WF e ∧ DomS st ρ e ∧ containsCls isInvTrig e = false

/-- Terms with a given sum. -/
def PL (st : Bool) (ρ : Str → ℝ) (us : List Expr) (x : ℝ) : Prop := (∀ u ∈ us, PV st ρ u) ∧ (us.map (den ρ)).sum = x

variable {st : Bool} {ρ : Str → ℝ}

theorem PV.val {e : Expr} (h : PV st ρ e) : Val st ρ e (den ρ e) := ⟨h.1, h.2.1, rfl⟩

theorem Val.pv {e : Expr} {x : ℝ} (h : Val st ρ e x) (hn : containsCls isInvTrig e = false) : PV st ρ e := ⟨h.1, h.2.1, hn⟩

theorem PV.rat (q : ℚ) : PV st ρ (rat q) := ⟨by simp, by simp, rfl⟩

theorem PV.inner (O : Oracle) {f : TrigFn} {i : Expr} (h : PV st ρ (trig f i)) : PV st ρ i :=
  ⟨(show WF i from h.1), (show DomS st ρ i ∧ _ from h.2.1).1, (admE_noInv O).trig h.2.2⟩

theorem PV.mul (hO : O.Exact) {n : Nat} {a b r : Expr} (ha : PV st ρ a) (hb : PV st ρ b) (h : opMul (ctors O n) a b = .ok r) :
    PV st ρ r ∧ den ρ r = den ρ a * den ρ b :=
  have v := Val.mul (ctors_sound hO n) ha.val hb.val h
  ⟨v.pv ((admE_noInv O).opMul ha.2.2 hb.2.2 h), v.2.2⟩

theorem PV.sumL (hO : O.Exact) {n : Nat} {us : List Expr} {x : ℝ} {r : Expr} (h : PL st ρ us x) (hr : (ctors O n).sum us = .ok r) :
    PV st ρ r ∧ den ρ r = x := by
  have hC := ctors_sound hO n
  have w : ∀ t ∈ us, WF t := fun t ht => (h.1 t ht).1
  obtain ⟨v, d⟩ := hC.sum ρ _ _ w (fun t ht => (h.1 t ht).2.1) hr
  exact ⟨⟨hC.sumW _ _ w hr, d, ((admE_noInv O).pres n).sum _ _ (fun t ht => (h.1 t ht).2.2) hr⟩, by rw [v, h.2]⟩

theorem isSinCos_inv {e : Expr} (h : isSinCos e = true) : ∃ f i, (f = .sin ∨ f = .cos) ∧ e = trig f i := by
  unfold isSinCos at h
  split at h
  · exact ⟨_, _, .inl rfl, rfl⟩
  · exact ⟨_, _, .inr rfl, rfl⟩
  · cases h

theorem validPower_inv {e : Expr} (h : validPower e = true) :
    ∃ b q, e = pow b (rat q) ∧ isSinCos b = true ∧ q.den = 1 ∧ 1 < q := by
  unfold validPower at h
  split at h
  · simp only [Bool.and_eq_true, beq_iff_eq, decide_eq_true_eq] at h
    exact ⟨_, _, rfl, h.1.1, h.1.2, h.2⟩
  · cases h

theorem ptsTerm_V (hO : O.Exact) {n : Nat} {g : TrigFn} (hg : g = .sin ∨ g = .cos) {plus neg : Bool} {a b c r : Expr}
    (ha : PV st ρ a) (hb : PV st ρ b) (hc : PV st ρ c) (h : ptsTerm O n g plus neg a b c = .ok r) :
    PV st ρ r ∧ den ρ r = (if neg then -1 else 1) * g.real (if plus then den ρ a + den ρ b else den ρ a - den ρ b) * den ρ c := by
  have hC := ctors_sound hO n
  have hE := admE_noInv O
  have hf : g.isInverse = false := by rcases hg with rfl | rfl <;> rfl
  unfold ptsTerm at h
  obtain ⟨i, hi, h⟩ := bind_ok.1 h
  obtain ⟨t, ht, h⟩ := bind_ok.1 h
  obtain ⟨t', ht', h⟩ := bind_ok.1 h
  have pi : PV st ρ i ∧ den ρ i = if plus then den ρ a + den ρ b else den ρ a - den ρ b := by
    cases plus with
    | true => have v := Val.add hC ha.val hb.val hi; exact ⟨v.pv (hE.opAdd ha.2.2 hb.2.2 hi), v.2.2⟩
    | false => have v := Val.sub hC ha.val hb.val hi; exact ⟨v.pv (hE.opSub ha.2.2 hb.2.2 hi), v.2.2⟩
  have pt : PV st ρ t ∧ den ρ t = g.real (den ρ i) := by
    have v := Val.trig hO hf pi.1.1 pi.1.2.1 pi.1.2.2 (by rcases hg with rfl | rfl <;> trivial) ht
    exact ⟨v.pv (noInv_ptrig O n g hf pi.1.2.2 ht), v.2.2⟩
  have pt' : PV st ρ t' ∧ den ρ t' = (if neg then -1 else 1) * den ρ t := by
    cases neg with
    | true => have v := Val.neg hC pt.1.val ht'; exact ⟨v.pv (hE.opNeg pt.1.2.2 ht'), by rw [v.2.2]; simp⟩
    | false => cases ht'; exact ⟨pt.1, by simp⟩
  obtain ⟨p, v⟩ := PV.mul hO pt'.1 hc h
  exact ⟨p, by rw [v, pt'.2, pt.2, pi.2]⟩

/-- The multiplier. -/
noncomputable def multVal (ρ : Str → ℝ) : Option Expr → ℝ
  | none => 1
  | some m => den ρ m

theorem ptsPair_V (hO : O.Exact) {n : Nat} {a b : Expr} {mult : Option Expr} {us : List Expr} (ha : PV st ρ a) (hb : PV st ρ b)
    (hm : ∀ m, mult = some m → PV st ρ m) (h : ptsPair O n a b mult = .ok (some us)) :
    PL st ρ us (den ρ a * den ρ b * multVal ρ mult) := by
  have hC := ctors_sound hO n
  have hE := admE_noInv O
  unfold ptsPair at h
  obtain ⟨c, hc, h⟩ := bind_ok.1 h
  have pc : PV st ρ c ∧ den ρ c = multVal ρ mult / 2 := by
    cases mult with
    | none => cases hc; exact ⟨PV.rat _, by simp [multVal]⟩
    | some m =>
      have pm := hm m rfl
      have v := Val.div hC pm.val (Val.rat 2) (by norm_num) hc
      exact ⟨v.pv (hE.opDiv pm.2.2 (hE.rat 2) hc), by rw [v.2.2]; simp [multVal]⟩
  have two : ∀ {g p1 n1 g' p2 n2 i j} {us : List Expr}, (g = .sin ∨ g = .cos) → (g' = .sin ∨ g' = .cos) → PV st ρ i → PV st ρ j →
      (do let u ← ptsTerm O n g p1 n1 i j c
          let v ← ptsTerm O n g' p2 n2 i j c
          return some [u, v] : R (Option (List Expr))) = .ok (some us) →
      PL st ρ us (((if n1 then -1 else 1) * g.real (if p1 then den ρ i + den ρ j else den ρ i - den ρ j) +
        (if n2 then -1 else 1) * g'.real (if p2 then den ρ i + den ρ j else den ρ i - den ρ j)) * den ρ c) := by
    intro g p1 n1 g' p2 n2 i j us hg hg' pi pj h
    obtain ⟨u, hu, h⟩ := bind_ok.1 h
    obtain ⟨v, hv, h⟩ := bind_ok.1 h
    have h := pure_ok.1 h
    cases h
    obtain ⟨pu, eu⟩ := ptsTerm_V hO hg pi pj pc.1 hu
    obtain ⟨pv, ev⟩ := ptsTerm_V hO hg' pi pj pc.1 hv
    refine ⟨?_, ?_⟩
    · intro t ht; simp at ht; rcases ht with rfl | rfl; exacts [pu, pv]
    · simp only [List.map_cons, List.map_nil, List.sum_cons, List.sum_nil, eu, ev]; ring
  split at h
  · rename_i i j
    have p := two (.inl rfl) (.inl rfl) (ha.inner O) (hb.inner O) h
    refine ⟨p.1, p.2.trans ?_⟩
    rw [pc.2]
    simp [den, TrigFn.real, Real.sin_add, Real.sin_sub]; ring
  · rename_i i j
    have p := two (.inl rfl) (.inl rfl) (ha.inner O) (hb.inner O) h
    refine ⟨p.1, p.2.trans ?_⟩
    rw [pc.2]
    simp [den, TrigFn.real, Real.sin_add, Real.sin_sub]; ring
  · rename_i i j
    have p := two (.inr rfl) (.inr rfl) (ha.inner O) (hb.inner O) h
    refine ⟨p.1, p.2.trans ?_⟩
    rw [pc.2]
    simp [den, TrigFn.real, Real.cos_add, Real.cos_sub]; ring
  · rename_i i j
    have p := two (.inr rfl) (.inr rfl) (ha.inner O) (hb.inner O) h
    refine ⟨p.1, p.2.trans ?_⟩
    rw [pc.2]
    simp [den, TrigFn.real, Real.cos_add, Real.cos_sub]; ring
  · cases h

theorem ptsMerge_V : ∀ {rs : List (Option (List Expr))} {ts : List Expr},
    List.Forall₂ (fun t o => PV st ρ t ∧ ∀ us, o = some us → PL st ρ us (den ρ t)) ts rs →
      PL st ρ (ptsMerge rs ts) (ts.map (den ρ)).sum
  | [], [], .nil => ⟨by simp [ptsMerge], by simp [ptsMerge]⟩
  | o :: rs, t :: ts, .cons h1 h2 => by
    obtain ⟨p, e⟩ := ptsMerge_V h2
    have keep : PL st ρ (t :: ptsMerge rs ts) ((t :: ts).map (den ρ)).sum := by
      refine ⟨?_, by simp [e]⟩
      intro u hu
      rcases List.mem_cons.1 hu with rfl | hu
      exacts [h1.1, p u hu]
    match o, h1 with
    | none, _ => exact keep
    | some [], _ => exact keep
    | some (u :: us), h1 =>
      obtain ⟨p1, e1⟩ := h1.2 _ rfl
      refine ⟨?_, ?_⟩
      · intro v hv
        simp only [ptsMerge] at hv
        rcases List.mem_append.1 hv with hv | hv
        exacts [p1 v hv, p v hv]
      · simp only [ptsMerge, List.map_append, List.sum_append, e, e1]; simp

theorem ptsScale_V (hO : O.Exact) {n : Nat} {mult : Option Expr} {ts us : List Expr} {x : ℝ} (h : PL st ρ ts x)
    (hm : ∀ m, mult = some m → PV st ρ m) (hs : ptsScale O (ctors O n) mult ts = .ok us) : PL st ρ us (x * multVal ρ mult) := by
  unfold ptsScale at hs
  cases mult with
  | none => cases hs; exact ⟨h.1, by simp [multVal, h.2]⟩
  | some m =>
    have pm := hm m rfl
    simp only at hs
    split at hs
    · rename_i h1
      cases hs
      have e1 : den ρ m = 1 := by
        have := Exact.beq_eq hO pm.2.1 (by simp : DomS st ρ (Expr.rat 1)) h1
        rw [this]; simp
      exact ⟨h.1, by simp [multVal, h.2, e1]⟩
    · have := mapR_ok.1 hs
      obtain ⟨p, e⟩ := h
      subst e
      clear hs
      induction this with
      | nil => exact ⟨by simp, by simp⟩
      | cons a _ ih =>
        obtain ⟨pu, eu⟩ := PV.mul hO (p _ (by simp)) pm a
        obtain ⟨p2, e2⟩ := ih fun u hu => p u (by simp [hu])
        refine ⟨?_, ?_⟩
        · intro v hv; rcases List.mem_cons.1 hv with rfl | hv; exacts [pu, p2 v hv]
        · simp only [List.map_cons, List.sum_cons, eu, e2, multVal]; ring

theorem ptsList_V (hO : O.Exact) {n : Nat} {unit : Expr → R (Option (List Expr))} {ts us : List Expr} {mult : Option Expr} {x : ℝ}
    (h : PL st ρ ts x) (hm : ∀ m, mult = some m → PV st ρ m)
    (hu : ∀ t ∈ ts, ∀ vs, unit t = .ok (some vs) → PL st ρ vs (den ρ t))
    (hs : ptsList O (ctors O n) unit ts mult = .ok (some us)) : PL st ρ us (x * multVal ρ mult) := by
  unfold ptsList at hs
  obtain ⟨rs, hr, hs⟩ := bind_ok.1 hs
  split at hs
  · cases hs
  obtain ⟨vs, hv, hs⟩ := bind_ok.1 hs
  have hs := pure_ok.1 hs
  cases hs
  refine ptsScale_V hO ?_ hm hv
  rw [← h.2]
  refine ptsMerge_V ?_
  have := mapR_ok.1 hr
  exact forall₂_of_mem this fun a ha b hb => ⟨h.1 a ha, fun us hus => hu a ha us (by rw [hb, hus])⟩

theorem prod_filter_split (f : Expr → ℝ) (q : Expr → Bool) (ts : List Expr) :
    (ts.map f).prod = ((ts.filter q).map f).prod * ((ts.filter (fun t => !q t)).map f).prod := by
  induction ts with
  | nil => simp
  | cons a l ih =>
    simp only [List.map_cons, List.prod_cons, ih]
    cases hv : q a <;> simp [List.filter_cons, hv] <;> ring

theorem constFactor_V {e s c : Expr} (h : constFactor e = .ok (s, c)) (p : PV st ρ e) :
    PV st ρ s ∧ PV st ρ c ∧ den ρ e = den ρ s * den ρ c := by
  have gen : constFactor e = .ok (e, rat 1) → PV st ρ s ∧ PV st ρ c ∧ den ρ e = den ρ s * den ρ c := by
    intro h'
    rw [h'] at h
    cases h
    exact ⟨p, PV.rat 1, by simp⟩
  cases e with
  | prod ts =>
    unfold constFactor at h
    obtain ⟨s', hs, h⟩ := bind_ok.1 h
    obtain ⟨c', hc, h⟩ := bind_ok.1 h
    have h := pure_ok.1 h
    cases h
    have hw := WF_prod.1 p.1
    have hd := Dom_prod.1 p.2.1
    have hn := closed_noInv.prod.1 p.2.2
    have part : ∀ {q : Expr → Bool} {r : Expr}, mkProdSkip (ts.filter q) = .ok r →
        PV st ρ r ∧ den ρ r = ((ts.filter q).map (den ρ)).prod := by
      intro q r hr
      have hm : ∀ t ∈ ts.filter q, t ∈ ts := fun t ht => (List.mem_filter.1 ht).1
      obtain ⟨d, v⟩ := mkProdSkip_val (denInterp (s := st) ρ) hr fun t ht => hd t (hm t ht)
      refine ⟨⟨mkProdSkip_WF hr (fun t ht => hw.2 t (hm t ht)) ?_, d, mkProdSkip_Q closed_noInv hr fun t ht => hn t (hm t ht)⟩, v⟩
      refine le_trans ?_ hw.1
      exact ((List.filter_sublist (p := q) (l := ts)).filter isAcc).length_le
    obtain ⟨p1, e1⟩ := part hs
    obtain ⟨p2, e2⟩ := part hc
    refine ⟨p1, p2, ?_⟩
    rw [den_prod, e1, e2]
    exact prod_filter_split _ _ _
  | _ => exact gen rfl

theorem PL.single {e : Expr} (h : PV st ρ e) : PL st ρ [e] (den ρ e) := ⟨by simpa using h, by simp⟩

theorem ptsInter_V (hO : O.Exact) {n : Nat} {unit : Expr → R (Option (List Expr))} {o : Option (List Expr)} {us : List Expr}
    {c : Expr} {x : ℝ} (h : ∀ ts, o = some ts → PL st ρ ts x) (hc : PV st ρ c)
    (hu : ∀ ts, o = some ts → ∀ t ∈ ts, ∀ vs, unit t = .ok (some vs) → PL st ρ vs (den ρ t))
    (hs : ptsInter O (ctors O n) unit o c = .ok (some us)) : PL st ρ us (x * den ρ c) := by
  unfold ptsInter at hs
  cases o with
  | none => cases hs
  | some ts => exact ptsList_V hO (h ts rfl) (by rintro m ⟨⟩; exact hc) (hu ts rfl) hs

theorem powTrig_V {b : Expr} {q : ℚ} (hb : PV st ρ b) (hs : isSinCos b = true) (hq : q.den = 1) (h1 : 1 ≤ q) :
    PV st ρ (pow b (rat q)) ∧ den ρ (pow b (rat q)) = den ρ b ^ q.num := by
  obtain ⟨f, i, hf, rfl⟩ := isSinCos_inv hs
  have hint : intExp (rat q) = true := by simp [intExp, hq]
  have hqr : (1 : ℝ) ≤ (q : ℝ) := by exact_mod_cast h1
  refine ⟨⟨?_, ?_, ?_⟩, ?_⟩
  · exact ⟨hb.1, by simp, by simp [baseOk]⟩
  · refine ⟨hb.2.1, by simp, .inr (by simp only [den_rat]; linarith), fun h => ?_, fun _ => .inr ⟨hint, by simpa using hqr⟩⟩
    rw [hint] at h; cases h
  · have := hb.2.2
    simp only [containsCls, Bool.or_eq_false_iff] at this ⊢
    rcases hf with rfl | rfl <;> simp [isInvTrig, TrigFn.isInverse, this]
  · have e : q = ((q.num : ℤ) : ℚ) := by rw [← Rat.coe_int_num_of_den_eq_one hq]; simp
    rw [show den ρ (pow (trig f i) (rat q)) = pw (den ρ (trig f i)) (den ρ (rat q)) from rfl, den_rat]
    conv_lhs => rw [e]
    rw [Rat.cast_intCast, pw_int]

theorem ptsSum_V (hO : O.Exact) {n : Nat} {o : Option (List Expr)} {r : Expr} {x : ℝ} (h : ∀ us, o = some us → PL st ρ us x)
    (hr : ptsSum (ctors O n) o = .ok r) : PV st ρ r ∧ den ρ r = x := by
  cases o with
  | none => cases hr
  | some us => exact PV.sumL hO (h us rfl) hr

theorem ptsExpand_V (hO : O.Exact) {n : Nat} {ok : Expr → Bool} {p x : Expr} {ts : List Expr} (pp : PV st ρ p)
    (h : ptsExpandOk O n ok (.ok p) = true) (hx : expandE O n p = .ok x) (ht : iterTerms x = .ok ts) :
    PL st ρ ts (den ρ p) ∧ ∀ t ∈ ts, ok t = true := by
  simp only [ptsExpandOk, Bool.and_eq_true, Bool.not_eq_true', hx] at h
  have hE : Easy p := ⟨h.1.1, h.1.2, pp.2.2⟩
  obtain ⟨w, d, v⟩ := expand_sound hO n ((adm_WF hO).kid pp.1) pp.2.1 (Easy.expandOk n hE) hx
  have hn := (admE_noInv O).expandE n ((admE_noInv O).kid pp.2.2) hx
  cases x with
  | sum us =>
    cases ht
    refine ⟨⟨fun t ht => ⟨WF_sum.1 w t ht, Dom_sum.1 d t ht, closed_noInv.sum.1 hn t ht⟩, ?_⟩, List.all_eq_true.1 h.2⟩
    rw [← v, den_sum]
  | _ => exact absurd h.2 (by simp)

theorem pvs_val : ∀ {ts rs : List Expr}, List.Forall₂ (fun t r => PV st ρ r ∧ den ρ r = den ρ t) ts rs →
    List.Forall₂ (Val st ρ) rs (ts.map (den ρ))
  | [], _, .nil => .nil
  | _ :: _, _ :: _, .cons h1 h2 => .cons ⟨h1.1.1, h1.1.2.1, h1.2⟩ (pvs_val h2)

theorem pvs_all : ∀ {ts rs : List Expr}, List.Forall₂ (fun t r => PV st ρ r ∧ den ρ r = den ρ t) ts rs → ∀ r ∈ rs, PV st ρ r
  | [], _, .nil => by simp
  | _ :: _, _ :: _, .cons h1 h2 => by
    intro r hr
    rcases List.mem_cons.1 hr with rfl | hr
    exacts [h1.1, pvs_all h2 r hr]

theorem ptsUnit_V (hO : O.Exact) : ∀ (n : Nat) {e : Expr} {mult : Option Expr} {us : List Expr}, PV st ρ e →
    (∀ m, mult = some m → PV st ρ m) → ptsOk O n e mult = true → ptsUnit O n e mult = .ok (some us) →
      PL st ρ us (den ρ e * multVal ρ mult)
  | 0, _, _, _, _, _, _, h => by cases h
  | n + 1, e, mult, us, pe, pm, hok, h => by
    have ih := fun {e mult us} => ptsUnit_V hO n (e := e) (mult := mult) (us := us)
    have hC := ctors_sound hO n
    have ih0 : ∀ {t : Expr}, PV st ρ t → ptsOk O n t none = true → ∀ vs, ptsUnit O n t none = .ok (some vs) → PL st ρ vs (den ρ t) := by
      intro t pt ht vs hv
      simpa [multVal] using ih pt (by simp) ht hv
    unfold ptsUnit at h
    obtain ⟨⟨s, c0⟩, hcf, h0⟩ := bind_ok.1 h
    clear h
    dsimp only at h0
    obtain ⟨c, hc, h⟩ := bind_ok.1 h0
    clear h0
    obtain ⟨ps, pc0, ee⟩ := constFactor_V hcf pe
    have pc : PV st ρ c ∧ den ρ c = den ρ c0 * multVal ρ mult := by
      cases mult with
      | none => cases hc; exact ⟨pc0, by simp [multVal]⟩
      | some m => exact PV.mul hO pc0 (pm m rfl) hc
    have goal : den ρ e * multVal ρ mult = den ρ s * den ρ c := by rw [ee, pc.2]; ring
    rw [goal]
    unfold ptsOk at hok
    dsimp only at hok
    rw [hcf] at hok
    have smult : ∀ m, some c = some m → PV st ρ m := by rintro m ⟨⟩; exact pc.1
    split at h
    · rename_i a b
      dsimp only at hok
      have pa : PV st ρ a := ⟨(WF_prod.1 ps.1).2 a (by simp), Dom_prod.1 ps.2.1 a (by simp), closed_noInv.prod.1 ps.2.2 a (by simp)⟩
      have pb : PV st ρ b := ⟨(WF_prod.1 ps.1).2 b (by simp), Dom_prod.1 ps.2.1 b (by simp), closed_noInv.prod.1 ps.2.2 b (by simp)⟩
      have eab : den ρ (prod [a, b]) = den ρ a * den ρ b := by rw [den_prod]; simp
      rw [eab]
      unfold ptsTwo at h
      dsimp only at h
      by_cases c1 : (isSinCos a && isSinCos b) = true
      · rw [if_pos c1] at h
        exact ptsPair_V hO pa pb smult h
      rw [if_neg c1] at h hok
      by_cases c2 : (isSinCos a && validPower b) = true
      · rw [if_pos c2] at h hok
        obtain ⟨m, hm, h⟩ := bind_ok.1 h
        rw [Bool.and_eq_true, hm] at hok
        have key : ∀ ts, m = some ts → PL st ρ ts (den ρ a * den ρ b) := by
          rintro ts rfl
          have := ih pb (by rintro m ⟨⟩; exact pa) hok.1 hm
          rwa [multVal, mul_comm] at this
        refine ptsInter_V hO key pc.1 ?_ h
        rintro ts rfl t ht vs hv
        exact ih0 ((key ts rfl).1 t ht) (by simpa using List.all_eq_true.1 hok.2 t ht) vs hv
      rw [if_neg c2] at h hok
      by_cases c3 : (isSinCos b && validPower a) = true
      · rw [if_pos c3] at h hok
        obtain ⟨m, hm, h⟩ := bind_ok.1 h
        rw [Bool.and_eq_true, hm] at hok
        have key : ∀ ts, m = some ts → PL st ρ ts (den ρ a * den ρ b) := by
          rintro ts rfl
          exact ih pa (by rintro m ⟨⟩; exact pb) hok.1 hm
        refine ptsInter_V hO key pc.1 ?_ h
        rintro ts rfl t ht vs hv
        exact ih0 ((key ts rfl).1 t ht) (by simpa using List.all_eq_true.1 hok.2 t ht) vs hv
      rw [if_neg c3] at h hok
      by_cases c4 : (validPower b && validPower a) = true
      swap
      · rw [if_neg c4] at h; cases h
      rw [if_pos c4] at h hok
      obtain ⟨ra, hra, h⟩ := bind_ok.1 h
      obtain ⟨rb, hrb, h⟩ := bind_ok.1 h
      obtain ⟨sa, hsa, h⟩ := bind_ok.1 h
      obtain ⟨sb, hsb, h⟩ := bind_ok.1 h
      obtain ⟨p, hp, h⟩ := bind_ok.1 h
      obtain ⟨x, hx, h⟩ := bind_ok.1 h
      obtain ⟨ts, hts, h⟩ := bind_ok.1 h
      have hpp : ptsProd2 O n (fun t => ptsUnit O n t none) a b = .ok p := by
        simp only [ptsProd2, hra, hrb, hsa, hsb, hp, bind, Except.bind]
      simp only [Bool.and_eq_true] at hok
      rw [hpp] at hok
      have ua := ptsSum_V hO (fun vs hv => ih0 pa hok.1.1 vs (by rw [hra, hv])) hsa
      have ub := ptsSum_V hO (fun vs hv => ih0 pb hok.1.2 vs (by rw [hrb, hv])) hsb
      obtain ⟨pp, ep⟩ := PV.mul hO ua.1 ub.1 hp
      have k := ptsExpand_V hO pp hok.2 hx hts
      rw [ep, ua.2, ub.2] at k
      exact ptsList_V hO k.1 smult (fun t ht vs hv => ih0 (k.1.1 t ht) (k.2 t ht) vs hv) h
    · rename_i ts hne
      have hok' : (if (!ts.all (fun t => isSinCos t || validPower t)) = true then true
          else if ts.any (fun t => !isSinCos t) = true then
            ts.all (fun t => !isSinCos t) && ts.all (fun t => ptsOk O n t none) &&
              ptsExpandOk O n (fun t => ptsOk O n t none) (ptsProd O n (fun t => ptsUnit O n t none) ts)
          else true) = true := by
        split at hok
        · rename_i a b c' he; cases he; exact absurd rfl (hne a b)
        · rename_i he; cases he; exact hok
        · rename_i he; cases he
        · rename_i h1 h2; exact absurd rfl (h1 _ _)
      clear hok
      have pt : ∀ t ∈ ts, PV st ρ t := fun t ht =>
        ⟨(WF_prod.1 ps.1).2 t ht, Dom_prod.1 ps.2.1 t ht, closed_noInv.prod.1 ps.2.2 t ht⟩
      rw [den_prod]
      unfold ptsMany at h
      dsimp only at h
      by_cases c1 : (!ts.all (fun t => isSinCos t || validPower t)) = true
      · rw [if_pos c1] at h; cases h
      rw [if_neg c1] at h hok'
      by_cases c2 : ts.any (fun t => !isSinCos t) = true
      · rw [if_pos c2] at h hok'
        simp only [Bool.and_eq_true] at hok'
        have hfil : ts.filter (fun t => !isSinCos t) = ts := List.filter_eq_self.2 (List.all_eq_true.1 hok'.1.1)
        rw [hfil] at h
        obtain ⟨rs, hrs, h⟩ := bind_ok.1 h
        obtain ⟨p, hp, h⟩ := bind_ok.1 h
        obtain ⟨x, hx, h⟩ := bind_ok.1 h
        obtain ⟨vs, hvs, h⟩ := bind_ok.1 h
        have hpp : ptsProd O n (fun t => ptsUnit O n t none) ts = .ok p := by
          unfold ptsProd
          rw [hrs]
          exact hp
        rw [hpp] at hok'
        have hall : List.Forall₂ (fun t r => PV st ρ r ∧ den ρ r = den ρ t) ts rs := by
          refine forall₂_of_mem (mapR_ok.1 hrs) fun a ha b hb => ?_
          obtain ⟨o, ho, hb⟩ := bind_ok.1 hb
          exact ptsSum_V hO (fun vs hv => ih0 (pt a ha) (List.all_eq_true.1 hok'.1.2 a ha) vs (by rw [ho, hv])) hb
        have hp' := Val.prod (st := st) (ρ := ρ) (xs := ts.map (den ρ)) hC (pvs_val hall) hp
        have pp : PV st ρ p := hp'.pv (((admE_noInv O).pres n).prod _ _ (by
          intro r hr
          exact (pvs_all hall r hr).2.2) hp)
        have k := ptsExpand_V hO pp hok'.2 hx hvs
        rw [hp'.2.2] at k
        exact ptsList_V hO k.1 smult (fun t ht vs hv => ih0 (k.1.1 t ht) (k.2 t ht) vs hv) h
      · rw [if_neg c2] at h
        match ts, h with
        | [], h => cases h
        | [_], h => cases h
        | a :: b :: r, h =>
          obtain ⟨m, hm, h⟩ := bind_ok.1 h
          obtain ⟨k, hk, h⟩ := bind_ok.1 h
          obtain ⟨dm, vm⟩ := mkProdSkip_val (denInterp (s := st) ρ) hm fun t ht => (pt t (by simp [ht])).2.1
          have pm' : PV st ρ m := by
            refine ⟨mkProdSkip_WF hm (fun t ht => (pt t (by simp [ht])).1) ?_, dm,
              mkProdSkip_Q closed_noInv hm fun t ht => (pt t (by simp [ht])).2.2⟩
            refine le_trans ?_ (WF_prod.1 ps.1).1
            exact (((List.sublist_cons_self b r).trans (List.sublist_cons_self a (b :: r))).filter isAcc).length_le
          obtain ⟨pk, ek⟩ := PV.mul hO pm' pc.1 hk
          have := ptsPair_V hO (pt a (by simp)) (pt b (by simp)) (by rintro m ⟨⟩; exact pk) h
          refine ⟨this.1, this.2.trans ?_⟩
          simp only [multVal, ek, vm, List.map_cons, List.prod_cons]
          ring
    · rename_i b q
      split at h
      swap
      · cases h
      rename_i hv
      dsimp only at hok
      rw [hv] at hok
      obtain ⟨b', q', he, hs, hq, h1⟩ := validPower_inv hv
      cases he
      have pb : PV st ρ b := ⟨(show WF b ∧ _ from ps.1).1, (show DomS st ρ b ∧ _ from ps.2.1).1, (closed_noInv.pow.1 ps.2.2).1⟩
      rw [(powTrig_V pb hs hq h1.le).2]
      unfold ptsPower at h
      by_cases h2 : q = 2
      · rw [if_pos h2] at h
        have := ptsPair_V hO pb pb smult h
        refine ⟨this.1, this.2.trans ?_⟩
        subst h2
        simp only [multVal]
        rw [show (2 : ℚ).num = 2 from rfl]
        norm_cast
        ring
      · rw [if_neg h2] at h
        obtain ⟨m, hm, h⟩ := bind_ok.1 h
        rw [hm] at hok
        simp only [h2, ne_eq, not_false_eq_true, decide_true, Bool.and_self, if_true] at hok
        have h1' : 1 < q.num := by
          have e : q = ((q.num : ℤ) : ℚ) := by rw [← Rat.coe_int_num_of_den_eq_one hq]; simp
          rw [e] at h1; exact_mod_cast h1
        have h2' : q.num ≠ 2 := by
          intro h
          have e : q = ((q.num : ℤ) : ℚ) := by rw [← Rat.coe_int_num_of_den_eq_one hq]; simp
          rw [h] at e; exact h2 (by simpa using e)
        have pk : PV st ρ (if q = 3 then b else pow b (rat (q - 2))) ∧
            den ρ (if q = 3 then b else pow b (rat (q - 2))) = den ρ b ^ (q.num - 2) := by
          by_cases h3 : q = 3
          · rw [if_pos h3]; subst h3
            refine ⟨pb, ?_⟩
            rw [show (3 : ℚ).num - 2 = 1 from rfl]; simp
          · rw [if_neg h3]
            have e : q - 2 = ((q.num - 2 : ℤ) : ℚ) := by
              rw [← Rat.coe_int_num_of_den_eq_one hq]; simp
            have e1 : (q - 2).den = 1 := by rw [e]; simp
            have e2 : (q - 2).num = q.num - 2 := by rw [e]; exact Rat.num_intCast _
            have e3 : 1 ≤ q - 2 := by rw [e]; exact_mod_cast (by omega : 1 ≤ q.num - 2)
            obtain ⟨x1, x2⟩ := powTrig_V pb hs e1 e3
            exact ⟨x1, by rw [x2, e2]⟩
        have key : ∀ ts, m = some ts → PL st ρ ts (den ρ b ^ q.num) := by
          rintro ts rfl
          have := ptsPair_V hO pb pb (by rintro m ⟨⟩; exact pk.1) hm
          refine ⟨this.1, this.2.trans ?_⟩
          simp only [multVal, pk.2]
          obtain ⟨j, hj⟩ : ∃ j : ℕ, q.num = j + 2 := ⟨(q.num - 2).toNat, by omega⟩
          rw [hj, show ((j : ℤ) + 2 - 2) = (j : ℤ) by ring]
          norm_cast
          ring
        refine ptsInter_V hO key pc.1 ?_ h
        rintro ts rfl t ht vs hv
        exact ih0 ((key ts rfl).1 t ht) (by simpa using List.all_eq_true.1 hok t ht) vs hv
    · cases h

end Simpy
