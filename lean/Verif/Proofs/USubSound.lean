import Verif.Proofs.TransSound
import Verif.Proofs.TableSound
import Verif.Props.Regex
import Verif.Props.Rationals

/-! The u-substitutions. -/

namespace Simpy
open Expr Node

variable {O : Oracle}

/-! ## arithmetic -/

namespace Node
variable {n : Nat} {ρ : Str → ℝ} {A : Str → Prop}

theorem Integrand.rat (q : ℚ) : Integrand ρ A (Expr.rat q) := ⟨by simp [WF], by simp [DomS], by simp [syms]⟩

theorem Integrand.sym {v : Str} (hv : A v) : Integrand ρ A (Expr.sym v) :=
  ⟨by simp [WF], by simp [DomS], by simpa [syms] using hv⟩

theorem Integrand.mono {B : Str → Prop} {e : Expr} (he : Integrand ρ A e) (h : ∀ s, A s → B s) : Integrand ρ B e :=
  ⟨he.wf, he.reg, fun s hs => h s (he.scope s hs)⟩

theorem Integrand.opMul (hO : O.Exact) {a b r : Expr} (ha : Integrand ρ A a) (hb : Integrand ρ A b)
    (h : Simpy.opMul (ctors O n) a b = .ok r) : Integrand ρ A r ∧ den ρ r = den ρ a * den ρ b := by
  have hC := ctors_sound hO n
  obtain ⟨v1, d1⟩ := opMul_V hC ha.wf hb.wf ha.reg hb.reg h
  exact ⟨⟨opMul_W hC ha.wf hb.wf h, d1, (adm_syms O A).toAdmE.opMul ha.scope hb.scope h⟩, v1⟩

theorem Integrand.opAdd (hO : O.Exact) {a b r : Expr} (ha : Integrand ρ A a) (hb : Integrand ρ A b)
    (h : Simpy.opAdd (ctors O n) a b = .ok r) : Integrand ρ A r ∧ den ρ r = den ρ a + den ρ b := by
  have hC := ctors_sound hO n
  obtain ⟨v1, d1⟩ := opAdd_V hC ha.wf hb.wf ha.reg hb.reg h
  exact ⟨⟨opAdd_W hC ha.wf hb.wf h, d1, (adm_syms O A).toAdmE.opAdd ha.scope hb.scope h⟩, v1⟩

theorem Integrand.opSub (hO : O.Exact) {a b r : Expr} (ha : Integrand ρ A a) (hb : Integrand ρ A b)
    (h : Simpy.opSub (ctors O n) a b = .ok r) : Integrand ρ A r ∧ den ρ r = den ρ a - den ρ b := by
  have hC := ctors_sound hO n
  obtain ⟨v1, d1⟩ := opSub_V hC ha.wf hb.wf ha.reg hb.reg h
  exact ⟨⟨opSub_W hC ha.wf hb.wf h, d1, (adm_syms O A).toAdmE.opSub ha.scope hb.scope h⟩, v1⟩

theorem Integrand.opDiv (hO : O.Exact) {a b r : Expr} (ha : Integrand ρ A a) (hb : Integrand ρ A b) (h0 : den ρ b ≠ 0)
    (h : Simpy.opDiv (ctors O n) a b = .ok r) : Integrand ρ A r ∧ den ρ r = den ρ a / den ρ b := by
  have hC := ctors_sound hO n
  obtain ⟨v1, d1⟩ := opDiv_V hC ha.wf hb.wf ha.reg hb.reg h0 h
  exact ⟨⟨opDiv_W hC ha.wf hb.wf h, d1, (adm_syms O A).toAdmE.opDiv ha.scope hb.scope h⟩, v1⟩

theorem Integrand.opNeg (hO : O.Exact) {a r : Expr} (ha : Integrand ρ A a)
    (h : Simpy.opNeg (ctors O n) a = .ok r) : Integrand ρ A r ∧ den ρ r = -den ρ a := by
  have hC := ctors_sound hO n
  obtain ⟨v1, d1⟩ := opNeg_V hC ha.wf ha.reg h
  exact ⟨⟨opNeg_W hC ha.wf h, d1, (adm_syms O A).toAdmE.opNeg ha.scope h⟩, v1⟩

theorem Integrand.prod (hO : O.Exact) {ts : List Expr} {r : Expr} (ht : ∀ t ∈ ts, Integrand ρ A t)
    (h : (ctors O n).prod ts = .ok r) : Integrand ρ A r ∧ den ρ r = (ts.map (den ρ)).prod := by
  have hC := ctors_sound hO n
  obtain ⟨v1, d1⟩ := hC.prod ρ ts r (fun t h => (ht t h).wf) (fun t h => (ht t h).reg) h
  exact ⟨⟨hC.prodW ts r (fun t h => (ht t h).wf) h, d1,
    (ctors_pres (closed_syms A) O n).prod ts r (fun t h => (ht t h).scope) h⟩, v1⟩

theorem Integrand.pow (hO : O.Exact) {b x r : Expr} (wb : WF b) (wx : WF x) (sb : ∀ s ∈ syms b, A s) (sx : ∀ s ∈ syms x, A s)
    (hd : PowDomS true ρ b x) (h : (ctors O n).pow b x = .ok r) : Integrand ρ A r ∧ den ρ r = pw (den ρ b) (den ρ x) := by
  have hC := ctors_sound hO n
  obtain ⟨v1, d1⟩ := hC.pow ρ b x r wb wx hd h
  exact ⟨⟨hC.powW b x r wb wx h, d1, (ctors_pres (closed_syms A) O n).pow b x r sb sx h⟩, v1⟩

theorem Integrand.of_prod {ts : List Expr} (he : Integrand ρ A (Expr.prod ts)) : ∀ t ∈ ts, Integrand ρ A t := fun t ht =>
  ⟨(WF_prod.1 he.wf).2 t ht, Dom_prod.1 he.reg t ht, fun s hs => he.scope s (by
    simp only [syms, symsL_mem]; exact ⟨t, ht, hs⟩)⟩

theorem Integrand.child {e t : Expr} (he : Integrand ρ A e) (h : t ∈ e.children) : Integrand ρ A t := by
  cases e with
  | sum ts => exact ⟨WF_sum.1 he.wf t h, Dom_sum.1 he.reg t h, fun s hs => he.scope s (by
      simp only [syms, symsL_mem]; exact ⟨t, h, hs⟩)⟩
  | prod ts => exact he.of_prod t h
  | pow b x =>
    simp only [Expr.children, List.mem_cons, List.not_mem_nil, or_false] at h
    rcases h with rfl | rfl
    · exact ⟨he.wf.1, he.reg.1, fun s hs => he.scope s (by simp [syms, hs])⟩
    · exact ⟨he.wf.2.1, he.reg.2.1, fun s hs => he.scope s (by simp [syms, hs])⟩
  | log i b =>
    simp only [Expr.children, List.mem_cons, List.not_mem_nil, or_false] at h
    rcases h with rfl | rfl
    · exact ⟨he.wf.1, he.reg.1, fun s hs => he.scope s (by simp [syms, hs])⟩
    · exact ⟨he.wf.2, he.reg.2.1, fun s hs => he.scope s (by simp [syms, hs])⟩
  | trig f i =>
    simp only [Expr.children, List.mem_cons, List.not_mem_nil, or_false] at h
    subst h
    exact ⟨he.wf, he.reg.1, fun s hs => he.scope s (by simp [syms, hs])⟩
  | absv i =>
    simp only [Expr.children, List.mem_cons, List.not_mem_nil, or_false] at h
    subst h
    exact ⟨he.wf, he.reg.1, fun s hs => he.scope s (by simp [syms, hs])⟩
  | _ => simp [Expr.children] at h

theorem Integrand.sub {s e : Expr} (h : Sub s e) (he : Integrand ρ A e) : Integrand ρ A s := by
  induction h with
  | here => exact he
  | child hm _ ih => exact ih (he.child hm)

theorem Integrand.floatFree {e : Expr} (he : Integrand ρ A e) : floatFree e = true := (floatFree_iff e).2 he.reg.noFlt

end Node

/-! ## PolynomialUSub -/

theorem polyULoop_some {C : Ctors} {v : Str} : ∀ {ts pre : List Expr} {m q : Expr},
    polyULoop O C v pre ts = .ok (some (m, q)) → (∃ m0, Expr.pow (sym v) m0 ∈ ts ∧ opAdd C m0 (rat 1) = .ok m) ∨
      m = rat 2
  | [], pre, m, q, h => by simp [polyULoop] at h
  | t :: r, pre, m, q, h => by
    have gen : ∀ {t : Expr}, (if beq O t (sym v) = true then do
        let q ← C.prod (pre ++ r)
        return some (rat 2, q)
      else polyULoop O C v (pre ++ [t]) r) = Except.ok (some (m, q)) → (∃ m0, Expr.pow (sym v) m0 ∈ r ∧ opAdd C m0 (rat 1) = .ok m) ∨
      m = rat 2 := by
      intro t h
      split at h
      · obtain ⟨k, -, h⟩ := bind_ok.1 h
        have := pure_ok.1 h
        simp only [Option.some.injEq, Prod.mk.injEq] at this
        exact .inr this.1.symm
      · exact polyULoop_some h
    have up : ((∃ m0, Expr.pow (sym v) m0 ∈ r ∧ opAdd C m0 (rat 1) = .ok m) ∨ m = rat 2) →
        ((∃ m0, Expr.pow (sym v) m0 ∈ t :: r ∧ opAdd C m0 (rat 1) = .ok m) ∨ m = rat 2) :=
      fun h => h.imp_left fun ⟨m0, h1, h2⟩ => ⟨m0, List.mem_cons_of_mem _ h1, h2⟩
    cases t with
    | pow b x =>
      simp only [polyULoop] at h
      split at h
      · next hc =>
        obtain ⟨k, h1, h⟩ := bind_ok.1 h
        obtain ⟨k', -, h⟩ := bind_ok.1 h
        have := pure_ok.1 h
        simp only [Option.some.injEq, Prod.mk.injEq] at this
        obtain ⟨rfl, -⟩ := this
        simp only [Bool.and_eq_true] at hc
        rw [beq_sym_iff.1 hc.1]
        exact .inl ⟨x, by simp, h1⟩
      · exact up (polyULoop_some h)
    | _ => rw [polyULoop] at h; exact up (gen h); intro b m hb; cases hb

theorem polynomialUSub_some {n : Nat} {v u : Str} {e q g : Expr} (h : polynomialUSub O n v u e = .ok (some (q, g))) :
    ∃ ts m d r, e = prod ts ∧ ((∃ m0, Expr.pow (sym v) m0 ∈ ts ∧ opAdd (ctors O n) m0 (rat 1) = .ok m) ∨ m = rat 2) ∧
      beq O m (rat 0) = false ∧
      (ctors O n).pow (sym v) m = .ok q ∧ diffE O n v q = .ok d ∧ replaceOld O n e q (sym u) = .ok r ∧
      opDiv (ctors O n) r d = .ok g := by
  cases e with
  | prod ts =>
    simp only [polynomialUSub] at h
    obtain ⟨k, h1, h⟩ := bind_ok.1 h
    cases k with
    | none => have := pure_ok.1 h; simp at this
    | some mr =>
      obtain ⟨m, rest⟩ := mr
      simp only at h
      split at h
      · have := pure_ok.1 h; simp at this
      next hm0 =>
      obtain ⟨q', h2, h⟩ := bind_ok.1 h
      split at h
      · obtain ⟨d, h3, h⟩ := bind_ok.1 h
        obtain ⟨r, h4, h⟩ := bind_ok.1 h
        obtain ⟨g', h5, h⟩ := bind_ok.1 h
        have := pure_ok.1 h
        simp only [Option.some.injEq, Prod.mk.injEq] at this
        obtain ⟨rfl, rfl⟩ := this
        exact ⟨ts, m, d, r, rfl, polyULoop_some h1, by simpa using hm0, h2, h3, h4, h5⟩
      · have := pure_ok.1 h; simp at this
  | _ => simp [polynomialUSub] at h

/-- The substituted power is regular. -/
theorem polynomialUSub_regular (hO : O.Exact) {n : Nat} {ρ : Str → ℝ} {u v : Str} {A : Str → Prop} {e q g : Expr}
    (he : Integrand ρ A e) (hv : A v) (h : polynomialUSub O n v u e = .ok (some (q, g))) : Integrand ρ A q := by
  obtain ⟨ts, m, d, r, rfl, h1, h2, h3, -, -, -⟩ := polynomialUSub_some h
  rcases h1 with ⟨m0, hm, h1⟩ | rfl
  · have hp := he.of_prod _ hm
    have hm0 : Integrand ρ A m0 := hp.child (by simp [Expr.children])
    obtain ⟨hmi, hmv⟩ := hm0.opAdd hO (.rat 1) h1
    obtain ⟨-, -, d3, d4, d5⟩ := hp.reg
    have d5 := d5 rfl
    simp only [den] at d3 d5
    refine (Integrand.pow hO (by simp [WF]) hmi.wf (by simpa [syms] using hv) hmi.scope ?_ h3).1
    cases hx : intExp m0 with
    | false =>
      have hvn := (d4 hx).nonneg
      simp only [den] at hvn
      have hv0 : ρ v ≠ 0 := d5.resolve_right (by simp [hx])
      exact ⟨by simp [DomS], hmi.reg, .inl (by simpa [den] using hv0), fun _ => by simpa [RadOk, den] using hvn,
        fun _ => .inl (by simpa [den] using hv0)⟩
    | true =>
      obtain ⟨k, rfl⟩ := intExp_iff.1 hx
      have hmr : m = rat ((k : ℚ) + 1) := by
        have := (rational_operators_exact O (ctors O n) (k : ℚ) 1).1
        rw [this] at h1
        exact (Except.ok.inj h1).symm
      subst hmr
      have hi : intExp (rat ((k : ℚ) + 1)) = true := intExp_iff.2 ⟨k + 1, by push_cast; rfl⟩
      have hk : k + 1 ≠ 0 := by
        intro hk
        rw [show ((k : ℚ) + 1) = ((k + 1 : ℤ) : ℚ) by push_cast; rfl, hk] at h2
        simp [beq] at h2
      refine ⟨by simp [DomS], hmi.reg, ?_, fun h => by simp [hi] at h, fun _ => ?_⟩
      · by_cases hv0 : ρ v = 0
        · right
          have := (d5.resolve_left (by simp [hv0])).2
          simp only [den_rat] at this ⊢
          push_cast at this ⊢
          linarith
        · left; simpa [den] using hv0
      · by_cases hv0 : ρ v = 0
        · right
          have := (d5.resolve_left (by simp [hv0])).2
          refine ⟨hi, ?_⟩
          simp only [den_rat] at this ⊢
          push_cast at this ⊢
          linarith
        · left; simpa [den] using hv0
  · refine (Integrand.pow hO (by simp [WF]) (by simp [WF]) (by simpa [syms] using hv) (by simp [syms]) ?_ h3).1
    refine ⟨by simp [DomS], by simp [DomS], .inr (by simp), fun h => ?_, fun _ => .inr ⟨?_, by simp⟩⟩
    · simp [intExp] at h
    · simp [intExp]

theorem polynomialUSub_ok (hO : O.Exact) {n : Nat} {ρ : Str → ℝ} {u v : Str} {A : Str → Prop} {e q g : Expr}
    (he : Integrand ρ A e) (hv : A v) (hu : ¬A u) (h : polynomialUSub O n v u e = .ok (some (q, g)))
    (hok : DiffOk O ρ v n q) (hq0 : deriv (fnOf ρ v q) (ρ v) ≠ 0) (hg : v ∉ syms g)
    (ht : RunTame O (replacePerf O q (sym u)) n e = true) (i k : Nat) :
    Reduces (posed ρ v A e) (fun _ => posedAfter ρ v u A q g) i k (.polynomialUSub q) ∧
      Integrand (pointAfter ρ u q) (scopeAfter A v u) g := by
  have hq := polynomialUSub_regular hO he hv h
  obtain ⟨ts, m, d, r, rfl, -, -, h3, h4, h5, h6⟩ := polynomialUSub_some h
  have hd := (diff_sound hO n hq.wf hq.reg hok h4).deriv
  refine swap_div hO he hq hv hu hok h4 ?_ ht h5 h6 hg rfl i k
  have : deriv (fnOf ρ v q) (ρ v) = den ρ d := hd.deriv
  rwa [this] at hq0

/-! ## GenericUSub -/

theorem genericLoop_some {n : Nat} {v : Str} : ∀ {ts pre : List Expr} {q : Expr},
    genericLoop O n v pre ts = .ok (some q) → ∃ t ∈ ts, ∃ F, checkTable O n v t = .ok (some F) ∧ removeConstFactor F = .ok q
  | [], pre, q, h => by simp [genericLoop] at h
  | t :: r, pre, q, h => by
    have up : (∃ s ∈ r, ∃ F, checkTable O n v s = .ok (some F) ∧ removeConstFactor F = .ok q) →
        ∃ s ∈ t :: r, ∃ F, checkTable O n v s = .ok (some F) ∧ removeConstFactor F = .ok q :=
      fun ⟨s, h1, h2⟩ => ⟨s, List.mem_cons_of_mem _ h1, h2⟩
    rw [genericLoop] at h
    obtain ⟨k, h1, h⟩ := bind_ok.1 h
    cases k with
    | none => exact up (genericLoop_some h)
    | some F =>
      simp only at h
      obtain ⟨q', h2, h⟩ := bind_ok.1 h
      obtain ⟨rest, h3, h⟩ := bind_ok.1 h
      split at h
      · cases h
      split at h
      · have := pure_ok.1 h
        simp only [Option.some.injEq] at this
        subst this
        exact ⟨t, by simp, F, h1, h2⟩
      · exact up (genericLoop_some h)

theorem genericUSub_some {n : Nat} {v u : Str} {e q g : Expr} (h : genericUSub O n v u e = .ok (some (q, g))) :
    ∃ ts t F d f, e = prod ts ∧ t ∈ ts ∧ checkTable O n v t = .ok (some F) ∧ removeConstFactor F = .ok q ∧
      diffE O n v q = .ok d ∧ opDiv (ctors O n) e d = .ok f ∧ replaceOld O n f q (sym u) = .ok g := by
  cases e with
  | prod ts =>
    simp only [genericUSub] at h
    obtain ⟨k, h1, h⟩ := bind_ok.1 h
    cases k with
    | none => have := pure_ok.1 h; simp at this
    | some q' =>
      simp only at h
      obtain ⟨d, h3, h⟩ := bind_ok.1 h
      obtain ⟨f, h4, h⟩ := bind_ok.1 h
      obtain ⟨g', h5, h⟩ := bind_ok.1 h
      have := pure_ok.1 h
      simp only [Option.some.injEq, Prod.mk.injEq] at this
      obtain ⟨rfl, rfl⟩ := this
      obtain ⟨t, ht, F, hF, hq⟩ := genericLoop_some h1
      exact ⟨ts, t, F, d, f, rfl, ht, hF, hq, h3, h4, h5⟩
  | _ => simp [genericUSub] at h

theorem removeConstFactor_W {e q : Expr} (he : WF e) (h : removeConstFactor e = .ok q) : WF q := by
  cases e with
  | prod ts =>
    simp only [removeConstFactor] at h
    refine mkProdSkip_WF h (fun t ht => (WF_prod.1 he).2 t (List.mem_filter.1 ht).1) ?_
    have : (ts.filter varies).filter isAcc = [] := by
      rw [List.filter_filter, List.filter_eq_nil_iff]
      intro t _
      cases t <;> simp [isAcc, varies, syms, anys]
    simp [this]
  | _ => cases h; exact he

theorem removeConstFactor_Q {Q : Expr → Prop} (hQ : Closed Q) {e q : Expr} (he : Q e) (h : removeConstFactor e = .ok q) :
    Q q := by
  cases e with
  | prod ts =>
    simp only [removeConstFactor] at h
    exact mkProdSkip_Q hQ h fun t ht => hQ.prod.1 he t (List.mem_filter.1 ht).1
  | _ => cases h; exact he

theorem removeConstFactor_V {ρ : Str → ℝ} {st : Bool} {e q : Expr} (he : DomS st ρ e) (h : removeConstFactor e = .ok q) :
    DomS st ρ q := by
  cases e with
  | prod ts =>
    simp only [removeConstFactor] at h
    exact (mkProdSkip_val (denInterp (s := st) ρ) h fun t ht => Dom_prod.1 he t (List.mem_filter.1 ht).1).1
  | _ => cases h; exact he

theorem removeConstFactor_ok {ρ : Str → ℝ} {A : Str → Prop} {e q : Expr} (he : Integrand ρ A e)
    (h : removeConstFactor e = .ok q) : Integrand ρ A q :=
  ⟨removeConstFactor_W he.wf h, removeConstFactor_V he.reg h, removeConstFactor_Q (closed_syms A) he.scope h⟩

theorem Adm.checkTable {Q : Expr → Prop} (hQ : Adm O Q) {n : Nat} {v : Str} {e F : Expr} (hv : Q (sym v)) (he : Q e)
    (h : checkTable O n v e = .ok (some F)) : Q F := by
  have hE := hQ.toAdmE
  have h1 := hE.rat 1
  unfold Simpy.checkTable at h
  split at h
  · obtain ⟨r, h1, h⟩ := bind_ok.1 h
    have := pure_ok.1 h
    simp only [Option.some.injEq] at this; subst this
    exact hE.opMul he hv h1
  obtain ⟨o, ho, h⟩ := bind_ok.1 h
  cases o with
  | some r =>
    have := pure_ok.1 h
    simp only [Option.some.injEq] at this; subst this
    unfold tablePower at ho
    split at ho
    · next b x =>
      obtain ⟨qb, qx⟩ := hE.pow he
      split at ho
      · split at ho
        · obtain ⟨a, i1, ho⟩ := bind_ok.1 ho
          obtain ⟨l, i2, ho⟩ := bind_ok.1 ho
          have := pure_ok.1 ho
          simp only [Option.some.injEq] at this; subst this
          exact hQ.plog ((hE.pres n).abs _ _ qb i1) hE.eul i2
        · obtain ⟨x1, i1, ho⟩ := bind_ok.1 ho
          obtain ⟨j, i2, ho⟩ := bind_ok.1 ho
          obtain ⟨p, i3, ho⟩ := bind_ok.1 ho
          obtain ⟨r', i4, ho⟩ := bind_ok.1 ho
          have := pure_ok.1 ho
          simp only [Option.some.injEq] at this; subst this
          have q1 := hE.opAdd qx h1 i1
          exact hE.opMul (hE.opDiv h1 q1 i2) ((hE.pres n).pow _ _ _ hv q1 i3) i4
      · split at ho
        · obtain ⟨l, i1, ho⟩ := bind_ok.1 ho
          obtain ⟨j, i2, ho⟩ := bind_ok.1 ho
          obtain ⟨r', i4, ho⟩ := bind_ok.1 ho
          have := pure_ok.1 ho
          simp only [Option.some.injEq] at this; subst this
          exact hE.opMul (hE.opDiv h1 (hQ.plog qb hE.eul i1) i2) he i4
        · cases ho
    · split at ho
      · obtain ⟨p, i3, ho⟩ := bind_ok.1 ho
        obtain ⟨r', i4, ho⟩ := bind_ok.1 ho
        have := pure_ok.1 ho
        simp only [Option.some.injEq] at this; subst this
        exact hE.opMul (hE.rat _) ((hE.pres n).pow _ _ _ hv (hE.rat _) i3) i4
      · cases ho
    · cases ho
  | none =>
    simp only [standardTrig, tableLoop] at h
    split at h
    · obtain ⟨r, h1, h⟩ := bind_ok.1 h
      have := pure_ok.1 h
      simp only [Option.some.injEq] at this; subst this
      obtain ⟨c, h2, h1⟩ := bind_ok.1 h1
      exact hE.opNeg (hQ.ptrig n _ hv h2) h1
    split at h
    · obtain ⟨r, h1, h⟩ := bind_ok.1 h
      have := pure_ok.1 h
      simp only [Option.some.injEq] at this; subst this
      exact hQ.ptrig n _ hv h1
    split at h
    · obtain ⟨r, h1, h⟩ := bind_ok.1 h
      have := pure_ok.1 h
      simp only [Option.some.injEq] at this; subst this
      exact hQ.ptrig n _ hv h1
    split at h
    · obtain ⟨r, h1, h⟩ := bind_ok.1 h
      have := pure_ok.1 h
      simp only [Option.some.injEq] at this; subst this
      obtain ⟨a, i1, h1⟩ := bind_ok.1 h1
      obtain ⟨b, i2, h1⟩ := bind_ok.1 h1
      obtain ⟨c, i3, h1⟩ := bind_ok.1 h1
      exact hQ.plog (hE.opAdd (hQ.ptrig n _ hv i1) (hQ.ptrig n _ hv i2) i3) hE.eul h1
    · cases h

theorem genericUSub_ok (hO : O.Exact) {n : Nat} {ρ : Str → ℝ} {u v : Str} {A : Str → Prop} {e q g : Expr}
    (he : Integrand ρ A e) (hv : A v) (hu : ¬A u) (h : genericUSub O n v u e = .ok (some (q, g)))
    (hqr : Regular ρ q) (hok : DiffOk O ρ v n q) (hq0 : deriv (fnOf ρ v q) (ρ v) ≠ 0) (hg : v ∉ syms g)
    (ht : ∀ d f, diffE O n v q = .ok d → opDiv (ctors O n) e d = .ok f → RunTame O (replacePerf O q (sym u)) n f = true)
    (i k : Nat) :
    Reduces (posed ρ v A e) (fun _ => posedAfter ρ v u A q g) i k (.genericUSub q) ∧
      Integrand (pointAfter ρ u q) (scopeAfter A v u) g := by
  obtain ⟨ts, t, F, d, f, rfl, h1, h2, h3, h4, h5, h6⟩ := genericUSub_some h
  have hq : Integrand ρ A q := by
    have ht := he.of_prod t h1
    have wF := (adm_WF hO).checkTable (v := v) (by simp [WF]) ht.wf h2
    have sF := (adm_syms O A).checkTable (v := v) (by simpa [syms] using hv) ht.scope h2
    exact ⟨removeConstFactor_W wF h3, hqr, removeConstFactor_Q (closed_syms A) sF h3⟩
  have hdd := diff_sound hO n hq.wf hq.reg hok h4
  have hdi : Integrand ρ A d := ⟨hdd.wf, hdd.dom, Adm.diffE (adm_syms O A) n hq.scope h4⟩
  have hd : deriv (fnOf ρ v q) (ρ v) = den ρ d := hdd.deriv.deriv
  rw [hd] at hq0
  obtain ⟨hf, vf⟩ := he.opDiv hO hdi hq0 h5
  obtain ⟨hr, vr⟩ := swap_ok hO hf hq hu (ht d f h4 h5) h6
  refine usub_ok hq hv hu hdd.deriv hr.wf hr.reg hr.scope hg ?_ rfl i k
  rw [vr, vf]; field_simp

/-! ## TrigUSub2 -/

/-- All occurrences of `v` in the expression are inside occurrences of `q`. -/
inductive Covered (v : Str) (q : Expr) : Expr → Prop
  | here : Covered v q q
  | node {e : Expr} : e ≠ sym v → (∀ t ∈ e.children, Covered v q t) → Covered v q e

mutual
theorem count_covered (hO : O.NoConfusion) {v : Str} {f : TrigFn} : ∀ e : Expr, floatFree e = true →
    count O (trig f (sym v)) e ≤ count O (sym v) e ∧
      (count O (trig f (sym v)) e = count O (sym v) e → Covered v (trig f (sym v)) e) := by
  intro e he
  have hv : floatFree (sym v) = true := rfl
  have hq : floatFree (trig f (sym v)) = true := rfl
  have node : ∀ e : Expr, floatFree e = true → e ≠ trig f (sym v) → e ≠ sym v →
      ((e.children.map (count O (trig f (sym v)))).sum ≤ (e.children.map (count O (sym v))).sum ∧
        ((e.children.map (count O (trig f (sym v)))).sum = (e.children.map (count O (sym v))).sum →
          ∀ t ∈ e.children, Covered v (trig f (sym v)) t)) →
      count O (trig f (sym v)) e ≤ count O (sym v) e ∧
      (count O (trig f (sym v)) e = count O (sym v) e → Covered v (trig f (sym v)) e) := by
    intro e he h1 h2 ⟨h3, h4⟩
    rw [count_node hO he hq, count_node hO he hv, if_neg h1, if_neg h2]
    exact ⟨h3, fun h => .node h2 (h4 h)⟩
  have leaf : ∀ e : Expr, floatFree e = true → e ≠ trig f (sym v) → e ≠ sym v → e.children = [] →
      count O (trig f (sym v)) e ≤ count O (sym v) e ∧
      (count O (trig f (sym v)) e = count O (sym v) e → Covered v (trig f (sym v)) e) := by
    intro e he h1 h2 h3
    refine node e he h1 h2 ?_
    rw [h3]; simp
  cases e with
  | sum ts => exact node _ he (by simp) (by simp) (count_coveredL hO ts he)
  | prod ts => exact node _ he (by simp) (by simp) (count_coveredL hO ts he)
  | pow b x =>
    simp only [floatFree, Bool.and_eq_true] at he
    have h1 := count_covered hO (v := v) (f := f) b he.1
    have h2 := count_covered hO (v := v) (f := f) x he.2
    refine node _ (by simp [floatFree, he]) (by simp) (by simp) ?_
    simp only [Expr.children, List.map_cons, List.map_nil, List.sum_cons, List.sum_nil, List.mem_cons, List.not_mem_nil, or_false,
      forall_eq_or_imp, forall_eq]
    exact ⟨by omega, fun h => ⟨h1.2 (by omega), h2.2 (by omega)⟩⟩
  | log b x =>
    simp only [floatFree, Bool.and_eq_true] at he
    have h1 := count_covered hO (v := v) (f := f) b he.1
    have h2 := count_covered hO (v := v) (f := f) x he.2
    refine node _ (by simp [floatFree, he]) (by simp) (by simp) ?_
    simp only [Expr.children, List.map_cons, List.map_nil, List.sum_cons, List.sum_nil, List.mem_cons, List.not_mem_nil, or_false,
      forall_eq_or_imp, forall_eq]
    exact ⟨by omega, fun h => ⟨h1.2 (by omega), h2.2 (by omega)⟩⟩
  | trig g i =>
    have he' : floatFree i = true := he
    have h1 := count_covered hO (v := v) (f := f) i he'
    by_cases hgi : trig g i = trig f (sym v)
    · rw [hgi]
      refine ⟨?_, fun _ => .here⟩
      rw [count_node hO hq hq, count_node hO hq hv]
      simp only [if_pos, reduceCtorEq, if_false, Expr.children, List.map_cons, List.map_nil, List.sum_cons, List.sum_nil]
      rw [count_node hO hv hv]
      simp
    · refine node _ he hgi (by simp) ?_
      simpa only [Expr.children, List.map_cons, List.map_nil, List.sum_cons, List.sum_nil, List.mem_cons, List.not_mem_nil, or_false,
        forall_eq, Nat.add_zero] using h1
  | absv i =>
    have he' : floatFree i = true := he
    have h1 := count_covered hO (v := v) (f := f) i he'
    refine node _ he (by simp) (by simp) ?_
    simpa only [Expr.children, List.map_cons, List.map_nil, List.sum_cons, List.sum_nil, List.mem_cons, List.not_mem_nil, or_false,
        forall_eq, Nat.add_zero] using h1
  | sym s =>
    by_cases hs : s = v
    · subst hs
      rw [count_node hO he hq, count_node hO he hv]
      simp [Expr.children]
    · exact leaf _ he (by simp) (by simpa using hs) rfl
  | _ => exact leaf _ he (by simp) (by simp) rfl
theorem count_coveredL (hO : O.NoConfusion) {v : Str} {f : TrigFn} : ∀ ts : List Expr, floatFreeL ts = true →
    (ts.map (count O (trig f (sym v)))).sum ≤ (ts.map (count O (sym v))).sum ∧
      ((ts.map (count O (trig f (sym v)))).sum = (ts.map (count O (sym v))).sum → ∀ t ∈ ts, Covered v (trig f (sym v)) t) := by
  intro ts hts
  cases ts with
  | nil => simp
  | cons t r =>
    simp only [floatFreeL, Bool.and_eq_true] at hts
    have h1 := count_covered hO (v := v) (f := f) t hts.1
    have h2 := count_coveredL hO (v := v) (f := f) r hts.2
    simp only [List.map_cons, List.sum_cons, List.mem_cons, forall_eq_or_imp]
    exact ⟨by omega, fun h => ⟨h1.2 (by omega), h2.2 (by omega)⟩⟩
end

/-- Replacing `q` in an expression in which all occurrences of `v` are inside `q` eliminates `v`. -/
theorem covered_syms {A : Str → Prop} {v : Str} {q w : Expr} (hq : floatFree q = true) (hw : ∀ s ∈ syms w, A s) : ∀ {n : Nat} {e r : Expr},
    Covered v q e → (∀ s ∈ syms e, s ≠ v → A s) → replaceOld O n e q w = .ok r → ∀ s ∈ syms r, A s
  | 0, _, _, _, _, h => by simp [replaceOld, replaceE] at h
  | n + 1, e, r, hc, he, h => by
    have hP := ctors_pres (closed_syms A) O n
    have hA := adm_syms O A
    have ih := fun {e r : Expr} => covered_syms (v := v) hq hw (n := n) (e := e) (r := r)
    unfold replaceOld replaceE at h
    obtain ⟨k, hk, h⟩ := bind_ok.1 h
    simp only [replacePerf, Except.ok.injEq] at hk
    split at hk
    · subst hk; simp only [Except.ok.injEq] at h; subst h; exact hw
    next hne =>
    subst hk
    cases hc with
    | here => exact absurd (eq_reflexive O hq) (by simpa using hne)
    | node hv hc =>
    cases e with
    | sum ts =>
      obtain ⟨us, h1, h⟩ := bind_ok.1 h
      refine hP.sum us r (mapR_mem h1 fun t ht w hw => ih (hc t ht) (fun s hs => he s ?_) hw) h
      simp only [syms, symsL_mem]; exact ⟨t, ht, hs⟩
    | prod ts =>
      obtain ⟨us, h1, h⟩ := bind_ok.1 h
      refine hP.prod us r (mapR_mem h1 fun t ht w hw => ih (hc t ht) (fun s hs => he s ?_) hw) h
      simp only [syms, symsL_mem]; exact ⟨t, ht, hs⟩
    | pow b x =>
      obtain ⟨b', h1, h⟩ := bind_ok.1 h
      obtain ⟨x', h2, h⟩ := bind_ok.1 h
      exact hP.pow b' x' r (ih (hc _ (by simp [Expr.children])) (fun s hs => he s (by simp [syms, hs])) h1)
        (ih (hc _ (by simp [Expr.children])) (fun s hs => he s (by simp [syms, hs])) h2) h
    | log i b =>
      obtain ⟨i', h1, h⟩ := bind_ok.1 h
      obtain ⟨b', h2, h⟩ := bind_ok.1 h
      exact hA.plog (ih (hc _ (by simp [Expr.children])) (fun s hs => he s (by simp [syms, hs])) h1)
        (ih (hc _ (by simp [Expr.children])) (fun s hs => he s (by simp [syms, hs])) h2) h
    | trig f i =>
      obtain ⟨i', h1, h⟩ := bind_ok.1 h
      exact hA.ptrig n f (ih (hc _ (by simp [Expr.children])) (fun s hs => he s (by simp [syms, hs])) h1) h
    | absv i =>
      obtain ⟨i', h1, h⟩ := bind_ok.1 h
      exact hP.abs i' r (ih (hc _ (by simp [Expr.children])) (fun s hs => he s (by simp [syms, hs])) h1) h
    | sym s =>
      simp only [Except.ok.injEq] at h
      subst h
      intro s' hs'
      refine he s' hs' ?_
      simp only [syms, List.mem_singleton] at hs'
      subst hs'
      rintro rfl
      exact hv rfl
    | _ => simp only [Except.ok.injEq] at h; subst h; simp [syms]

theorem opPow_sym_two {n : Nat} {u : Str} {p : Expr} (h : opPow O (ctors O n) (sym u) (rat 2) = .ok p) :
    p = pow (sym u) (rat 2) := by
  cases n with
  | zero => simp [opPow, ctors] at h
  | succ n => exact (Except.ok.inj h).symm

theorem one_sub_sq {n : Nat} {u : Str} {p : Expr} (h : opSub (ctors O n) (rat 1) (pow (sym u) (rat 2)) = .ok p) :
    p = sum [prod [rat (-1), pow (sym u) (rat 2)], rat 1] := by
  rcases n with _ | _ | n
  · simp [opSub, opMul, ctors, Bind.bind, Except.bind] at h
  · exact (Except.ok.inj h).symm
  · exact (Except.ok.inj h).symm

theorem sq_integrand {ρ : Str → ℝ} {A : Str → Prop} {u : Str} (hu : A u) : Integrand ρ A (pow (sym u) (rat 2)) ∧
    den ρ (pow (sym u) (rat 2)) = ρ u ^ 2 := by
  refine ⟨⟨by simp [WF, baseOk, beq], by simp [DomS, den, intExp], by simpa [syms] using hu⟩, ?_⟩
  have := pw_int (ρ u) 2
  simp only [den]
  norm_num at this ⊢
  exact this

/-- The derivatives of the table of `TrigUSub2`. -/
theorem trigDx_ok (hO : O.Exact) {n : Nat} {ρ : Str → ℝ} {A : Str → Prop} {u : Str} {f : TrigFn} {d : Expr} (hu : A u)
    (hf : f ≠ .tan → ρ u ^ 2 < 1) (h : trigDx O (ctors O n) f (sym u) = .ok d) : Integrand ρ A d ∧
      den ρ d = if f = .tan then 1 / (1 + ρ u ^ 2) else (if f = .cos then -1 else 1) / √(1 - ρ u ^ 2) := by
  unfold trigDx at h
  obtain ⟨p, h1, h⟩ := bind_ok.1 h
  have := opPow_sym_two h1
  subst this
  obtain ⟨ip, vp⟩ := sq_integrand (ρ := ρ) (A := A) hu
  have gen : ∀ f : TrigFn, f ≠ .tan → (do
      let d ← opSub (ctors O n) (rat 1) (pow (sym u) (rat 2))
      let s ← opSqrt O (ctors O n) d
      opDiv (ctors O n) (rat (if f = .cos then -1 else 1)) s) = Except.ok d → ρ u ^ 2 < 1 →
      Integrand ρ A d ∧ den ρ d = (if f = .cos then -1 else 1) / √(1 - ρ u ^ 2) := by
    intro f hft h hlt
    obtain ⟨z, h2, h⟩ := bind_ok.1 h
    obtain ⟨s, h3, h⟩ := bind_ok.1 h
    obtain ⟨iz, vz⟩ := (Integrand.rat 1).opSub hO ip h2
    rw [vp, den_rat] at vz
    push_cast at vz
    have hz := one_sub_sq h2
    have hz0 : den ρ z ≠ 0 := by rw [vz]; linarith
    have hC := ctors_sound hO n
    obtain ⟨vs, ds⟩ := opSqrt_V hC iz.wf iz.reg (HN.radOk ((HN_of_baseOk (by rw [hz]; rfl)).2 (by rw [vz]; linarith)))
      (fun _ => hz0) h3
    have is : Integrand ρ A s := ⟨opSqrt_W hC iz.wf h3, ds, (adm_syms O A).toAdmE.opSqrt iz.scope h3⟩
    have hs0 : den ρ s ≠ 0 := by rw [vs, vz]; exact (Real.sqrt_pos.2 (by linarith)).ne'
    obtain ⟨id, vd⟩ := (Integrand.rat _).opDiv hO is hs0 h
    refine ⟨id, ?_⟩
    rw [vd, vs, vz, den_rat]
    split <;> simp
  cases f with
  | tan =>
    obtain ⟨z, h2, h⟩ := bind_ok.1 h
    obtain ⟨iz, vz⟩ := (Integrand.rat 1).opAdd hO ip h2
    rw [vp, den_rat] at vz
    push_cast at vz
    have hz0 : den ρ z ≠ 0 := by rw [vz]; positivity
    obtain ⟨id, vd⟩ := (Integrand.rat _).opDiv hO iz hz0 h
    refine ⟨id, ?_⟩
    rw [vd, vz, den_rat]
    simp
  | _ => exact gen _ (by simp) h (hf (by simp))

theorem trigKey_some {n : Nat} {v : Str} {e : Expr} : ∀ {fs : List TrigFn} {f : TrigFn} {q : Expr}, (∀ f ∈ fs, f.isInverse = false) →
    trigKey O n v e fs = .ok (some (f, q)) →
    f ∈ fs ∧ q = trig f (sym v) ∧ 1 ≤ count O q e ∧ count O q e = count O (sym v) e
  | [], f, q, _, h => by simp [trigKey] at h
  | g :: fs, f, q, hf, h => by
    rw [trigKey] at h
    obtain ⟨q', h1, h⟩ := bind_ok.1 h
    split at h
    · next hc =>
      have := pure_ok.1 h
      simp only [Option.some.injEq, Prod.mk.injEq] at this
      obtain ⟨rfl, rfl⟩ := this
      simp only [Bool.and_eq_true, decide_eq_true_eq, beq_iff_eq] at hc
      exact ⟨by simp, trigCtor_sym (hf _ (by simp)) h1, hc⟩
    · obtain ⟨a, b⟩ := trigKey_some (fun f hf' => hf f (by simp [hf'])) h
      exact ⟨by simp [a], b⟩

theorem trigUSub2_some {n : Nat} {v u : Str} {e q g : Expr} (h : trigUSub2 O n v u e = .ok (some (q, g))) :
    ∃ f r d, (f = .sin ∨ f = .cos ∨ f = .tan) ∧ q = trig f (sym v) ∧ 1 ≤ count O q e ∧ count O q e = count O (sym v) e ∧
      replaceOld O n e q (sym u) = .ok r ∧ trigDx O (ctors O n) f (sym u) = .ok d ∧ opMul (ctors O n) r d = .ok g := by
  unfold trigUSub2 at h
  obtain ⟨k, h1, h⟩ := bind_ok.1 h
  cases k with
  | none => have := pure_ok.1 h; simp at this
  | some fq =>
    obtain ⟨f, q'⟩ := fq
    simp only at h
    obtain ⟨r, h2, h⟩ := bind_ok.1 h
    obtain ⟨d, h3, h⟩ := bind_ok.1 h
    obtain ⟨g', h4, h⟩ := bind_ok.1 h
    have := pure_ok.1 h
    simp only [Option.some.injEq, Prod.mk.injEq] at this
    obtain ⟨rfl, rfl⟩ := this
    obtain ⟨a, b, c, d'⟩ := trigKey_some (by simp [TrigFn.isInverse]) h1
    exact ⟨f, r, d, by simpa using a, b, c, d', h2, h3, h4⟩

theorem trigUSub2_ok (hO : O.Exact) {n : Nat} {ρ : Str → ℝ} {u v : Str} {A : Str → Prop} {e q g : Expr}
    (he : Integrand ρ A e) (hv : A v) (hu : ¬A u) (h : trigUSub2 O n v u e = .ok (some (q, g)))
    (hs : q = trig .sin (sym v) → 0 < Real.cos (ρ v)) (hc : q = trig .cos (sym v) → 0 < Real.sin (ρ v))
    (ht : RunTame O (replacePerf O q (sym u)) n e = true) (i k : Nat) :
    Reduces (posed ρ v A e) (fun _ => posedAfter ρ v u A q g) i k (.trigUSub2 q) ∧
      Integrand (pointAfter ρ u q) (scopeAfter A v u) g := by
  obtain ⟨f, r, d, hf, rfl, h1, h2, h3, h4, h5⟩ := trigUSub2_some h
  have hN : O.NoConfusion := ⟨hO.isPi, hO.isE⟩
  have hq : Integrand ρ A (trig f (sym v)) := he.sub ((count_pos_iff hN he.floatFree rfl).1 h1)
  obtain ⟨hr, vr⟩ := swap_ok hO he hq hu ht h3
  have huv : u ≠ v := by rintro rfl; exact hu hv
  have hru : (pointAfter ρ u (trig f (sym v))) u = f.real (ρ v) := by simp [pointAfter, den]
  have hlt : f ≠ .tan → f.real (ρ v) ^ 2 < 1 := by
    intro hft
    rcases hf with rfl | rfl | rfl
    · have := hs rfl; have := Real.sin_sq_add_cos_sq (ρ v); simp only [TrigFn.real]; nlinarith
    · have := hc rfl; have := Real.sin_sq_add_cos_sq (ρ v); simp only [TrigFn.real]; nlinarith
    · exact absurd rfl hft
  obtain ⟨hd, vd⟩ := trigDx_ok hO (ρ := pointAfter ρ u (trig f (sym v))) (A := fun s => s = u ∨ A s) (.inl rfl)
    (by rw [hru]; exact hlt) h4
  rw [hru] at vd
  obtain ⟨hg, vg⟩ := hr.opMul hO hd h5
  have hvr : v ∉ syms g := by
    have hcov := (count_covered hN e he.floatFree).2 h2
    have hr' : ∀ s ∈ syms r, s ≠ v := covered_syms (A := fun s => s ≠ v) rfl (by simpa [syms] using huv) hcov (fun s _ h => h) h3
    have hd' : ∀ s ∈ syms d, s ≠ v := by
      have := (trigDx_ok hO (ρ := pointAfter ρ u (trig f (sym v))) (A := fun s => s ≠ v) huv
        (by rw [hru]; exact hlt) h4).1
      exact this.scope
    intro hm
    exact (adm_syms O (fun s => s ≠ v)).toAdmE.opMul hr' hd' h5 v hm rfl
  have hcos : f = .tan → Real.cos (ρ v) ≠ 0 := by
    rintro rfl
    have := hq.reg.2.1
    simpa [TrigFn.ok, den] using this
  -- the derivative of the substituted function
  have hder : HasDerivAt (fnOf ρ v (trig f (sym v))) (if f = .tan then 1 / Real.cos (ρ v) ^ 2 else
      if f = .cos then -Real.sin (ρ v) else Real.cos (ρ v)) (ρ v) := by
    have hfn : fnOf ρ v (trig f (sym v)) = f.real := by
      funext t; simp [fnOf, den]
    rw [hfn]
    rcases hf with rfl | rfl | rfl
    · have : TrigFn.real .sin = Real.sin := rfl
      simpa [this] using Real.hasDerivAt_sin (ρ v)
    · have : TrigFn.real .cos = Real.cos := rfl
      simpa [this] using Real.hasDerivAt_cos (ρ v)
    · have : TrigFn.real .tan = Real.tan := by funext t; simp [TrigFn.real, Real.tan_eq_sin_div_cos]
      rw [this]
      simpa using Real.hasDerivAt_tan (hcos rfl)
  refine usub_ok hq hv hu hder hg.wf hg.reg hg.scope hvr ?_ rfl i k
  rw [vg, vr, vd]
  have hp := Real.sin_sq_add_cos_sq (ρ v)
  rcases hf with rfl | rfl | rfl
  · have h0 := hs rfl
    have : √(1 - Real.sin (ρ v) ^ 2) = Real.cos (ρ v) := by
      rw [show 1 - Real.sin (ρ v) ^ 2 = Real.cos (ρ v) ^ 2 by linarith, Real.sqrt_sq h0.le]
    simp only [TrigFn.real, this, reduceCtorEq, if_false]
    field_simp
  · have h0 := hc rfl
    have : √(1 - Real.cos (ρ v) ^ 2) = Real.sin (ρ v) := by
      rw [show 1 - Real.cos (ρ v) ^ 2 = Real.sin (ρ v) ^ 2 by linarith, Real.sqrt_sq h0.le]
    simp only [TrigFn.real, this, reduceCtorEq, if_false, if_true]
    field_simp
  · have h0 := hcos rfl
    simp only [TrigFn.real, if_true]
    have : 1 + (Real.sin (ρ v) / Real.cos (ρ v)) ^ 2 = 1 / Real.cos (ρ v) ^ 2 := by
      field_simp; linarith
    rw [this]
    field_simp

/-! ## InverseTrigUSub -/

theorem trigCtor_inv_sym {n : Nat} {v : Str} {f : TrigFn} {r : Expr} (h : trigCtor O n f (sym v) = .ok r) :
    r = trig f (sym v) := by
  cases n with
  | zero => simp [trigCtor] at h
  | succ n => cases f <;> exact (Except.ok.inj h).symm

theorem invKey_some {n : Nat} {v : Str} {e : Expr} : ∀ {fs : List TrigFn} {f : TrigFn}, invKey O n v e fs = .ok (some f) → f ∈ fs
  | [], f, h => by simp [invKey] at h
  | g :: fs, f, h => by
    rw [invKey] at h
    obtain ⟨q', h1, h⟩ := bind_ok.1 h
    split at h
    · have := pure_ok.1 h
      simp only [Option.some.injEq] at this
      simp [this]
    · obtain ⟨m, h2, h⟩ := bind_ok.1 h
      split at h
      · have := pure_ok.1 h
        simp only [Option.some.injEq] at this
        simp [this]
      · exact List.mem_cons_of_mem _ (invKey_some h)

theorem inverseTrigUSub_some {n : Nat} {v u : Str} {e q g : Expr} (h : inverseTrigUSub O n v u e = .ok (some (q, g))) :
    ∃ f r d, (f = .sin ∧ q = trig .asin (sym v) ∨ f = .tan ∧ q = trig .atan (sym v)) ∧ invDx O n f (sym u) = .ok d ∧
      replaceOld O n e (sym v) (trig f (sym u)) = .ok r ∧ opMul (ctors O n) r d = .ok g := by
  unfold inverseTrigUSub at h
  obtain ⟨k, h1, h⟩ := bind_ok.1 h
  cases k with
  | none => have := pure_ok.1 h; simp at this
  | some f =>
    simp only at h
    obtain ⟨d, h2, h⟩ := bind_ok.1 h
    obtain ⟨s, h3, h⟩ := bind_ok.1 h
    obtain ⟨r, h4, h⟩ := bind_ok.1 h
    obtain ⟨g', h5, h⟩ := bind_ok.1 h
    obtain ⟨q', h6, h⟩ := bind_ok.1 h
    have := pure_ok.1 h
    simp only [Option.some.injEq, Prod.mk.injEq] at this
    obtain ⟨rfl, rfl⟩ := this
    have h3' := trigCtor_inv_sym h3
    have h6' := trigCtor_inv_sym h6
    subst h3'
    have hf := invKey_some h1
    simp only [List.mem_cons, List.not_mem_nil, or_false] at hf
    refine ⟨f, r, d, ?_, h2, h4, h5⟩
    rcases hf with rfl | rfl
    · exact .inl ⟨rfl, h6'⟩
    · exact .inr ⟨rfl, h6'⟩

theorem invDx_ok (hO : O.Exact) {n : Nat} {ρ : Str → ℝ} {A : Str → Prop} {u : Str} {f : TrigFn} {d : Expr} (hu : A u)
    (hf : f = .tan → Real.cos (ρ u) ≠ 0) (h : invDx O n f (sym u) = .ok d) : Integrand ρ A d ∧
      den ρ d = if f = .tan then 1 / Real.cos (ρ u) ^ 2 else Real.cos (ρ u) := by
  have gen : trigCtor O n .cos (sym u) = .ok d → Integrand ρ A d ∧ den ρ d = Real.cos (ρ u) := by
    intro h
    rw [trigCtor_inv_sym h]
    exact ⟨⟨by simp [WF], by simp [DomS, TrigFn.ok, TrigFn.inner], by simpa [syms] using hu⟩, rfl⟩
  cases f with
  | tan =>
    have hc := hf rfl
    obtain ⟨s, h1, h⟩ := bind_ok.1 h
    rw [trigCtor_inv_sym h1] at h
    have w : WF (trig .sec (sym u)) := by simp [WF]
    have dm : DomS true ρ (trig .sec (sym u)) := by simp [DomS, TrigFn.ok, TrigFn.inner, den, hc]
    have hC := ctors_sound hO n
    have h2 : PowDomS true ρ (trig .sec (sym u)) (rat 2) := ⟨dm, by simp [DomS], .inr (by simp), fun h => by simp [intExp] at h,
      fun _ => .inr ⟨by simp [intExp], by simp⟩⟩
    obtain ⟨v1, d1⟩ := opPow_V hC w (by simp [WF]) h2 h
    refine ⟨⟨opPow_W hC w (by simp [WF]) h, d1, (adm_syms O A).toAdmE.opPow (by simpa [syms] using hu) (by simp [syms]) h⟩, ?_⟩
    rw [v1]
    have := pw_int (1 / Real.cos (ρ u)) 2
    simp only [den, TrigFn.real, if_true]
    norm_num at this ⊢
    exact this
  | _ => exact gen h

theorem inverseTrigUSub_ok (hO : O.Exact) {n : Nat} {ρ : Str → ℝ} {u v : Str} {A : Str → Prop} {e q g : Expr}
    (he : Integrand ρ A e) (hv : A v) (hu : ¬A u) (h : inverseTrigUSub O n v u e = .ok (some (q, g))) (hq : Regular ρ q)
    (ht : ∀ f, f = .sin ∧ q = trig .asin (sym v) ∨ f = .tan ∧ q = trig .atan (sym v) →
      RunTame O (replacePerf O (sym v) (trig f (sym u))) n e = true) (i k : Nat) :
    Reduces (posed ρ v A e) (fun _ => posedAfter ρ v u A q g) i k (.inverseTrigUSub q) ∧
      Integrand (pointAfter ρ u q) (scopeAfter A v u) g := by
  obtain ⟨f, r, d, hf, h2, h3, h4⟩ := inverseTrigUSub_some h
  have huv : u ≠ v := by rintro rfl; exact hu hv
  have hqi : Integrand ρ A q := ⟨by rcases hf with ⟨-, rfl⟩ | ⟨-, rfl⟩ <;> simp [WF], hq, by
    rcases hf with ⟨-, rfl⟩ | ⟨-, rfl⟩ <;> simpa [syms] using hv⟩
  have hru : (pointAfter ρ u q) u = den ρ q := by simp [pointAfter]
  have hvv : (pointAfter ρ u q) v = ρ v := by simp [pointAfter, huv.symm]
  have hlt : f = .sin → -1 < ρ v ∧ ρ v < 1 := by
    rcases hf with ⟨-, rfl⟩ | ⟨rfl, -⟩
    · intro _
      have := hq.2.2 rfl
      simpa [TrigFn.inner, den] using this
    · simp
  have hfr : f.real (den ρ q) = ρ v := by
    rcases hf with ⟨rfl, rfl⟩ | ⟨rfl, rfl⟩
    · have := hlt rfl
      simp only [TrigFn.real, den]
      exact Real.sin_arcsin this.1.le this.2.le
    · simp only [TrigFn.real, den]
      rw [← Real.tan_eq_sin_div_cos, Real.tan_arctan]
  have hfc : f = .tan → Real.cos (den ρ q) ≠ 0 := by
    rcases hf with ⟨rfl, rfl⟩ | ⟨rfl, rfl⟩
    · simp
    · intro _
      simp only [den, TrigFn.real]
      exact (Real.cos_arctan_pos _).ne'
  -- the new function at the new point
  have dw : DomS true (pointAfter ρ u q) (trig f (sym u)) := by
    rcases hf with ⟨rfl, -⟩ | ⟨rfl, -⟩
    · simp [DomS, TrigFn.ok, TrigFn.inner]
    · have := hfc rfl
      simp only [DomS, TrigFn.ok, TrigFn.inner, den, hru]
      exact ⟨trivial, this, fun _ => trivial⟩
  have hpt : upd (pointAfter ρ u q) v (den (pointAfter ρ u q) (trig f (sym u))) = pointAfter ρ u q := by
    have : den (pointAfter ρ u q) (trig f (sym u)) = (pointAfter ρ u q) v := by
      simp only [den, hru, hfr, hvv]
    rw [this]; simp [upd]
  obtain ⟨d1, v1⟩ := he.after (q := q) hu
  have ww : WF (trig f (sym u)) := by simp [WF]
  obtain ⟨wr, dr, vr⟩ := subst_at hO (σ := pointAfter ρ u q) he.wf ww dw (by rw [hpt]; exact d1)
    (substOk_of_run hO he.wf ww (ht f hf)) h3
  rw [hpt, v1] at vr
  have sr : ∀ s ∈ syms r, scopeAfter A v u s := by
    refine subst_syms (u := v) (by simp [syms, scopeAfter]) (fun s hs => ?_) h3
    by_cases hsv : s = v
    · exact .inl hsv
    · exact .inr (.inr ⟨he.scope s hs, hsv⟩)
  have hr : Integrand (pointAfter ρ u q) (scopeAfter A v u) r := ⟨wr, dr, sr⟩
  obtain ⟨hd, vd⟩ := invDx_ok hO (ρ := pointAfter ρ u q) (A := scopeAfter A v u) (.inl rfl)
    (by rw [hru]; exact hfc) h2
  obtain ⟨hg, vg⟩ := hr.opMul hO hd h4
  have hder : HasDerivAt (fnOf ρ v q) (if f = .tan then 1 / (1 + ρ v ^ 2) else 1 / √(1 - ρ v ^ 2)) (ρ v) := by
    rcases hf with ⟨rfl, rfl⟩ | ⟨rfl, rfl⟩
    · have hfn : fnOf ρ v (trig .asin (sym v)) = Real.arcsin := by funext t; simp [fnOf, den, TrigFn.real]
      have := hlt rfl
      rw [hfn]
      simpa using Real.hasDerivAt_arcsin (x := ρ v) (by linarith) (by linarith)
    · have hfn : fnOf ρ v (trig .atan (sym v)) = Real.arctan := by funext t; simp [fnOf, den, TrigFn.real]
      rw [hfn]
      simpa using Real.hasDerivAt_arctan (ρ v)
  refine usub_ok hqi hv hu hder hg.wf hg.reg (fun s hs => (hg.scope s hs).imp id And.left) ?_ ?_ rfl i k
  · intro hm
    rcases hg.scope v hm with h | h
    · exact huv h.symm
    · exact h.2 rfl
  rw [vg, vr, vd, hru]
  rcases hf with ⟨rfl, rfl⟩ | ⟨rfl, rfl⟩
  · have := hlt rfl
    have h0 : 0 < 1 - ρ v ^ 2 := by nlinarith
    have h1 := (Real.sqrt_pos.2 h0).ne'
    simp only [den, TrigFn.real, reduceCtorEq, if_false, Real.cos_arcsin]
    field_simp
  · have h0 := (Real.cos_arctan_pos (ρ v)).ne'
    simp only [den, TrigFn.real, if_true, Real.cos_sq_arctan]
    field_simp

/-! ## LinearUSub -/

/-- What the state of a `LinearUSub` object is: either a subexpression, or `c * v`. -/
def LinInv (O : Oracle) (n : Nat) (v : Str) (ρ : Str → ℝ) (A : Str → Prop) (s : LinState) : Prop :=
  ∀ w, s.1 = some w → (s.2 = none → Integrand ρ A w) ∧
    ∀ ic, s.2 = some ic → WF ic ∧ (∀ s ∈ syms ic, A s) ∧ opMul (ctors O n) ic (sym v) = .ok w

theorem linearShape_inv (hO : O.Exact) {n : Nat} {v : Str} {ρ : Str → ℝ} {A : Str → Prop} {e : Expr} {w : Expr}
    {o : Option Expr} (hv : A v) (he : Integrand ρ A e) (h : linearShape O n v e = .ok (some (w, o))) :
    LinInv O n v ρ A (some w, o) := by
  have hW := adm_WF hO
  have hA := adm_syms O A
  have wv : WF (sym v) := by simp [WF]
  have self : LinInv O n v ρ A (some e, none) := by
    intro w hw
    cases hw
    exact ⟨fun _ => he, fun ic h => by cases h⟩
  cases e with
  | sum ts =>
    simp only [linearShape] at h
    obtain ⟨b, h1, h⟩ := bind_ok.1 h
    split at h
    · have := pure_ok.1 h
      simp only [Option.some.injEq, Prod.mk.injEq] at this
      obtain ⟨rfl, rfl⟩ := this
      exact self
    · have := pure_ok.1 h
      simp at this
  | prod ts =>
    simp only [linearShape] at h
    obtain ⟨q, h1, h⟩ := bind_ok.1 h
    split at h
    · have := pure_ok.1 h
      simp only [Option.some.injEq, Prod.mk.injEq] at this
      obtain ⟨rfl, rfl⟩ := this
      exact self
    obtain ⟨e', h2, h⟩ := bind_ok.1 h
    obtain ⟨xyz, h3, h⟩ := bind_ok.1 h
    have he' : WF e' ∧ ∀ s ∈ syms e', A s := by
      unfold negIfSub at h2
      split at h2
      · exact ⟨hW.toAdmE.opNeg he.wf h2, hA.toAdmE.opNeg he.scope h2⟩
      · cases h2; exact ⟨he.wf, he.scope⟩
    have w3 := removeConstFactor_W he'.1 h3
    have s3 := removeConstFactor_Q (closed_syms A) he'.2 h3
    have no : ∀ {w : Expr} {o : Option Expr}, (pure none : R (Option (Expr × Option Expr))) = .ok (some (w, o)) → False := by
      intro w o h; have := pure_ok.1 h; simp at this
    cases xyz with
    | pow b x =>
      simp only at h
      split at h
      · obtain ⟨c, h4, h⟩ := bind_ok.1 h
        split at h
        · exact absurd h no
        obtain ⟨a, h5, h⟩ := bind_ok.1 h
        obtain ⟨j, h6, h⟩ := bind_ok.1 h
        obtain ⟨ic, h7, h⟩ := bind_ok.1 h
        obtain ⟨w', h8, h⟩ := bind_ok.1 h
        have := pure_ok.1 h
        simp only [Option.some.injEq, Prod.mk.injEq] at this
        obtain ⟨rfl, rfl⟩ := this
        have wc := hW.toAdmE.opDiv he'.1 w3 h4
        have sc := hA.toAdmE.opDiv he'.2 s3 h4
        have ha : WF a ∧ ∀ s ∈ syms a, A s := by
          unfold absIfNum at h5
          split at h5
          · exact ⟨(hW.pres n).abs _ _ wc h5, (hA.pres n).abs _ _ sc h5⟩
          · cases h5; exact ⟨wc, sc⟩
        have wx : WF x := w3.2.1
        have sx : ∀ s ∈ syms x, A s := fun s hs => s3 s (by simp [syms, hs])
        have wj := hW.toAdmE.opDiv (hW.toAdmE.rat 1) wx h6
        have sj := hA.toAdmE.opDiv (hA.toAdmE.rat 1) sx h6
        intro w hw
        cases hw
        refine ⟨fun h => (by cases h), fun ic' h => ?_⟩
        cases h
        exact ⟨(hW.pres n).pow _ _ _ ha.1 wj h7, (hA.pres n).pow _ _ _ ha.2 sj h7, h8⟩
      · exact absurd h no
    | _ => exact absurd h no
  | _ => simp [linearShape] at h

theorem linPre_inv (hO : O.Exact) {n : Nat} {v : Str} {ρ : Str → ℝ} {A : Str → Prop} {e : Expr} {s s' : LinState} {b : Bool}
    (hv : A v) (he : Integrand ρ A e) (hs : LinInv O n v ρ A s) (h : linPre O n v e s = .ok (some (b, s'))) :
    LinInv O n v ρ A s' := by
  unfold linPre at h
  split at h
  · simp only [Except.ok.injEq, Option.some.injEq, Prod.mk.injEq] at h
    obtain ⟨-, rfl⟩ := h
    exact hs
  · obtain ⟨k, h1, h⟩ := bind_ok.1 h
    have := pure_ok.1 h
    cases k with
    | none => simp [linVerdict] at this
    | some wo =>
      obtain ⟨w, o⟩ := wo
      simp only [linVerdict] at this
      split at this
      · simp only [Option.some.injEq, Prod.mk.injEq] at this
        obtain ⟨-, rfl⟩ := this
        exact hs
      · simp only [Option.some.injEq, Prod.mk.injEq] at this
        obtain ⟨-, rfl⟩ := this
        exact linearShape_inv hO hv he h1

mutual
theorem linCheck_inv (hO : O.Exact) {n : Nat} {v : Str} {ρ : Str → ℝ} {A : Str → Prop} (hv : A v) :
    ∀ {e : Expr} {s s' : LinState} {b : Bool}, Integrand ρ A e → LinInv O n v ρ A s →
    linCheck O n v e s = .ok (b, s') → LinInv O n v ρ A s' := by
  intro e s s' b he hs h
  have pre := fun {b s'} => linPre_inv hO (n := n) hv he hs (b := b) (s' := s')
  cases e with
  | sum ts =>
    simp only [linCheck] at h
    split at h
    · cases h
    · next r hr => cases h; exact pre hr
    · exact linCheckL_inv hO hv (fun t ht => he.child ht) hs h
  | prod ts =>
    simp only [linCheck] at h
    split at h
    · cases h
    · next r hr => cases h; exact pre hr
    · exact linCheckL_inv hO hv (fun t ht => he.child ht) hs h
  | pow b x =>
    simp only [linCheck] at h
    split at h
    · cases h
    · next r hr => cases h; exact pre hr
    · split at h
      · cases h
      · next s1 h1 =>
        exact linCheck_inv hO hv (he.child (by simp [Expr.children])) (linCheck_inv hO hv (he.child (by simp [Expr.children])) hs h1) h
      · next s1 h1 => cases h; exact linCheck_inv hO hv (he.child (by simp [Expr.children])) hs h1
  | log b x =>
    simp only [linCheck] at h
    split at h
    · cases h
    · next r hr => cases h; exact pre hr
    · split at h
      · cases h
      · next s1 h1 =>
        exact linCheck_inv hO hv (he.child (by simp [Expr.children])) (linCheck_inv hO hv (he.child (by simp [Expr.children])) hs h1) h
      · next s1 h1 => cases h; exact linCheck_inv hO hv (he.child (by simp [Expr.children])) hs h1
  | trig f i =>
    simp only [linCheck] at h
    split at h
    · cases h
    · next r hr => cases h; exact pre hr
    · exact linCheck_inv hO hv (he.child (by simp [Expr.children])) hs h
  | absv i =>
    simp only [linCheck] at h
    split at h
    · cases h
    · next r hr => cases h; exact pre hr
    · exact linCheck_inv hO hv (he.child (by simp [Expr.children])) hs h
  | _ =>
    simp only [linCheck] at h
    split at h
    · cases h
    · next r hr => cases h; exact pre hr
    · cases h; exact hs
theorem linCheckL_inv (hO : O.Exact) {n : Nat} {v : Str} {ρ : Str → ℝ} {A : Str → Prop} (hv : A v) :
    ∀ {ts : List Expr} {s s' : LinState} {b : Bool}, (∀ t ∈ ts, Integrand ρ A t) → LinInv O n v ρ A s →
    linCheckL O n v ts s = .ok (b, s') → LinInv O n v ρ A s' := by
  intro ts s s' b he hs h
  cases ts with
  | nil => simp only [linCheckL] at h; cases h; exact hs
  | cons t r =>
    simp only [linCheckL] at h
    split at h
    · cases h
    · next s1 h1 =>
      exact linCheckL_inv hO hv (fun t ht => he t (by simp [ht])) (linCheck_inv hO hv (he t (by simp)) hs h1) h
    · next s1 h1 => cases h; exact linCheck_inv hO hv (he t (by simp)) hs h1
end

theorem linearUSub_some {n : Nat} {v u : Str} {e q g : Expr} (h : linearUSub O n v u e = .ok (some (q, g))) :
    ∃ o d r, linCheck O n v e (none, none) = .ok (true, some q, o) ∧ diffE O n v q = .ok d ∧
      (o = none → replaceOld O n e q (sym u) = .ok r) ∧
      (∀ ic, o = some ic → ∃ w, opDiv (ctors O n) (sym u) ic = .ok w ∧ replaceOld O n e (sym v) w = .ok r) ∧
      opDiv (ctors O n) r d = .ok g := by
  unfold linearUSub at h
  split at h
  · cases h
  obtain ⟨⟨b, s, o⟩, h1, h⟩ := bind_ok.1 h
  simp only at h
  split at h
  · next hb =>
    subst hb
    cases s with
    | none => cases h
    | some q' =>
      simp only at h
      obtain ⟨d, h2, h⟩ := bind_ok.1 h
      obtain ⟨r, h3, h⟩ := bind_ok.1 h
      obtain ⟨g', h4, h⟩ := bind_ok.1 h
      have := pure_ok.1 h
      simp only [Option.some.injEq, Prod.mk.injEq] at this
      obtain ⟨rfl, rfl⟩ := this
      refine ⟨o, d, r, h1, h2, ?_, ?_, h4⟩
      · rintro rfl; exact h3
      · rintro ic rfl
        obtain ⟨w, h5, h3⟩ := bind_ok.1 h3
        exact ⟨w, h5, h3⟩
  · have := pure_ok.1 h
    simp at this

/-- `LinearUSub`. When the object keeps an inverse change of variable `u ↦ u / c`, then `c` must be defined and not 0. -/
theorem linearUSub_ok (hO : O.Exact) {n : Nat} {ρ : Str → ℝ} {u v : Str} {A : Str → Prop} {e q g : Expr}
    (he : Integrand ρ A e) (hv : A v) (hu : ¬A u) (h : linearUSub O n v u e = .ok (some (q, g)))
    (hok : DiffOk O ρ v n q) (hq0 : deriv (fnOf ρ v q) (ρ v) ≠ 0) (hg : v ∉ syms g)
    (ht1 : linCheck O n v e (none, none) = .ok (true, some q, none) → RunTame O (replacePerf O q (sym u)) n e = true)
    (ht2 : ∀ ic w, linCheck O n v e (none, none) = .ok (true, some q, some ic) → opDiv (ctors O n) (sym u) ic = .ok w →
      RunTame O (replacePerf O (sym v) w) n e = true ∧ Regular ρ ic ∧ den ρ ic ≠ 0) (i k : Nat) :
    Reduces (posed ρ v A e) (fun _ => posedAfter ρ v u A q g) i k (.linearUSub q) ∧
      Integrand (pointAfter ρ u q) (scopeAfter A v u) g := by
  obtain ⟨o, d, r, h1, h2, h3, h4, h5⟩ := linearUSub_some h
  have hinv := linCheck_inv hO hv he (n := n) (s := (none, none)) (fun w hw => by cases hw) h1 q rfl
  have huv : u ≠ v := by rintro rfl; exact hu hv
  cases o with
  | none =>
    have hq := hinv.1 rfl
    have hd := (diff_sound hO n hq.wf hq.reg hok h2).deriv
    refine swap_div hO he hq hv hu hok h2 ?_ (ht1 h1) (h3 rfl) h5 hg rfl i k
    have : deriv (fnOf ρ v q) (ρ v) = den ρ d := hd.deriv
    rwa [this] at hq0
  | some ic =>
    obtain ⟨wic, sic, hmul⟩ := hinv.2 ic rfl
    obtain ⟨w, h6, h7⟩ := h4 ic rfl
    obtain ⟨ht, dic, ic0⟩ := ht2 ic w h1 h6
    have hic : Integrand ρ A ic := ⟨wic, dic, sic⟩
    obtain ⟨hq, vq⟩ := hic.opMul hO (.sym hv) hmul
    simp only [den] at vq
    have hdd := diff_sound hO n hq.wf hq.reg hok h2
    have hdi : Integrand ρ A d := ⟨hdd.wf, hdd.dom, Adm.diffE (adm_syms O A) n hq.scope h2⟩
    have hd0 : den ρ d ≠ 0 := by
      have : deriv (fnOf ρ v q) (ρ v) = den ρ d := hdd.deriv.deriv
      rwa [this] at hq0
    -- the new function at the new point
    obtain ⟨d1, v1⟩ := he.after (q := q) hu
    obtain ⟨d2, v2⟩ := hic.after (q := q) hu
    obtain ⟨d3, v3⟩ := hdi.after (q := q) hu
    have hu' : Integrand (pointAfter ρ u q) (fun s => s = u ∨ A s) (sym u) := .sym (.inl rfl)
    have hic' : Integrand (pointAfter ρ u q) (fun s => s = u ∨ A s) ic := ⟨wic, d2, fun s hs => .inr (sic s hs)⟩
    obtain ⟨hw, vw⟩ := hu'.opDiv hO hic' (by rwa [v2]) h6
    have hpt : upd (pointAfter ρ u q) v (den (pointAfter ρ u q) w) = pointAfter ρ u q := by
      have : den (pointAfter ρ u q) w = (pointAfter ρ u q) v := by
        rw [vw, v2]
        simp only [den, pointAfter, Function.update_self, Function.update_of_ne huv.symm, vq]
        field_simp
      rw [this]; simp [upd]
    obtain ⟨wr, dr, vr⟩ := subst_at hO (σ := pointAfter ρ u q) he.wf hw.wf hw.reg (by rw [hpt]; exact d1)
      (substOk_of_run hO he.wf hw.wf ht) h7
    rw [hpt, v1] at vr
    have sr : ∀ s ∈ syms r, s = u ∨ A s := subst_syms (u := v) hw.scope (fun s hs => .inr (.inr (he.scope s hs))) h7
    have hr : Integrand (pointAfter ρ u q) (fun s => s = u ∨ A s) r := ⟨wr, dr, sr⟩
    have hd' : Integrand (pointAfter ρ u q) (fun s => s = u ∨ A s) d := ⟨hdi.wf, d3, fun s hs => .inr (hdi.scope s hs)⟩
    obtain ⟨hg', vg⟩ := hr.opDiv hO hd' (by rwa [v3]) h5
    refine usub_ok hq hv hu hdd.deriv hg'.wf hg'.reg hg'.scope hg ?_ rfl i k
    rw [vg, vr, v3]
    field_simp

end Simpy
