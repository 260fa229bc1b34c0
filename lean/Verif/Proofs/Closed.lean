import Verif.Proofs.TrigSound
import Verif.Spec.Built
import Verif.Spec.Canon
import Verif.Proofs.Level

/-!
A predicate on expressions that is decided by the leaves (`Closed`) is preserved by every constructor at every
recursion depth. Used for "no operation invents symbols", "no logs appear from nowhere", and so on.
-/

namespace Simpy
open Expr

/-- `Q` holds of every number and passes through sums, products, powers and absolute values both ways. Exponents satisfy
`X`, which is `Q` itself or "is an integer literal". -/
structure Closed (Q : Expr → Prop) (X : Expr → Prop := Q) : Prop where
  acc : ∀ {c : Expr}, c.isAcc = true → Q c
  sum : ∀ {ts : List Expr}, Q (sum ts) ↔ ∀ t ∈ ts, Q t
  prod : ∀ {ts : List Expr}, Q (prod ts) ↔ ∀ t ∈ ts, Q t
  pow : ∀ {b x : Expr}, Q (pow b x) ↔ Q b ∧ X x
  x : X = Q ∨ ∀ x, X x ↔ intExp x = true
  absv : ∀ {i : Expr}, Q (absv i) ↔ Q i
  log : ∀ {i b : Expr}, Q (log i b) → Q i ∧ Q b
  trig : ∀ {f : TrigFn} {i : Expr}, Q (trig f i) → Q i

/-- Floating point is exact and products satisfying `Q` are canonical. -/
def ProdsCanon (O : Oracle) (Q : Expr → Prop) : Prop := O.Exact ∧ ∀ ts, Q (Expr.prod ts) → ProdCanon O ts

/-- Moreover the factors of products satisfying `Q` are in order. -/
def ProdsOrd (O : Oracle) (Q : Expr → Prop) : Prop := ProdsCanon O Q ∧ ∀ ts, Q (Expr.prod ts) → ts.Pairwise Before

/-- `Q` is hereditary: it passes to the parts of an expression, holds of every number, and of sums, products and powers of
expressions satisfying it, at least if they are canonical and in order
(that is, if `Q` itself guarantees that products are). -/
structure ClosedG (O : Oracle) (Q X : Expr → Prop) : Prop where
  acc : ∀ {c : Expr}, c.isAcc = true → Q c
  sumE : ∀ {ts : List Expr}, Q (sum ts) → ∀ t ∈ ts, Q t
  prodE : ∀ {ts : List Expr}, Q (prod ts) → ∀ t ∈ ts, Q t
  powE : ∀ {b x : Expr}, Q (pow b x) → Q b ∧ X x
  sumI : ∀ {ts : List Expr}, (ProdsCanon O Q → SumCanon O ts) → ts.Pairwise (fun a b => Before b a) → (∀ t ∈ ts, Q t) → Q (sum ts)
  prodI : ∀ {ts : List Expr}, (ProdsCanon O Q → ProdCanon O ts) → (ProdsOrd O Q → ts.Pairwise Before) → (∀ t ∈ ts, Q t) → Q (prod ts)
  powI : ∀ {b x : Expr}, (ProdsCanon O Q → PowCanon O x) → (b.isSubtraction = true → intExp x = true → b.isAcc = true) →
    Q b → X x → Q (pow b x)
  x : X = Q ∨ ∀ x, X x ↔ intExp x = true
  absvE : ∀ {i : Expr}, Q (absv i) → Q i
  absvI : ∀ {i : Expr}, Q i → Q (absv i)
  log : ∀ {i b : Expr}, Q (log i b) → Q i ∧ Q b
  trig : ∀ {f : TrigFn} {i : Expr}, Q (trig f i) → Q i

theorem Closed.g {Q X : Expr → Prop} (h : Closed Q X) (O : Oracle) : ClosedG O Q X where
  acc := h.acc
  sumE := h.sum.1
  prodE := h.prod.1
  powE := h.pow.1
  sumI := fun _ _ => h.sum.2
  prodI := fun _ _ => h.prod.2
  powI := fun _ _ a b => h.pow.2 ⟨a, b⟩
  x := h.x
  absvE := h.absv.1
  absvI := h.absv.2
  log := h.log
  trig := h.trig

/-- The constructors of `C` preserve `Q`. -/
structure Pres (Q : Expr → Prop) (C : Ctors) (X : Expr → Prop := Q) : Prop where
  sum : ∀ (ts : List Expr) (r : Expr), (∀ t ∈ ts, Q t) → C.sum ts = .ok r → Q r
  prod : ∀ (ts : List Expr) (r : Expr), (∀ t ∈ ts, Q t) → C.prod ts = .ok r → Q r
  pow : ∀ (b x r : Expr), Q b → X x → C.pow b x = .ok r → Q r
  abs : ∀ (i r : Expr), Q i → C.abs i = .ok r → Q r

section
variable {O : Oracle} {Q X : Expr → Prop} (hQ : ClosedG O Q X) {C : Ctors}
include hQ

theorem ClosedG.rat (q : ℚ) : Q (rat q) := hQ.acc rfl
theorem ClosedG.xint (k : ℤ) : X (Expr.rat k) := by
  rcases hQ.x with h | h
  · rw [h]; exact hQ.rat _
  · rw [h]; simp [intExp]
theorem ClosedG.const (v : PyNum) : Q (const v) := hQ.acc (by cases v <;> rfl)

theorem mkProdSkip_G {ts : List Expr} {r : Expr} (h : mkProdSkip ts = .ok r)
    (hc : ProdsCanon O Q → 2 ≤ ts.length → ProdCanon O ts) (ho : ProdsOrd O Q → ts.Pairwise Before) (hW : ∀ t ∈ ts, Q t) : Q r := by
  match ts, h with
  | [], h => simp only [mkProdSkip, Except.ok.injEq] at h; subst h; exact hQ.rat 1
  | [t], h =>
    simp only [mkProdSkip] at h
    split at h
    · simp at h
    · simp only [Except.ok.injEq] at h; subst h; exact hW t (by simp)
  | a :: b :: ts, h =>
    simp only [mkProdSkip, Except.ok.injEq] at h; subst h
    exact hQ.prodI (fun k => hc k (by simp)) ho hW

omit hQ in
theorem prodCanon_nonAcc {ts : List Expr} (h2 : 2 ≤ ts.length) (hn : ∀ t ∈ ts, t.isAcc = false) : ProdCanon O ts :=
  ⟨h2, by rw [List.filter_eq_nil_iff.2 (by simpa using hn)]; simp, fun c hc ha => by simp [hn c hc] at ha⟩

omit hQ in
theorem prodCanon_cons {c : Expr} {ts : List Expr} (h2 : 1 ≤ ts.length) (hn : ∀ t ∈ ts, t.isAcc = false)
    (hc : c.isAcc = true → beq O c (Expr.rat 0) = false ∧ beq O c (Expr.rat 1) = false) : ProdCanon O (c :: ts) := by
  refine ⟨by simpa using h2, ?_, ?_⟩
  · have := (List.filter_eq_nil_iff (p := isAcc) (l := ts)).2 (by simpa using hn)
    simp only [List.filter_cons, this]
    split <;> simp
  · intro d hd ha
    rcases List.mem_cons.1 hd with rfl | hd
    · exact hc ha
    · simp [hn d hd] at ha

omit hQ in
theorem ProdCanon.sub {ts us : List Expr} (h : ProdCanon O ts) (hs : us.Sublist ts) (h2 : 2 ≤ us.length) : ProdCanon O us :=
  ⟨h2, ((hs.filter _).length_le).trans h.2.1, fun c hc => h.2.2 c (hs.subset hc)⟩

omit hQ in
theorem ProdCanon.nonAcc {ts : List Expr} (h : ProdCanon O ts) : 1 ≤ (ts.filter fun t => !t.isAcc).length := by
  have := List.length_eq_length_filter_add (l := ts) isAcc
  have h1 := h.1
  have h2 := h.2.1
  omega

omit hQ in
theorem deconProd_snd (t : Expr) : (deconProd t).2 = nonNumFactors t := by
  cases t <;> rfl

theorem deconProd_G {t : Expr} (hW : Q t) : (∀ c ∈ (deconProd t).1, c.isAcc = true) ∧
    (∀ c ∈ (deconProd t).2, Q c) := by
  cases t with
  | prod ts =>
    have hW' := hQ.prodE hW
    simp only [deconProd]
    refine ⟨?_, ?_⟩
    · intro c hc
      split at hc
      · simp only [List.mem_singleton] at hc; subst hc; rfl
      · simp only [List.mem_filter] at hc; exact hc.2
    · intro c hc
      exact hW' c (List.mem_filter.1 hc).1
  | _ => simp_all [deconProd, isAcc]

theorem likeTerm_G {coeffs ncf : List Expr} {o : Option Expr}
    (hc : ∀ c ∈ coeffs, c.isAcc = true) (hn : ∀ c ∈ ncf, Q c)
    (hk : ProdsCanon O Q → 1 ≤ ncf.length ∧ ∀ c ∈ ncf, c.isAcc = false) (ho : ProdsOrd O Q → ncf.Pairwise Before)
    (h : likeTerm O coeffs ncf = .ok o) : (∀ t ∈ o.toList, Q t) ∧
      (ProdsCanon O Q → ∀ t ∈ o.toList, t.isAcc = false ∧ nonNumFactors t = ncf) := by
  simp only [likeTerm, bind_ok] at h
  obtain ⟨c, hca, h⟩ := h
  have hcacc := accumulateSum_isAcc hc hca
  split at h
  · simp only [pure_ok] at h; subst h; simp
  · next h0 =>
    split at h
    · obtain ⟨t, ht, h⟩ := bind_ok.1 h
      simp only [pure_ok] at h; subst h
      refine ⟨by simpa using mkProdSkip_G hQ ht (fun k h2 => prodCanon_nonAcc h2 (hk k).2) ho hn, fun k => ?_⟩
      obtain ⟨k1, k2⟩ := hk k
      simp only [Option.toList_some, List.mem_singleton, forall_eq]
      match ncf, ht with
      | [], _ => simp at k1
      | [u], ht =>
        simp only [mkProdSkip] at ht
        split at ht
        · simp at ht
        · next hp =>
          simp only [Except.ok.injEq] at ht; subst ht
          refine ⟨k2 u (by simp), ?_⟩
          cases u <;> simp [isProd] at hp <;> rfl
      | a :: b :: us, ht =>
        simp only [mkProdSkip, Except.ok.injEq] at ht; subst ht
        refine ⟨rfl, ?_⟩
        simp only [nonNumFactors, List.filter_eq_self]
        intro t ht; simp [k2 t ht]
    · next h1 =>
      obtain ⟨t, ht, h⟩ := bind_ok.1 h
      simp only [pure_ok] at h; subst h
      refine ⟨by
        simpa using mkProdSkip_G hQ ht (fun k h2 => prodCanon_cons (hk k).1 (hk k).2 (fun _ => ⟨by simpa using h0, by simpa using h1⟩))
          (fun k => List.pairwise_cons.2 ⟨fun t ht => before_acc hcacc ((hk k.1).2 t ht), ho k⟩) (by
          intro t ht; rcases List.mem_cons.1 ht with rfl | ht
          · exact hQ.acc hcacc
          · exact hn t ht), fun k => ?_⟩
      obtain ⟨k1, k2⟩ := hk k
      simp only [Option.toList_some, List.mem_singleton, forall_eq]
      match ncf, ht with
      | [], _ => simp at k1
      | a :: us, ht =>
        simp only [mkProdSkip, Except.ok.injEq] at ht; subst ht
        refine ⟨rfl, ?_⟩
        simp only [nonNumFactors]
        rw [List.filter_cons_of_neg (by simp [hcacc]), List.filter_eq_self]
        intro t ht; simp [k2 t ht]

omit hQ in
theorem nonNumFactors_ok (k : ProdsCanon O Q) {t : Expr} (ht : Q t) (ha : t.isAcc = false) :
    1 ≤ (nonNumFactors t).length ∧ ∀ c ∈ nonNumFactors t, c.isAcc = false := by
  cases t with
  | prod ts =>
    refine ⟨(k.2 ts ht).nonAcc, ?_⟩
    intro c hc
    simpa [nonNumFactors] using (List.mem_filter.1 hc).2
  | _ => simp_all [nonNumFactors]

theorem combineSumLoop_G : ∀ (n : Nat) (ts nc cs : List Expr),
    (∀ t ∈ ts, Q t) → combineSumLoop O n ts = .ok (nc, cs) →
    (∀ t ∈ nc, Q t) ∧ (∀ c ∈ cs, c.isAcc = true) ∧ (ProdsCanon O Q →
      (∀ u ∈ nc, u.isAcc = false ∧ ∃ w ∈ ts, nonNumFactors u = nonNumFactors w) ∧ nc.Pairwise (Unlike O))
  | 0, ts, nc, cs, _, h => by
    simp only [combineSumLoop, Except.ok.injEq, Prod.mk.injEq] at h
    simp [← h.1, ← h.2]
  | n + 1, [], nc, cs, _, h => by
    simp only [combineSumLoop, Except.ok.injEq, Prod.mk.injEq] at h
    simp [← h.1, ← h.2]
  | n + 1, t :: r, nc, cs, hW, h => by
    have hWr : ∀ t ∈ r, Q t := fun t ht => hW t (by simp [ht])
    have hWt := hW t (by simp)
    simp only [combineSumLoop] at h
    split at h
    · next hacc =>
      obtain ⟨⟨nc', cs'⟩, h', hp⟩ := bind_ok.1 h
      simp only [pure_ok, Prod.mk.injEq] at hp
      obtain ⟨e2, e3, e4⟩ := combineSumLoop_G n r nc' cs' hWr h'
      rw [← hp.1, ← hp.2]
      refine ⟨e2, ?_, fun k => ⟨fun u hu => ?_, (e4 k).2⟩⟩
      · intro c hc
        rcases List.mem_cons.1 hc with rfl | hc
        · exact hacc
        · exact e3 c hc
      · obtain ⟨a, w, hw, e⟩ := (e4 k).1 u hu
        exact ⟨a, w, by simp [hw], e⟩
    · next hacc =>
      have hWf : ∀ u ∈ r.filter (fun u => !beqL O (deconProd t).2 (deconProd u).2), Q u :=
        fun u hu => hWr u (List.mem_filter.1 hu).1
      have hun : ∀ (v : Expr) (nc' : List Expr), nonNumFactors v = nonNumFactors t → v.isAcc = false →
          ((∀ u ∈ nc', u.isAcc = false ∧ ∃ w ∈ r.filter (fun u => !beqL O (deconProd t).2 (deconProd u).2),
            nonNumFactors u = nonNumFactors w) ∧ nc'.Pairwise (Unlike O)) →
          (∀ u ∈ v :: nc', u.isAcc = false ∧ ∃ w ∈ t :: r, nonNumFactors u = nonNumFactors w) ∧
            (v :: nc').Pairwise (Unlike O) := by
        intro v nc' hv hva ⟨f1, f2⟩
        refine ⟨?_, List.pairwise_cons.2 ⟨?_, f2⟩⟩
        · intro u hu
          rcases List.mem_cons.1 hu with rfl | hu
          · exact ⟨hva, t, by simp, hv⟩
          · obtain ⟨a, w, hw, e⟩ := f1 u hu
            exact ⟨a, w, by simp [(List.mem_filter.1 hw).1], e⟩
        · intro u hu ⟨g1, _⟩
          obtain ⟨a, w, hw, e⟩ := f1 u hu
          have := (List.mem_filter.1 hw).2
          rw [deconProd_snd, deconProd_snd, ← e, ← hv, g1] at this
          simp at this
      split at h
      · obtain ⟨⟨nc', cs'⟩, h', hp⟩ := bind_ok.1 h
        simp only [pure_ok, Prod.mk.injEq] at hp
        obtain ⟨e2, e3, e4⟩ := combineSumLoop_G n _ nc' cs' hWf h'
        rw [← hp.1, ← hp.2]
        refine ⟨?_, e3, fun k => hun t nc' rfl (by simpa using hacc) (e4 k)⟩
        intro u hu
        rcases List.mem_cons.1 hu with rfl | hu
        · exact hWt
        · exact e2 u hu
      · obtain ⟨o, ho, h⟩ := bind_ok.1 h
        obtain ⟨⟨nc', cs'⟩, h', hp⟩ := bind_ok.1 h
        simp only [pure_ok, Prod.mk.injEq] at hp
        obtain ⟨e2, e3, e4⟩ := combineSumLoop_G n _ nc' cs' hWf h'
        rw [← hp.1, ← hp.2]
        obtain ⟨d1, d2⟩ := deconProd_G hQ hWt
        obtain ⟨l1, l2⟩ := likeTerm_G hQ (by
          intro c hc
          rcases List.mem_append.1 hc with hc | hc
          · exact d1 c hc
          · simp only [List.mem_flatten, List.mem_map] at hc
            obtain ⟨_, ⟨w, hw, rfl⟩, hc⟩ := hc
            exact (deconProd_G hQ (hWr w (List.mem_filter.1 hw).1)).1 c hc) d2
          (fun k => by rw [deconProd_snd]; exact nonNumFactors_ok k hWt (by simpa using hacc))
          (fun k => by
            rw [deconProd_snd]
            cases t with
            | prod us => exact (k.2 us hWt).filter _
            | _ => exact List.pairwise_singleton _ _) ho
        refine ⟨?_, e3, fun k => ?_⟩
        · intro u hu
          rcases List.mem_append.1 hu with hu | hu
          · exact l1 u hu
          · exact e2 u hu
        · cases o with
          | none =>
            obtain ⟨f1, f2⟩ := e4 k
            refine ⟨fun u hu => ?_, f2⟩
            obtain ⟨a, w, hw, e⟩ := f1 u hu
            exact ⟨a, w, by simp [(List.mem_filter.1 hw).1], e⟩
          | some v =>
            obtain ⟨g1, g2⟩ := l2 k v (by simp)
            exact hun v nc' (by rw [g2, deconProd_snd]) g1 (e4 k)

mutual
theorem flatS_G : ∀ t : Expr, Q t → ∀ u ∈ flatS t, Q u := by
  intro t ht
  cases t with
  | sum ts => simp only [flatS]; exact flatSL_G ts (hQ.sumE ht)
  | _ => simpa [flatS] using ht
theorem flatSL_G : ∀ ts : List Expr, (∀ t ∈ ts, Q t) → ∀ u ∈ flatSL ts, Q u := by
  intro ts ht
  cases ts with
  | nil => simp [flatSL]
  | cons t r =>
    have h1 := flatS_G t (ht t (by simp))
    have h2 := flatSL_G r (fun u hu => ht u (by simp [hu]))
    intro u hu
    simp only [flatSL, List.mem_append] at hu
    rcases hu with hu | hu
    · exact h1 u hu
    · exact h2 u hu
end

mutual
theorem flatP_G : ∀ t : Expr, Q t → ∀ u ∈ flatP t, Q u := by
  intro t ht
  cases t with
  | prod ts => simp only [flatP]; exact flatPL_G ts (hQ.prodE ht)
  | _ => simpa [flatP] using ht
theorem flatPL_G : ∀ ts : List Expr, (∀ t ∈ ts, Q t) → ∀ u ∈ flatPL ts, Q u := by
  intro ts ht
  cases ts with
  | nil => simp [flatPL]
  | cons t r =>
    have h1 := flatP_G t (ht t (by simp))
    have h2 := flatPL_G r (fun u hu => ht u (by simp [hu]))
    intro u hu
    simp only [flatPL, List.mem_append] at hu
    rcases hu with hu | hu
    · exact h1 u hu
    · exact h2 u hu
end

omit hQ in
theorem Unlike.symm {a b : Expr} (h : Unlike O a b) : Unlike O b a := fun h' => h ⟨h'.2, h'.1⟩

omit hQ in
theorem SumCanon.perm {ts us : List Expr} (h : SumCanon O ts) (hp : us.Perm ts) : SumCanon O us :=
  ⟨by rw [hp.length_eq]; exact h.1, by rw [(hp.filter _).length_eq]; exact h.2.1, fun c hc => h.2.2.1 c (hp.mem_iff.1 hc),
    ((hp.filter _).pairwise_iff (fun h => Unlike.symm h)).2 h.2.2.2⟩

omit hQ in
theorem ProdCanon.perm {ts us : List Expr} (h : ProdCanon O ts) (hp : us.Perm ts) : ProdCanon O us :=
  ⟨by rw [hp.length_eq]; exact h.1, by rw [(hp.filter _).length_eq]; exact h.2.1, fun c hc => h.2.2 c (hp.mem_iff.1 hc)⟩

theorem sumCtor_G {ts : List Expr} {r : Expr} (hW : ∀ t ∈ ts, Q t)
    (h : sumCtor O C ts = .ok r) : Q r := by
  simp only [sumCtor, bind_ok] at h
  obtain ⟨fs, hf, h⟩ := h
  have hfs : (∀ t ∈ fs, Q t) ∧ (ProdsCanon O Q → 2 ≤ fs.length → SumCanon O fs) := by
    simp only [combineSum, bind_ok] at hf
    obtain ⟨⟨nc, cs⟩, h', hf⟩ := hf
    obtain ⟨e2, e3, e4⟩ := combineSumLoop_G hQ _ _ nc cs (flatSL_G hQ ts hW) h'
    have hnc : (∀ t ∈ nc, Q t) ∧ (ProdsCanon O Q → 2 ≤ nc.length → SumCanon O nc) := by
      refine ⟨e2, fun k h2 => ⟨h2, ?_, ?_, (e4 k).2.filter _⟩⟩
      · rw [List.filter_eq_nil_iff.2 (fun t ht => by simp [((e4 k).1 t ht).1])]; simp
      · intro c hc ha; simp [((e4 k).1 c hc).1] at ha
    dsimp only at hf
    split at hf
    · simp only [pure_ok] at hf; subst hf; exact hnc
    · obtain ⟨c, hc, hf⟩ := bind_ok.1 hf
      have hacc := accumulateSum_isAcc e3 hc
      split at hf
      · simp only [pure_ok] at hf; subst hf; exact hnc
      · next h0 =>
        simp only [pure_ok] at hf; subst hf
        refine ⟨?_, fun k h2 => ⟨h2, ?_, ?_, ?_⟩⟩
        · intro t ht
          rcases List.mem_append.1 ht with ht | ht
          · exact e2 t ht
          · simp only [List.mem_singleton] at ht; subst ht; exact hQ.acc hacc
        · rw [List.filter_append, List.filter_eq_nil_iff.2 (fun t ht => by simp [((e4 k).1 t ht).1])]
          simpa using List.length_filter_le isAcc [c]
        · intro d hd ha
          rcases List.mem_append.1 hd with hd | hd
          · simp [((e4 k).1 d hd).1] at ha
          · simp only [List.mem_singleton] at hd; subst hd; simpa using h0
        · rw [List.filter_append, List.filter_cons_of_neg (by simp [hacc])]
          simpa using (e4 k).2.filter _
  match fs, h with
  | [], h => simp only [pure_ok] at h; subst h; exact hQ.rat 0
  | [t], h => simp only [pure_ok] at h; subst h; exact hfs.1 t (by simp)
  | a :: b :: fs, h =>
    obtain ⟨s, hs, h⟩ := bind_ok.1 h
    simp only [pure_ok] at h; subst h
    have hp := (s.reverse_perm).trans (sortTerms_perm hs)
    exact hQ.sumI (fun k => (hfs.2 k (by simp)).perm hp) (List.pairwise_reverse.2 (sortTerms_before C hs)) fun t ht => hfs.1 t (hp.mem_iff.1 ht)

/-! operators -/

theorem opAdd_G (hC : Pres Q C X) {a b r : Expr} (ha : Q a) (hb : Q b) (h : opAdd C a b = .ok r) : Q r := by
  unfold opAdd at h
  split at h
  · simp only [Except.ok.injEq] at h; subst h; exact hQ.rat _
  · exact hC.sum _ _ (by simp [ha, hb]) h

theorem opMul_G (hC : Pres Q C X) {a b r : Expr} (ha : Q a) (hb : Q b) (h : opMul C a b = .ok r) : Q r := by
  unfold opMul at h
  split at h
  · simp only [Except.ok.injEq] at h; subst h; exact hQ.rat _
  · exact hC.prod _ _ (by simp [ha, hb]) h

theorem opSub_G (hC : Pres Q C X) {a b r : Expr} (ha : Q a) (hb : Q b) (h : opSub C a b = .ok r) : Q r := by
  unfold opSub at h
  split at h
  · simp only [Except.ok.injEq] at h; subst h; exact hQ.rat _
  · obtain ⟨m, hm, h⟩ := bind_ok.1 h
    exact opAdd_G hQ hC ha (opMul_G hQ hC (hQ.rat _) hb hm) h

theorem opDiv_G (hC : Pres Q C X) {a b r : Expr} (ha : Q a) (hb : Q b) (h : opDiv C a b = .ok r) : Q r := by
  have gen : ∀ r, (do let i ← C.pow b (Expr.rat (-1)); C.prod [a, i]) = Except.ok r → Q r := by
    intro r h
    obtain ⟨i, hi, h⟩ := bind_ok.1 h
    exact hC.prod _ _ (by simp [ha, hC.pow _ _ _ hb (by simpa using hQ.xint (-1)) hi]) h
  unfold opDiv at h
  split at h
  · split at h
    · simp only [Except.ok.injEq] at h; subst h; exact hQ.rat _
    · exact gen _ h
  · exact gen _ h

theorem opPow_G (hC : Pres Q C X) {a b r : Expr} (ha : Q a) (hb : X b) (h : opPow O C a b = .ok r) : Q r := by
  unfold opPow at h
  split at h
  · split at h
    · obtain ⟨v, hv, h⟩ := bind_ok.1 h
      simp only [pure_ok] at h; subst h; exact hQ.rat _
    · obtain ⟨v, hv, h⟩ := bind_ok.1 h
      exact hC.pow _ _ _ ha hb h
  · exact hC.pow _ _ _ ha hb h

mutual
theorem opNeg_G (hC : Pres Q C X) : ∀ {t r : Expr}, Q t → opNeg C t = .ok r → Q r := by
  intro t r ht h
  cases t with
  | sum ts =>
    simp only [opNeg] at h
    split at h
    · simp at h
    · next ts' hts => exact hC.sum _ _ (opNegL_G hC ts (hQ.sumE ht) hts) h
  | rat q => simp only [opNeg, Except.ok.injEq] at h; subst h; exact hQ.rat _
  | flt x => cases x <;> (simp only [opNeg, Except.ok.injEq] at h; subst h; exact hQ.acc rfl)
  | inf => simp only [opNeg, Except.ok.injEq] at h; subst h; exact hQ.acc rfl
  | neginf => simp only [opNeg, Except.ok.injEq] at h; subst h; exact hQ.acc rfl
  | _ =>
    simp only [opNeg] at h
    exact hC.prod _ _ (by simp [ht, hQ.rat]) h
theorem opNegL_G (hC : Pres Q C X) : ∀ (ts : List Expr) {ts' : List Expr}, (∀ t ∈ ts, Q t) →
    opNegL C ts = .ok ts' → ∀ t ∈ ts', Q t := by
  intro ts ts' hts h
  cases ts with
  | nil => simp only [opNegL, Except.ok.injEq] at h; subst h; simp
  | cons t r =>
    simp only [opNegL] at h
    split at h
    · simp at h
    · next t' ht' =>
      split at h
      · simp at h
      · next r' hr' =>
        simp only [Except.ok.injEq] at h; subst h
        intro u hu
        rcases List.mem_cons.1 hu with rfl | hu
        · exact opNeg_G hC (hts t (by simp)) ht'
        · exact opNegL_G hC r (fun t ht => hts t (by simp [ht])) hr' u hu
end

/-! products -/

theorem deconPow_G {t : Expr} (h : Q t) : Q (deconPow t).1 ∧ X (deconPow t).2 := by
  cases t with
  | pow b x => exact hQ.powE h
  | _ => exact ⟨h, by simpa [deconPow] using hQ.xint 1⟩

theorem opAdd_X (hC : Pres Q C X) {a b r : Expr} (ha : X a) (hb : X b) (h : opAdd C a b = .ok r) : X r := by
  rcases hQ.x with hx | hx
  · subst hx; exact opAdd_G hQ hC ha hb h
  · rw [hx] at ha hb ⊢
    obtain ⟨k, rfl⟩ := intExp_iff.1 ha
    obtain ⟨l, rfl⟩ := intExp_iff.1 hb
    simp only [opAdd, Except.ok.injEq] at h; subst h
    exact intExp_iff.2 ⟨k + l, by push_cast; rfl⟩

theorem opMul_X (hC : Pres Q C X) {a b r : Expr} (ha : X a) (hb : X b) (h : opMul C a b = .ok r) : X r := by
  rcases hQ.x with hx | hx
  · subst hx; exact opMul_G hQ hC ha hb h
  · rw [hx] at ha hb ⊢
    obtain ⟨k, rfl⟩ := intExp_iff.1 ha
    obtain ⟨l, rfl⟩ := intExp_iff.1 hb
    simp only [opMul, Except.ok.injEq] at h; subst h
    exact intExp_iff.2 ⟨k * l, by push_cast; rfl⟩

theorem foldAdd_G (hC : Pres Q C X) : ∀ (xs : List Expr) (x z : Expr),
    X x → (∀ y ∈ xs, X y) → foldAdd C x xs = .ok z → X z
  | [], x, z, wx, _, h => by
    simp only [foldAdd, Except.ok.injEq] at h; subst h; exact wx
  | y :: r, x, z, wx, wy, h => by
    simp only [foldAdd] at h
    split at h
    · simp at h
    · next a ha =>
      exact foldAdd_G hC r a z (opAdd_X hQ hC wx (wy y (by simp)) ha) (fun u hu => wy u (by simp [hu])) h

omit hQ in
theorem likeFactor_G (hC : Pres Q C X) {b z : Expr} {o : Option Expr} (wb : Q b)
    (wz : X z) (h : likeFactor O C b z = .ok o) : ∀ t ∈ o.toList, Q t := by
  unfold likeFactor at h
  split at h
  · simp only [Except.ok.injEq] at h; subst h; simp
  · split at h
    · simp only [Except.ok.injEq] at h; subst h; simpa using wb
    · split at h
      · simp at h
      · next t ht => simp only [Except.ok.injEq] at h; subst h; simpa using hC.pow _ _ _ wb wz ht

theorem combineProdLoop_G (hC : Pres Q C X) : ∀ (n : Nat) (ts nc cs : List Expr),
    (∀ t ∈ ts, Q t) → combineProdLoop O C n ts = .ok (nc, cs) →
    (∀ t ∈ nc, Q t ∧ t.isAcc = false) ∧ (∀ c ∈ cs, c.isAcc = true)
  | 0, ts, nc, cs, _, h => by
    simp only [combineProdLoop, Except.ok.injEq, Prod.mk.injEq] at h
    simp [← h.1, ← h.2]
  | n + 1, [], nc, cs, _, h => by
    simp only [combineProdLoop, Except.ok.injEq, Prod.mk.injEq] at h
    simp [← h.1, ← h.2]
  | n + 1, t :: r, nc, cs, hW, h => by
    have hWr : ∀ t ∈ r, Q t := fun t ht => hW t (by simp [ht])
    have hWt := hW t (by simp)
    have hWf : ∀ u ∈ r.filter (fun u => !beq O (deconPow u).1 (deconPow t).1), Q u :=
      fun u hu => hWr u (List.mem_filter.1 hu).1
    have add : ∀ (u : Expr) (nc' cs' : List Expr), Q u →
        ((∀ t ∈ nc', Q t ∧ t.isAcc = false) ∧ (∀ c ∈ cs', c.isAcc = true)) →
        (if u.isAcc then (pure (nc', u :: cs') : R _) else pure (u :: nc', cs')) = .ok (nc, cs) →
        (∀ t ∈ nc, Q t ∧ t.isAcc = false) ∧ (∀ c ∈ cs, c.isAcc = true) := by
      intro u nc' cs' hu ih h
      split at h
      · next hacc =>
        simp only [pure_ok, Prod.mk.injEq] at h; rw [← h.1, ← h.2]
        refine ⟨ih.1, ?_⟩
        intro c hc
        rcases List.mem_cons.1 hc with rfl | hc
        · exact hacc
        · exact ih.2 c hc
      · next hacc =>
        simp only [pure_ok, Prod.mk.injEq] at h; rw [← h.1, ← h.2]
        refine ⟨?_, ih.2⟩
        intro c hc
        rcases List.mem_cons.1 hc with rfl | hc
        · exact ⟨hu, by simpa using hacc⟩
        · exact ih.1 c hc
    simp only [combineProdLoop] at h
    split at h
    · obtain ⟨⟨nc', cs'⟩, h', h⟩ := bind_ok.1 h
      exact add t nc' cs' hWt (combineProdLoop_G hC n _ nc' cs' hWf h') h
    · obtain ⟨z, hz, h⟩ := bind_ok.1 h
      obtain ⟨o, ho, h⟩ := bind_ok.1 h
      obtain ⟨⟨nc', cs'⟩, h', h⟩ := bind_ok.1 h
      have ih := combineProdLoop_G hC n _ nc' cs' hWf h'
      have wz : X z := by
        refine foldAdd_G hQ hC _ _ z (deconPow_G hQ hWt).2 ?_ hz
        intro y hy
        simp only [List.mem_map] at hy
        obtain ⟨u, hu, rfl⟩ := hy
        exact (deconPow_G hQ (hWr u (List.mem_filter.1 hu).1)).2
      have wo := likeFactor_G hC (deconPow_G hQ hWt).1 wz ho
      cases o with
      | none => simp only [pure_ok, Prod.mk.injEq] at h; rw [← h.1, ← h.2]; exact ih
      | some u => exact add u nc' cs' (wo u (by simp)) ih h

theorem prodCtor_G (hC : Pres Q C X) {ts : List Expr} {r : Expr}
    (hW : ∀ t ∈ ts, Q t) (h : prodCtor O C ts = .ok r) : Q r := by
  simp only [prodCtor, bind_ok] at h
  obtain ⟨fs, hf, h⟩ := h
  have w1 : (∀ t ∈ fs, Q t) ∧ (2 ≤ fs.length → ProdCanon O fs) := by
    simp only [combineProd, bind_ok] at hf
    obtain ⟨⟨nc, cs⟩, h', hf⟩ := hf
    obtain ⟨e2, e3⟩ := combineProdLoop_G hQ hC _ _ nc cs (flatPL_G hQ ts hW) h'
    have hnc : (∀ t ∈ nc, Q t) ∧ (2 ≤ nc.length → ProdCanon O nc) :=
      ⟨fun t ht => (e2 t ht).1, fun h2 => prodCanon_nonAcc h2 fun t ht => (e2 t ht).2⟩
    dsimp only at hf
    split at hf
    · simp only [pure_ok] at hf; subst hf; exact hnc
    · obtain ⟨c, hc, hf⟩ := bind_ok.1 hf
      have hacc := accumulateProd_isAcc e3 hc
      split at hf
      · simp only [pure_ok] at hf; subst hf; simp [hQ.acc hacc]
      · next h0 =>
        split at hf
        · simp only [pure_ok] at hf; subst hf; exact hnc
        · next h1 =>
          simp only [pure_ok] at hf; subst hf
          refine ⟨?_, fun h2 => ?_⟩
          · intro t ht
            rcases List.mem_append.1 ht with ht | ht
            · exact (e2 t ht).1
            · simp only [List.mem_singleton] at ht; subst ht; exact hQ.acc hacc
          · refine (prodCanon_cons (c := c) (ts := nc) ?_ (fun t ht => (e2 t ht).2)
              (fun _ => ⟨by simpa using h0, by simpa using h1⟩)).perm (by simpa using List.perm_append_comm)
            simpa using h2
  match fs, h with
  | [], h => simp only [pure_ok] at h; subst h; exact hQ.rat 1
  | [t], h => simp only [pure_ok] at h; subst h; exact w1.1 t (by simp)
  | a :: b :: fs, h =>
    obtain ⟨s, hs, h⟩ := bind_ok.1 h
    have hp := sortTerms_perm hs
    have hWs : Q (Expr.prod s) := hQ.prodI (fun _ => (w1.2 (by simp)).perm hp)
      (fun _ => sortTerms_before C hs) fun t ht => w1.1 t (hp.mem_iff.1 ht)
    split at h
    · next c us =>
      split at h
      · exact opNeg_G hQ hC (hQ.prodE hWs _ (by simp)) h
      · simp only [pure_ok] at h; subst h; exact hWs
    · simp only [pure_ok] at h; subst h; exact hWs

/-! powers -/

omit hQ in
theorem intPowTest_none' {n : ℤ} {x : ℚ} (h : intPowTest O n |x| = .ok none) : x.den ≠ 1 := by
  intro hx
  have : (|x|).den = 1 := by
    rw [← Rat.coe_int_num_of_den_eq_one hx, ← Int.cast_abs]; exact Rat.den_intCast _
  simp [intPowTest, this] at h

omit hQ in
theorem intPowTest_ne_zero (hO : O.Exact) {n k : ℤ} {x : ℚ} (hn : n ≠ 0) (hx0 : x ≠ 0) (hx : x.den ≠ 1)
    (h : intPowTest O n |x| = .ok (some k)) : k ≠ 0 := by
  have hd : (|x|).den ≠ 1 := by
    intro hd
    have := Rat.coe_int_num_of_den_eq_one hd
    rcases abs_choice x with h | h
    · rw [h] at hd; exact hx hd
    · rw [h] at hd; exact hx (by simpa using hd)
  simp only [intPowTest, hd, if_false] at h
  obtain ⟨h1, h2⟩ := hO.intPow n |x| k hd (abs_pos.2 hx0) h
  rintro rfl
  have : (0 : ℝ) < (n : ℝ) := by
    have : 0 < n := lt_of_le_of_ne h1 (Ne.symm hn)
    exact_mod_cast this
  have := Real.rpow_pos_of_pos this ((|x| : ℚ) : ℝ)
  rw [← h2] at this
  simp at this

omit hQ in
theorem ratPowCanon {x : ℚ} (hx : x.den ≠ 1) : (beq O (Expr.rat x) (Expr.rat 0) = false ∧ beq O (Expr.rat x) (Expr.rat 1) = false ∧
    beq O (Expr.rat (-x)) (Expr.rat 0) = false ∧ beq O (Expr.rat (-x)) (Expr.rat 1) = false) := by
  simp only [beq, beq_eq_false_iff_ne, ne_eq]
  refine ⟨?_, ?_, ?_, ?_⟩ <;> intro h <;> apply hx
  · rw [h]; rfl
  · rw [h]; rfl
  · rw [neg_eq_zero.1 h]; rfl
  · rw [neg_eq_iff_eq_neg.1 h]; rfl

theorem accumulatePowerRat_G (hC : Pres Q C X) {b x : ℚ} {r : Expr} (wx : X (Expr.rat x)) (hx0 : x ≠ 0)
    (h : accumulatePowerRat O C b x = .ok (some r)) : Q r := by
  unfold accumulatePowerRat at h
  split at h
  · split at h <;> (simp only [Except.ok.injEq, Option.some.injEq] at h; subst h; exact hQ.acc rfl)
  · next hb0 =>
    obtain ⟨num, hnum, h⟩ := bind_ok.1 h
    obtain ⟨dn, hden, h⟩ := bind_ok.1 h
    rcases hQ.x with hx | hx
    case inr =>
      obtain ⟨k, hk⟩ := intExp_iff.1 ((hx _).1 wx)
      simp only [Expr.rat.injEq] at hk; subst hk
      have hd : (|(k : ℚ)|).den = 1 := by rw [← Int.cast_abs]; exact Rat.den_intCast _
      simp only [intPowTest, hd, if_true, Except.ok.injEq] at hnum hden
      subst hnum hden
      simp only at h
      split at h
      all_goals
        obtain ⟨r', hr, h⟩ := bind_ok.1 h
        simp only [pure_ok, Option.some.injEq] at h; subst h
        rw [(mkRat2_ok hr).2]; exact hQ.rat _
    cases hx
    have key : ∀ (ans : Option Expr), (∀ a, ans = some a → Q a) →
        (match ans with
        | none => (return none : R (Option Expr))
        | some a =>
          if x > 0 then return some a
          else do
            let r ← opDiv C (Expr.rat 1) a
            return some r) = .ok (some r) → Q r := by
      intro ans ha h
      cases ans with
      | none => simp [pure, Except.pure] at h
      | some a =>
        simp only at h
        split at h
        · simp only [pure_ok, Option.some.injEq] at h; subst h; exact ha _ rfl
        · obtain ⟨r', hr, h⟩ := bind_ok.1 h
          simp only [pure_ok, Option.some.injEq] at h; subst h
          exact opDiv_G hQ hC (hQ.rat _) (ha _ rfl) hr
    have mid : ∀ (ans : Option Expr), (∀ a, ans = some a → Q a) →
        (if b.num = 1 ∨ (b.den ≠ 1 ∧ x < 0) then do
        let r ← C.pow (Expr.rat (1 / b)) (Expr.rat (-x))
        return some r
      else if x.den % 2 = 0 ∧ b < 0 then (return none : R (Option Expr))
      else if b < 0 then do
        let p ← C.pow (Expr.rat (-b)) (Expr.rat x)
        let r ← opMul C (Expr.rat (-1)) p
        return some r
      else match ans with
        | none => (return none : R (Option Expr))
        | some a =>
          if x > 0 then return some a
          else do
            let r ← opDiv C (Expr.rat 1) a
            return some r) = .ok (some r) → Q r := by
      intro ans ha h
      split at h
      · obtain ⟨r', hr, h⟩ := bind_ok.1 h
        simp only [pure_ok, Option.some.injEq] at h; subst h
        exact hC.pow _ _ _ (hQ.rat _) (hQ.rat _) hr
      · split at h
        · simp [pure, Except.pure] at h
        · split at h
          · obtain ⟨p, hp, h⟩ := bind_ok.1 h
            obtain ⟨r', hr, h⟩ := bind_ok.1 h
            simp only [pure_ok, Option.some.injEq] at h; subst h
            exact opMul_G hQ hC (hQ.rat _) (hC.pow _ _ _ (hQ.rat _) (hQ.rat _) hp) hr
          · exact key ans ha h
    cases num with
    | some n =>
      cases dn with
      | some d =>
        simp only at h
        split at h
        all_goals
          obtain ⟨r', hr, h⟩ := bind_ok.1 h
          simp only [pure_ok, Option.some.injEq] at h; subst h
          rw [(mkRat2_ok hr).2]; exact hQ.rat _
      | none =>
        refine mid (if n ≠ 1 then some (Expr.prod [Expr.rat n, Expr.pow (Expr.rat b.den) (Expr.rat (-x))]) else none) ?_ h
        intro a ha
        split at ha
        · next hn1 =>
          simp only [Option.some.injEq] at ha; subst ha
          have hx1 := intPowTest_none' hden
          refine hQ.prodI (fun k => prodCanon_cons (by simp) (by simp [isAcc]) fun _ => ⟨?_, ?_⟩)
            (fun _ => List.pairwise_cons.2 ⟨fun t ht => before_acc rfl (by rw [List.mem_singleton.1 ht]; rfl), List.pairwise_singleton _ _⟩) ?_
          · simp only [beq, beq_eq_false_iff_ne, ne_eq]
            intro h0
            refine intPowTest_ne_zero k.1 (by simpa using hb0) hx0 hx1 hnum ?_
            exact_mod_cast h0
          · simpa [beq] using hn1
          · simp only [List.mem_cons, List.not_mem_nil, or_false, forall_eq_or_imp, forall_eq]
            refine ⟨hQ.rat _, hQ.powI (fun _ => ?_) (fun _ _ => rfl) (hQ.rat _) (hQ.rat _)⟩
            have := ratPowCanon (O := O) hx1
            exact ⟨this.2.2.1, this.2.2.2⟩
        · simp at ha
    | none =>
      cases dn with
      | some d =>
        refine mid (if d ≠ 1 then some (Expr.prod [Expr.rat (1 / d), Expr.pow (Expr.rat b.num) (Expr.rat x)]) else none) ?_ h
        intro a ha
        split at ha
        · next hd1 =>
          simp only [Option.some.injEq] at ha; subst ha
          have hx1 := intPowTest_none' hnum
          refine hQ.prodI (fun k => prodCanon_cons (by simp) (by simp [isAcc]) fun _ => ⟨?_, ?_⟩)
            (fun _ => List.pairwise_cons.2 ⟨fun t ht => before_acc rfl (by rw [List.mem_singleton.1 ht]; rfl), List.pairwise_singleton _ _⟩) ?_
          · have := intPowTest_ne_zero k.1 (by exact_mod_cast b.den_ne_zero) hx0 hx1 hden
            simpa [beq] using this
          · simpa [beq] using hd1
          · simp only [List.mem_cons, List.not_mem_nil, or_false, forall_eq_or_imp, forall_eq]
            refine ⟨hQ.rat _, hQ.powI (fun _ => ?_) (fun _ _ => rfl) (hQ.rat _) (hQ.rat _)⟩
            have := ratPowCanon (O := O) hx1
            exact ⟨this.1, this.2.1⟩
        · simp at ha
      | none =>
        exact mid none (by simp) h

theorem multiplyExponents_G (hC : Pres Q C X) {b x y r : Expr} (wb : Q b)
    (wx : X x) (wy : X y) (h : multiplyExponents O C b x y = .ok r) : Q r := by
  have gen : ∀ r, (do let m ← opMul C x y; opPow O C b m) = Except.ok r → Q r := by
    intro r h
    obtain ⟨m, hm, h⟩ := bind_ok.1 h
    exact opPow_G hQ hC wb (opMul_X hQ hC wx wy hm) h
  unfold multiplyExponents at h
  split at h
  · split at h
    · split at h
      · simp at h
      · split at h
        · exact hC.abs _ _ wb h
        · exact gen _ h
    · exact gen _ h
  · exact gen _ h

omit hQ in
theorem powEach_G (hC : Pres Q C X) {x : Expr} (wx : X x) : ∀ {ts ps : List Expr},
    (∀ t ∈ ts, Q t) → powEach C x ts = .ok ps → ∀ p ∈ ps, Q p := by
  intro ts ps hW h
  have h := mapR_ok.1 h
  induction h with
  | nil => simp
  | @cons a b l m hab hlm ih =>
    intro p hp
    rcases List.mem_cons.1 hp with rfl | hp
    · exact hC.pow _ _ _ (hW a (by simp)) wx hab
    · exact ih (fun t ht => hW t (by simp [ht])) (mapR_ok.2 hlm) p hp

theorem powTail_G (hC : Pres Q C X) {b x r : Expr} (wb : Q b) (wx : X x) (hx : PowCanon O x)
    (h : powTail O C b x = .ok r) : Q r := by
  have infc : ∀ r, (b.isSubtraction = true → intExp x = true → b.isAcc = true) → powInf O b x = .ok r → Q r := by
    intro r hs h
    have hp : Q (Expr.pow b x) := hQ.powI (fun _ => hx) hs wb wx
    unfold powInf at h
    split at h
    · split at h
      · simp only [Except.ok.injEq] at h; subst h; exact hQ.acc rfl
      · split at h
        · simp only [Except.ok.injEq] at h; subst h; exact hQ.rat 0
        · simp only [Except.ok.injEq] at h; subst h; exact hp
    · simp only [Except.ok.injEq] at h; subst h; exact hp
  unfold powTail at h
  split at h
  · split at h
    · obtain ⟨nb, hn, h⟩ := bind_ok.1 h
      have wn := opNeg_G hQ hC wb hn
      split at h
      · exact hC.pow _ _ _ wn wx h
      · obtain ⟨p, hp, h⟩ := bind_ok.1 h
        exact opNeg_G hQ hC (hC.pow _ _ _ wn wx hp) h
    · next hs =>
      refine infc _ (fun h1 h2 => absurd ?_ hs) h
      simpa [h1, intExp] using h2
  · next hx' =>
    refine infc _ (fun _ h2 => ?_) h
    cases x <;> simp [intExp] at h2
    exact absurd rfl (hx' _)

theorem powLog_G (hC : Pres Q C X) {b x r : Expr} (wb : Q b) (wx : X x) (hc : PowCanon O x)
    (h : powLog O C b x = .ok r) : Q r := by
  rcases hQ.x with hx | hx
  case inr =>
    obtain ⟨k, rfl⟩ := intExp_iff.1 ((hx _).1 wx)
    cases b <;> exact powTail_G (O := O) hQ hC wb wx hc h
  cases hx
  unfold powLog at h
  split at h
  · split at h
    · simp only [Except.ok.injEq] at h; subst h; exact (hQ.log wx).1
    · exact powTail_G hQ hC wb wx hc h
  · next ts =>
    split at h
    · next i rest hf =>
      obtain ⟨y, hy, hcp⟩ := bind_ok.1 h
      obtain ⟨l1, l2, b', rfl, _, rfl⟩ := findLog_split hf
      have wt := hQ.prodE wx
      refine hC.pow _ _ _ (hQ.log (wt (Expr.log i b') (by simp))).1 (mkProdSkip_G hQ hy ?_ ?_ ?_) hcp
      · intro k h2
        exact (k.2 _ wx).sub (by simp) h2
      · intro k
        exact (k.2 _ wx).sublist (by simp)
      intro t ht
      simp only [List.nil_append, List.mem_append] at ht
      exact wt t (by simp; tauto)
    · exact powTail_G hQ hC wb wx hc h
  · exact powTail_G hQ hC wb wx hc h

theorem powCtor_G (hC : Pres Q C X) {b x r : Expr} (wb : Q b) (wx : X x)
    (h : powCtor O C b x = .ok r) : Q r := by
  have acc : ∀ r, beq O x (Expr.rat 0) = false → accumulatePower O C b x = .ok (some r) → Q r := by
    intro r hx0 h
    unfold accumulatePower at h
    split at h
    · exact accumulatePowerRat_G hQ hC wx (by simpa [beq] using hx0) h
    · split at h
      · simp at h
      · next v _ =>
        simp only [Except.ok.injEq, Option.some.injEq] at h; subst h
        exact hQ.const v
  unfold powCtor at h
  split at h
  · simp only [Except.ok.injEq] at h; subst h; exact hQ.rat 1
  · split at h
    · simp only [Except.ok.injEq] at h; subst h; exact wb
    · next h0 h1 =>
      have hc : PowCanon O x := ⟨by simpa using h0, by simpa using h1⟩
      split at h
      · simp only [Except.ok.injEq] at h; subst h; exact hQ.rat 1
      · split at h
        · next hacc =>
          rw [Bool.and_eq_true] at hacc
          split at h
          · simp at h
          · simp only [Except.ok.injEq] at h; subst h
            exact hQ.powI (fun _ => hc) (fun _ _ => hacc.1) wb wx
          · next r' hr => simp only [Except.ok.injEq] at h; subst h; exact acc _ hc.1 hr
        · split at h
          · next b' x' => exact multiplyExponents_G hQ hC (hQ.powE wb).1 (hQ.powE wb).2 wx h
          · next ts =>
            split at h
            · obtain ⟨ps, hp, h⟩ := bind_ok.1 h
              exact hC.prod _ _ (powEach_G hC wx (hQ.prodE wb) hp) h
            · exact powLog_G hQ hC wb wx hc h
          · exact powLog_G hQ hC wb wx hc h

theorem absCtor_G (hC : Pres Q C X) {i r : Expr} (wi : Q i) (h : absCtor C i = .ok r) : Q r := by
  unfold absCtor at h
  split at h
  · simp only [Except.ok.injEq] at h; subst h; exact wi
  · simp only [Except.ok.injEq] at h; subst h; exact wi
  · simp only [Except.ok.injEq] at h; subst h; exact hQ.acc rfl
  · simp only [Except.ok.injEq] at h; subst h; exact hQ.acc rfl
  · simp only [Except.ok.injEq] at h; subst h; exact hQ.acc rfl
  · simp only [Except.ok.injEq] at h; subst h; exact hQ.acc rfl
  · simp only [Except.ok.injEq] at h; subst h; exact hQ.acc rfl
  · split at h
    · split at h
      · simp at h
      · next ni hn =>
        split at h
        · simp at h
        · simp only [Except.ok.injEq] at h; subst h; exact hQ.absvI wi
        · next r' _ hr =>
          simp only [Except.ok.injEq] at h; subst h; exact hC.abs _ _ (opNeg_G hQ hC wi hn) (by assumption)
    · split at h
      · simp only [Except.ok.injEq] at h; subst h; exact wi
      · simp only [Except.ok.injEq] at h; subst h; exact hQ.absvI wi

/-- Every symDepth of the constructor stack preserves a closed predicate. -/
theorem ctors_presG : ∀ n, Pres Q (ctors O n) X
  | 0 => by constructor <;> intros <;> simp_all [ctors]
  | n + 1 =>
    have hC := ctors_presG n
    { sum := fun _ _ hW h => sumCtor_G hQ hW h
      prod := fun _ _ hW h => prodCtor_G hQ hC hW h
      pow := fun _ _ _ wb wx h => powCtor_G hQ hC wb wx h
      abs := fun _ _ w h => absCtor_G hQ hC w h }

/-! logs and trig functions -/

theorem logCtor_G (hX : ∀ x, X x → Q x) (hl : ∀ i b, Q i → Q b → Q (Expr.log i b)) {i b r : Expr} (wi : Q i) (wb : Q b)
    (h : logCtor O i b = .ok r) : Q r := by
  unfold logCtor at h
  dsimp only at h
  split at h
  · simp only [Except.ok.injEq] at h; subst h; exact hQ.rat 0
  split at h
  · simp only [Except.ok.injEq] at h; subst h; exact hQ.rat 1
  have hlog : Q (Expr.log i b) := hl _ _ wi wb
  cases i with
  | pow c x =>
    simp only at h
    split at h
    · split at h
      · simp at h
      · simp only [Except.ok.injEq] at h; subst h; exact hX _ (hQ.powE wi).2
    · simp only [Except.ok.injEq] at h; subst h; exact hlog
  | flt v =>
    simp only at h
    split at h
    · obtain ⟨l, _, h⟩ := bind_ok.1 h
      simp only [pure_ok] at h; subst h; exact hQ.const l
    · split at h
      · obtain ⟨l, _, h⟩ := bind_ok.1 h
        obtain ⟨m, _, h⟩ := bind_ok.1 h
        obtain ⟨d, _, h⟩ := bind_ok.1 h
        simp only [pure_ok] at h; subst h; exact hQ.const d
      · simp only [Except.ok.injEq] at h; subst h; exact hlog
  | _ => simp only [Except.ok.injEq] at h; subst h; exact hlog

end

section
variable {O : Oracle} {Q : Expr → Prop} (hQ : ClosedG O Q Q) {C : Ctors}
include hQ

theorem opSqrt_G (hC : Pres Q C) {a r : Expr} (wa : Q a) (h : opSqrt O C a = .ok r) : Q r :=
  opPow_G hQ hC wa (hQ.rat _) h

theorem overSqrt2_G (hC : Pres Q C) {k : ℚ} {r : Expr} (h : overSqrt2 O C k = .ok r) : Q r := by
  obtain ⟨s, hs, h⟩ := bind_ok.1 h
  exact opDiv_G hQ hC (hQ.rat _) (opSqrt_G hQ hC (hQ.rat _) hs) h

theorem sqrt3Over2_G (hC : Pres Q C) {r : Expr} (h : sqrt3Over2 O C = .ok r) : Q r := by
  obtain ⟨s, hs, h⟩ := bind_ok.1 h
  exact opDiv_G hQ hC (opSqrt_G hQ hC (hQ.rat _) hs) (hQ.rat _) h

theorem negSqrt3Over2_G (hC : Pres Q C) {r : Expr} (h : negSqrt3Over2 O C = .ok r) : Q r := by
  obtain ⟨s, hs, h⟩ := bind_ok.1 h
  obtain ⟨m, hm, h⟩ := bind_ok.1 h
  exact opDiv_G hQ hC (opNeg_G hQ hC (opSqrt_G hQ hC (hQ.rat _) hs) hm) (hQ.rat _) h

theorem sinSpecial_G (hC : Pres Q C) {k : ℚ} {r : Expr} (h : sinSpecial O C k = .ok r) : Q r := by
  have hr : ∀ q r, Except.ok (Expr.rat q) = (Except.ok r : R Expr) → Q r := by
    intro q r h; simp only [Except.ok.injEq] at h; subst h; exact hQ.rat q
  have hn : ∀ q r, opNeg C (Expr.rat q) = .ok r → Q r := fun q r h => opNeg_G hQ hC (hQ.rat q) h
  unfold sinSpecial at h
  rcases ite_cases h with ⟨_, h⟩ | ⟨_, h⟩; · exact hr _ _ h
  rcases ite_cases h with ⟨_, h⟩ | ⟨_, h⟩; · exact hr _ _ h
  rcases ite_cases h with ⟨_, h⟩ | ⟨_, h⟩; · exact overSqrt2_G hQ hC h
  rcases ite_cases h with ⟨_, h⟩ | ⟨_, h⟩; · exact sqrt3Over2_G hQ hC h
  rcases ite_cases h with ⟨_, h⟩ | ⟨_, h⟩; · exact hr _ _ h
  rcases ite_cases h with ⟨_, h⟩ | ⟨_, h⟩; · exact sqrt3Over2_G hQ hC h
  rcases ite_cases h with ⟨_, h⟩ | ⟨_, h⟩; · exact overSqrt2_G hQ hC h
  rcases ite_cases h with ⟨_, h⟩ | ⟨_, h⟩; · exact hr _ _ h
  rcases ite_cases h with ⟨_, h⟩ | ⟨_, h⟩; · exact hr _ _ h
  rcases ite_cases h with ⟨_, h⟩ | ⟨_, h⟩; · exact hn _ _ h
  rcases ite_cases h with ⟨_, h⟩ | ⟨_, h⟩; · exact overSqrt2_G hQ hC h
  rcases ite_cases h with ⟨_, h⟩ | ⟨_, h⟩; · exact negSqrt3Over2_G hQ hC h
  rcases ite_cases h with ⟨_, h⟩ | ⟨_, h⟩; · exact hn _ _ h
  rcases ite_cases h with ⟨_, h⟩ | ⟨_, h⟩; · exact negSqrt3Over2_G hQ hC h
  rcases ite_cases h with ⟨_, h⟩ | ⟨_, h⟩; · exact overSqrt2_G hQ hC h
  rcases ite_cases h with ⟨_, h⟩ | ⟨_, h⟩; · exact hn _ _ h
  simp at h

theorem cosSpecial_G (hC : Pres Q C) {k : ℚ} {r : Expr} (h : cosSpecial O C k = .ok r) : Q r := by
  have hr : ∀ q r, Except.ok (Expr.rat q) = (Except.ok r : R Expr) → Q r := by
    intro q r h; simp only [Except.ok.injEq] at h; subst h; exact hQ.rat q
  have hn : ∀ q r, opNeg C (Expr.rat q) = .ok r → Q r := fun q r h => opNeg_G hQ hC (hQ.rat q) h
  unfold cosSpecial at h
  rcases ite_cases h with ⟨_, h⟩ | ⟨_, h⟩; · exact hr _ _ h
  rcases ite_cases h with ⟨_, h⟩ | ⟨_, h⟩; · exact sqrt3Over2_G hQ hC h
  rcases ite_cases h with ⟨_, h⟩ | ⟨_, h⟩; · exact overSqrt2_G hQ hC h
  rcases ite_cases h with ⟨_, h⟩ | ⟨_, h⟩; · exact hr _ _ h
  rcases ite_cases h with ⟨_, h⟩ | ⟨_, h⟩; · exact hr _ _ h
  rcases ite_cases h with ⟨_, h⟩ | ⟨_, h⟩; · exact hn _ _ h
  rcases ite_cases h with ⟨_, h⟩ | ⟨_, h⟩; · exact overSqrt2_G hQ hC h
  rcases ite_cases h with ⟨_, h⟩ | ⟨_, h⟩; · exact negSqrt3Over2_G hQ hC h
  rcases ite_cases h with ⟨_, h⟩ | ⟨_, h⟩; · exact hr _ _ h
  rcases ite_cases h with ⟨_, h⟩ | ⟨_, h⟩; · exact negSqrt3Over2_G hQ hC h
  rcases ite_cases h with ⟨_, h⟩ | ⟨_, h⟩; · exact overSqrt2_G hQ hC h
  rcases ite_cases h with ⟨_, h⟩ | ⟨_, h⟩; · exact hn _ _ h
  rcases ite_cases h with ⟨_, h⟩ | ⟨_, h⟩; · exact hn _ _ h
  rcases ite_cases h with ⟨_, h⟩ | ⟨_, h⟩; · exact hr _ _ h
  rcases ite_cases h with ⟨_, h⟩ | ⟨_, h⟩; · exact overSqrt2_G hQ hC h
  rcases ite_cases h with ⟨_, h⟩ | ⟨_, h⟩; · exact sqrt3Over2_G hQ hC h
  simp at h

theorem specialValue_G (hC : Pres Q C) {f : TrigFn} {k : ℚ} {r : Expr}
    (h : specialValue O C f k = .ok r) : Q r := by
  cases f <;> simp only [specialValue] at h
  · exact sinSpecial_G hQ hC h
  · exact cosSpecial_G hQ hC h
  · obtain ⟨s, h1, h⟩ := bind_ok.1 h
    obtain ⟨c, h2, h⟩ := bind_ok.1 h
    exact opDiv_G hQ hC (sinSpecial_G hQ hC h1) (cosSpecial_G hQ hC h2) h
  · obtain ⟨s, h1, h⟩ := bind_ok.1 h
    exact opDiv_G hQ hC (hQ.rat _) (sinSpecial_G hQ hC h1) h
  · obtain ⟨c, h2, h⟩ := bind_ok.1 h
    exact opDiv_G hQ hC (hQ.rat _) (cosSpecial_G hQ hC h2) h
  · obtain ⟨c, h2, h⟩ := bind_ok.1 h
    obtain ⟨s, h1, h⟩ := bind_ok.1 h
    exact opDiv_G hQ hC (cosSpecial_G hQ hC h2) (sinSpecial_G hQ hC h1) h
  all_goals simp at h

theorem doubleSimp_G (hC : Pres Q C) {f g : TrigFn} {w r : Expr} (ww : Q w)
    (h : doubleSimp O C f g w = .ok r) : Q r := by
  unfold doubleSimp at h
  obtain ⟨x2, hx2, h⟩ := bind_ok.1 h
  have w2 := opPow_G hQ hC ww (hQ.rat _) hx2
  have sub : ∀ z s, opSub C (Expr.rat 1) x2 = .ok z → opSqrt O C z = .ok s → Q s :=
    fun z s hz hs => opSqrt_G hQ hC (opSub_G hQ hC (hQ.rat _) w2 hz) hs
  have add : ∀ z s, opAdd C (Expr.rat 1) x2 = .ok z → opSqrt O C z = .ok s → Q s :=
    fun z s hz hs => opSqrt_G hQ hC (opAdd_G hQ hC (hQ.rat _) w2 hz) hs
  split at h
  · obtain ⟨z, hz, h⟩ := bind_ok.1 h
    exact sub z r hz h
  · obtain ⟨z, hz, h⟩ := bind_ok.1 h
    obtain ⟨s, hsq, h⟩ := bind_ok.1 h
    exact opDiv_G hQ hC ww (add z s hz hsq) h
  · obtain ⟨z, hz, h⟩ := bind_ok.1 h
    exact sub z r hz h
  · obtain ⟨z, hz, h⟩ := bind_ok.1 h
    obtain ⟨s, hsq, h⟩ := bind_ok.1 h
    exact opDiv_G hQ hC (hQ.rat _) (add z s hz hsq) h
  · obtain ⟨z, hz, h⟩ := bind_ok.1 h
    obtain ⟨s, hsq, h⟩ := bind_ok.1 h
    exact opDiv_G hQ hC ww (sub z s hz hsq) h
  · obtain ⟨z, hz, h⟩ := bind_ok.1 h
    obtain ⟨s, hsq, h⟩ := bind_ok.1 h
    exact opDiv_G hQ hC (sub z s hz hsq) ww h
  · simp at h

theorem trigOfTrig_G (hC : Pres Q C) {f : TrigFn} {i r : Expr} (wi : Q i)
    (h : trigOfTrig O C f i = .ok (some r)) : Q r := by
  unfold trigOfTrig at h
  split at h
  case h_2 => simp at h
  next g w =>
  have ww : Q w := hQ.trig wi
  split at h
  case isFalse => simp at h
  split at h
  · simp only [Except.ok.injEq, Option.some.injEq] at h; subst h; exact ww
  · split at h
    · obtain ⟨a, ha, h⟩ := bind_ok.1 h
      simp only [pure_ok, Option.some.injEq] at h; subst h
      exact opDiv_G hQ hC (hQ.rat _) ww ha
    · split at h
      case isFalse => simp at h
      split at h
      case h_4 =>
        obtain ⟨a, ha, h⟩ := bind_ok.1 h
        obtain ⟨b, hb, h⟩ := bind_ok.1 h
        simp only [pure_ok, Option.some.injEq] at h; subst h
        exact opDiv_G hQ hC (hQ.rat _) (doubleSimp_G hQ hC ww ha) hb
      all_goals
        obtain ⟨a, ha, h⟩ := bind_ok.1 h
        simp only [pure_ok, Option.some.injEq] at h; subst h
        exact doubleSimp_G hQ hC ww ha

theorem trigRest_G (hC : Pres Q C) {f : TrigFn} (hf : ∀ i, Q i → Q (Expr.trig f i)) {i r : Expr} (wi : Q i)
    (h : trigRest O C f i = .ok r) : Q r := by
  unfold trigRest at h
  obtain ⟨o, ho, h⟩ := bind_ok.1 h
  cases o with
  | some r' => simp only [pure_ok] at h; subst h; exact trigOfTrig_G hQ hC wi ho
  | none =>
    cases i with
    | flt v =>
      obtain ⟨a, ha, h⟩ := bind_ok.1 h
      simp only [pure_ok] at h; subst h; exact hQ.const a
    | _ => simp only [pure_ok] at h; subst h; exact hf _ wi

theorem trigPeriod_G (hC : Pres Q C) {f : TrigFn} (hf : ∀ i, Q i → Q (Expr.trig f i)) {i r : Expr} (wi : Q i)
    (h : trigPeriod O C f i = .ok r) : Q r := by
  unfold trigPeriod at h
  split at h
  · next ts =>
    obtain ⟨o, ho, h⟩ := bind_ok.1 h
    cases o with
    | none => exact trigRest_G hQ hC hf wi h
    | some t =>
      obtain ⟨j, hj, h⟩ := bind_ok.1 h
      simp only [pure_ok] at h; subst h
      exact hf _ (opSub_G hQ hC wi (hQ.sumE wi t (findPeriod_mem ho)) hj)
  · exact trigRest_G hQ hC hf wi h

theorem trigNew_G (hC : Pres Q C) {f : TrigFn} (hf : ∀ i, Q i → Q (Expr.trig f i)) {i r : Expr} (wi : Q i)
    (h : trigNew O C f i = .ok r) : Q r := by
  unfold trigNew at h
  split at h
  · exact specialValue_G hQ hC h
  · split at h
    · obtain ⟨c, hc, h⟩ := bind_ok.1 h
      cases c with
      | rat q =>
        simp only at h
        split at h
        · exact specialValue_G hQ hC h
        · exact trigPeriod_G hQ hC hf wi h
      | _ => exact trigPeriod_G hQ hC hf wi h
    · exact trigRest_G hQ hC hf wi h

theorem trigCtor_G : ∀ (n : Nat) {f : TrigFn} (_ : ∀ i, Q i → Q (Expr.trig f i)) {i r : Expr}, Q i →
    trigCtor O n f i = .ok r → Q r
  | 0, f, _, i, r, _, h => by simp [trigCtor] at h
  | n + 1, f, hf, i, r, wi, h => by
    have hC := ctors_presG hQ n
    have oddc : (if i.isSubtraction = true then do
        let ni ← opNeg (ctors O n) i
        let s ← trigCtor O n f ni
        opNeg (ctors O n) s
      else trigNew O (ctors O n) f i) = .ok r → Q r := by
      intro h
      split at h
      · obtain ⟨ni, hn, h⟩ := bind_ok.1 h
        obtain ⟨s, hs, h⟩ := bind_ok.1 h
        exact opNeg_G hQ hC (trigCtor_G n hf (opNeg_G hQ hC wi hn) hs) h
      · exact trigNew_G hQ hC hf wi h
    cases f <;> simp only [trigCtor] at h <;> try exact trigNew_G hQ hC hf wi h
    · exact oddc h
    · obtain ⟨r', hr, h⟩ := bind_ok.1 h
      have wr := trigNew_G hQ hC hf wi hr
      split at h
      · split at h
        · obtain ⟨ni, hn, h⟩ := bind_ok.1 h
          simp only [pure_ok] at h; subst h
          exact hf _ (opNeg_G hQ hC wi hn)
        · simp only [pure_ok] at h; subst h; exact wr
      · simp only [pure_ok] at h; subst h; exact wr
    · exact oddc h

end

section
variable {Q X : Expr → Prop} (hQ : Closed Q X) {C : Ctors} {O : Oracle}
include hQ
theorem Closed.rat (q : ℚ) : Q (Expr.rat q) := hQ.acc rfl
theorem ctors_pres (O : Oracle) (n : Nat) : Pres Q (ctors O n) X := ctors_presG (hQ.g O) n
theorem logCtor_Q (hX : ∀ x, X x → Q x) (hl : ∀ i b, Q i → Q b → Q (Expr.log i b)) {i b r : Expr} (wi : Q i) (wb : Q b)
    (h : logCtor O i b = .ok r) : Q r := logCtor_G (hQ.g O) hX hl wi wb h
theorem opNeg_Q (O : Oracle) (hC : Pres Q C X) {t r : Expr} (ht : Q t) (h : opNeg C t = .ok r) : Q r :=
  opNeg_G (hQ.g O) hC ht h
theorem mkProdSkip_Q {ts : List Expr} {r : Expr} (h : mkProdSkip ts = .ok r) (hW : ∀ t ∈ ts, Q t) : Q r := by
  match ts, h with
  | [], h => simp only [mkProdSkip, Except.ok.injEq] at h; subst h; exact hQ.rat 1
  | [t], h =>
    simp only [mkProdSkip] at h
    split at h
    · simp at h
    · simp only [Except.ok.injEq] at h; subst h; exact hW t (by simp)
  | a :: b :: ts, h =>
    simp only [mkProdSkip, Except.ok.injEq] at h; subst h
    exact hQ.prod.2 hW
end
theorem trigCtor_Q {Q : Expr → Prop} (hQ : Closed Q) {O : Oracle} (n : Nat) {f : TrigFn}
    (hf : ∀ i, Q i → Q (Expr.trig f i)) {i r : Expr} (hi : Q i) (h : trigCtor O n f i = .ok r) : Q r :=
  trigCtor_G (hQ.g O) n hf hi h

/-! ## Instances -/

theorem symsL_mem {s : Str} : ∀ {ts : List Expr}, s ∈ symsL ts ↔ ∃ t ∈ ts, s ∈ syms t
  | [] => by simp [symsL]
  | t :: r => by simp [symsL, symsL_mem (ts := r)]

theorem anysL_mem {s : Str} : ∀ {ts : List Expr}, s ∈ anysL ts ↔ ∃ t ∈ ts, s ∈ anys t
  | [] => by simp [anysL]
  | t :: r => by simp [anysL, anysL_mem (ts := r)]

theorem containsClsL_iff {p : Expr → Bool} : ∀ {ts : List Expr}, containsClsL p ts = true ↔
    ∃ t ∈ ts, containsCls p t = true
  | [] => by simp [containsClsL]
  | t :: r => by simp [containsClsL, containsClsL_iff (ts := r)]

/-- all symbols of `e` are in `S` -/
theorem closed_syms (S : Str → Prop) : Closed (fun e => ∀ s ∈ syms e, S s) where
  acc := by intro c hc; cases c <;> simp_all [isAcc, syms]
  sum := by
    intro ts; simp only [syms, symsL_mem]
    constructor
    · intro h t ht s hs; exact h s ⟨t, ht, hs⟩
    · rintro h s ⟨t, ht, hs⟩; exact h t ht s hs
  prod := by
    intro ts; simp only [syms, symsL_mem]
    constructor
    · intro h t ht s hs; exact h s ⟨t, ht, hs⟩
    · rintro h s ⟨t, ht, hs⟩; exact h t ht s hs
  pow := by intro b x; simp only [syms, List.mem_append, or_imp, forall_and]
  x := .inl rfl
  absv := by intro i; simp only [syms]
  log := by intro i b; simp only [syms, List.mem_append, or_imp, forall_and]; exact ⟨And.left, And.right⟩
  trig := by intro f i; simp only [syms]; exact id

/-- no subexpression of a class `p` that contains no number, sum, product, power or absolute value -/
theorem closed_noCls {p : Expr → Bool} (h1 : ∀ c : Expr, c.isAcc = true → p c = false)
    (h2 : ∀ ts, p (sum ts) = false) (h3 : ∀ ts, p (prod ts) = false) (h4 : ∀ b x, p (pow b x) = false)
    (h5 : ∀ i, p (absv i) = false) : Closed (fun e => containsCls p e = false) where
  acc := by
    intro c hc
    have := h1 c hc
    cases c <;> simp_all [isAcc, containsCls]
  sum := by
    intro ts
    simp only [containsCls, h2, Bool.false_or]
    rw [Bool.eq_false_iff, ne_eq, containsClsL_iff]
    simp
  prod := by
    intro ts
    simp only [containsCls, h3, Bool.false_or]
    rw [Bool.eq_false_iff, ne_eq, containsClsL_iff]
    simp
  pow := by intro b x; simp [containsCls, h4]
  x := .inl rfl
  absv := by intro i; simp [containsCls, h5]
  log := by intro i b h; simp [containsCls] at h; exact h.2
  trig := by intro f i h; simp [containsCls] at h; exact h.2

theorem closed_noLog : Closed (fun e => containsCls isLog e = false) :=
  closed_noCls (by intro c; cases c <;> simp [isAcc, isLog]) (by simp [isLog]) (by simp [isLog])
    (by simp [isLog]) (by simp [isLog])

theorem closed_noInv : Closed (fun e => containsCls isInvTrig e = false) :=
  closed_noCls (by intro c; cases c <;> simp [isAcc, isInvTrig]) (by simp [isInvTrig]) (by simp [isInvTrig])
    (by simp [isInvTrig]) (by simp [isInvTrig])

end Simpy
