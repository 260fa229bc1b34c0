import Verif.Proofs.NFChain
import Verif.Spec.Factored
import Verif.Proofs.LinInside

/-! # Lemmas: the search on polynomials that are not multiplied out -/

namespace Simpy
open Expr
namespace NF

variable {O : Oracle} {v : Str} {n k : Nat} {ν : Supply} {as : List Node} {tr : Option Transf} {e : Expr}

/-! ## Sums -/

theorem add_all {as : List Node} {e : Expr} {ty : NType} : ∀ {ks : List Node} {cs : List Node}, (∀ c ∈ ks, ∀ cs, Node.refused O (Node.mk e v tr ty none false cs :: as) c = false) →
    Node.addChildren O as ks (Node.mk e v tr ty none false cs) = Node.mk e v tr ty none false (cs ++ ks)
  | [], cs, _ => by simp [Node.addChildren]
  | c :: r, cs, h => by
    rw [Node.addChildren, Node.addChild, h c (by simp), if_neg (by simp), add_all fun d hd => h d (by simp [hd])]
    simp

theorem map_runs {P : Node → Expr → Prop} {S : Expr → Expr} (f : Nat → Node → R Node) {g : Expr → Node} : ∀ {ts : List Expr} (i : Nat),
    (∀ t ∈ ts, ∀ i, ∃ t', f i (g t) = .ok t' ∧ P t' (S t)) → ∃ xs : List (Node × Expr), Node.mapIdxR f i (ts.map g) = .ok (xs.map Prod.fst) ∧
      xs.map Prod.snd = ts.map S ∧ ∀ x ∈ xs, P x.1 x.2
  | [], i, _ => ⟨[], rfl, rfl, by simp⟩
  | t :: r, i, h => by
    obtain ⟨t', h1, h2⟩ := h t (by simp) i
    obtain ⟨xs, k1, k2, k3⟩ := map_runs (P := P) (S := S) f (ts := r) (i + 1) fun u hu => h u (by simp [hu])
    refine ⟨(t', S t) :: xs, ?_, by simp [k2], ?_⟩
    · rw [List.map_cons, Node.mapIdxR, h1, ok_bind, k1]; rfl
    · exact List.forall_mem_cons.2 ⟨h2, k3⟩

theorem ready_sum {ts : List Expr} {S : Expr → Expr} {G : Expr} (hne : ts ≠ []) (hp : ∀ t ∈ ts, PolyExpr O t)
    (hno : ∀ t ∈ ts, t ≠ sum ts ∧ ∀ a ∈ as, a.var = v ∧ a.expr ≠ t)
    (run : ∀ t ∈ ts, ∀ (ν' : Supply) (cs : List Node), ∃ t', Node.safely O n k ν' (Node.mk (sum ts) v tr .and none false cs :: as) (Node.leaf t v .additivity) = .ok t' ∧
      Node.Ready O n v t' (S t) ∧ t'.tr = some .additivity)
    (hs : (ctors O n).sum (ts.map S) = .ok G) : ∃ t, Node.safely O n (k + 1) ν as (Node.mk (sum ts) v tr .unset none false []) = .ok t ∧
      Node.Ready O n v t G ∧ t.tr = tr := by
  have hpl : Node.safePlan O n ν as (Node.mk (sum ts) v tr .unset none false []) =
      .ok (some { ty := some .and, kids := ts.map fun t => Node.leaf t v .additivity }) := rfl
  have had : Node.addChildren O as (ts.map fun t => Node.leaf t v .additivity) (Node.mk (sum ts) v tr .and none false []) =
      Node.mk (sum ts) v tr .and none false (ts.map fun t => Node.leaf t v .additivity) := by
    rw [add_all, List.nil_append]
    intro c hc cs
    obtain ⟨t, ht, rfl⟩ := List.mem_map.1 hc
    refine not_refused (hp t ht) (fun a ha => ?_) _
    rcases List.mem_cons.1 ha with rfl | ha
    · exact ⟨rfl, Ne.symm (hno t ht).1⟩
    · exact (hno t ht).2 a ha
  obtain ⟨xs, k1, k2, k3⟩ := map_runs (P := fun t' F => Node.Ready O n v t' F ∧ t'.tr = some .additivity) (S := S)
    (fun i c => Node.safely O n k (ν.child i) (Node.mk (sum ts) v tr .and none false (ts.map fun t => Node.leaf t v .additivity) :: as) c)
    (g := fun t => Node.leaf t v .additivity) (ts := ts) 0 fun t ht i => run t ht _ _
  refine ⟨Node.mk (sum ts) v tr .and none false (xs.map Prod.fst), ?_, .sum xs ?_ (fun x hx => (k3 x hx).1) (fun x hx => (k3 x hx).2) (by rw [k2]; exact hs), rfl⟩
  · rw [Node.safely, hpl, ok_bind]
    simp only [Option.getD, Node.Plan.apply, Node.setType, had, Node.children, k1, ok_bind, Node.withChildren]
    rfl
  · rintro rfl
    simp at k2
    exact hne k2

/-! ## Polynomials that are multiplied out -/

theorem toMv_polyE (hO : O.Exact) {p : MvPolynomial Str ℚ} (hg : Good p) : toMv (polyE O p) = p :=
  ev_inj fun ρ => by rw [← den_toMv ρ (polyExpr_polyE hO hg), ev_polyE]

theorem toMv_mono {c : ℚ} {d : Str →₀ ℕ} (hg : GoodD d) : toMv (mono O c d) = mon (c, d) :=
  ev_inj fun ρ => by rw [← den_toMv ρ (polyExpr_mono hg), ← polyE_mono, ev_polyE, mon]

theorem len_le (c : ℚ) (d : Str →₀ ℕ) : len O c d ≤ d.support.card + 1 := by
  unfold len
  by_cases h0 : c = 0
  · subst h0; rw [mono_zero]; simp [flatP]
  · rw [flat_mono h0, List.length_append, fs_length]
    split <;> simp <;> omega

/-- No ancestor is a monomial. -/
def Free (O : Oracle) (v : Str) (as : List Node) : Prop := ∀ a ∈ as, a.var = v ∧ ∀ c d, a.expr ≠ mono O c d

theorem free_above {m : ℕ} {as : List Node} (h : Free O v as) : Above O v m as := fun a ha => ⟨(h a ha).1, fun c d _ => (h a ha).2 c d⟩

theorem free_sum {ts : List Expr} {cs : List Node} {ty : NType} {as : List Node} (h : Free O v as) :
    Free O v (Node.mk (sum ts) v tr ty none false cs :: as) := by
  intro a ha
  rcases List.mem_cons.1 ha with rfl | ha
  · refine ⟨rfl, fun c d hx => ?_⟩
    have := sum_mono (O := O) c d
    rw [← show sum ts = mono O c d from hx] at this
    cases this
  · exact h a ha

/-- How many symbols occur together. -/
def Width (m : ℕ) (p : MvPolynomial Str ℚ) : Prop := ∀ d ∈ p.support, d.support.card ≤ m

theorem ready_polyE (hO : O.Exact) {p : MvPolynomial Str ℚ} (hv : goodName v = true) (hg : Good p) {m : ℕ} (hw : Width m p) (ha : Free O v as) (hk : m + 1 < k) :
    ∃ t, Node.safely O (n + 8) k ν as (.mk (polyE O p) v tr .unset none false []) = .ok t ∧ Node.Ready O (n + 8) v t (polyE O (A v p)) ∧ t.tr = tr := by
  have hm : ∀ {c d k ν as tr}, MvPolynomial.coeff d p = c → c ≠ 0 → m < k → Free O v as → ∃ t, Node.safely O (n + 8) k ν as (.mk (mono O c d) v tr .unset none false []) = .ok t ∧
      Node.Ready O (n + 8) v t (polyE O (A v (mon (c, d)))) ∧ t.tr = tr := by
    intro c d k ν as tr hc h0 hk ha
    have hd : d ∈ p.support := by rw [MvPolynomial.mem_support_iff, hc]; exact h0
    obtain ⟨t, h1, h2, h3⟩ := ready_mono (O := O) (v := v) n m (c := c) (d := d) (k := k) (ν := ν) (as := as) (tr := tr) (hg d hd)
      ((len_le c d).trans (by have := hw d hd; omega)) hk (free_above ha)
    refine ⟨t, h1, ?_, h3⟩
    rw [A_mon, mon, polyE_mono]; exact h2
  rcases polyE_cases (O := O) p with ⟨c, d, rfl⟩ | ⟨h, hlen⟩
  · rw [polyE_mono]
    by_cases h0 : c = 0
    · subst h0
      obtain ⟨t, h1, h2, h3⟩ := ready_mono (O := O) (v := v) n 0 (c := 0) (d := 0) (k := k) (ν := ν) (as := as) (tr := tr) (by intro s hs; simp at hs)
        (by simpa using len_le (O := O) 0 0) (by omega) (free_above ha)
      refine ⟨t, by rw [mono_zero] at h1 ⊢; exact h1, ?_, h3⟩
      have : A v (MvPolynomial.monomial d 0) = 0 := by simp
      rw [this]
      simp only [I, zero_div, mono_zero] at h2
      rw [show polyE O 0 = rat 0 by rw [← polyE_C 0, map_zero]]
      exact h2
    · exact hm (MvPolynomial.coeff_monomial d d c ▸ by simp) h0 (by omega) ha
  · obtain ⟨l, h1, h2, h3, -⟩ := terms_list (O := O) p
    obtain ⟨k, rfl⟩ : ∃ j, k = j + 1 := ⟨k - 1, by omega⟩
    have gl : ∀ q ∈ l, GoodD q.2 := fun q hq => hg q.2 (by
      rw [MvPolynomial.mem_support_iff, ← (h3 q hq).1]; exact (h3 q hq).2)
    have hl : l ≠ [] := by
      rintro rfl
      have : (terms O p).length = 0 := by
        rw [← (sorted_perm (O := O) (terms O p)).length_eq, ← List.length_reverse, h1]; rfl
      omega
    rw [h, h1]
    have hs : (ctors O (n + 8)).sum ((monos O l).map fun e => polyE O (A v (toMv e))) = .ok (polyE O (A v p)) := by
      have := sum_polys hO (n + 2) ((l.map mon).map (A v)) (fun q hq => by
        obtain ⟨_, h4, rfl⟩ := List.mem_map.1 hq
        obtain ⟨q, h5, rfl⟩ := List.mem_map.1 h4
        exact good_A hv (good_mon (gl q h5)))
      rw [← A_list, ← pol_mon, h2] at this
      rw [← this]
      congr 1
      unfold monos
      simp only [List.map_map]
      refine List.map_congr_left fun q hq => ?_
      simp only [Function.comp]
      congr 2
      exact toMv_mono (gl q hq)
    refine ready_sum (by simpa [monos] using hl) ?_ ?_ ?_ hs
    · intro t ht
      obtain ⟨q, hq, rfl⟩ := List.mem_map.1 ht
      exact polyExpr_mono (gl q hq)
    · intro t ht
      obtain ⟨q, hq, rfl⟩ := List.mem_map.1 ht
      refine ⟨fun hx => ?_, fun a h => ⟨(ha a h).1, (ha a h).2 _ _⟩⟩
      have := sum_mono (O := O) q.1 q.2
      rw [hx] at this
      cases this
    · intro t ht ν' cs
      obtain ⟨q, hq, rfl⟩ := List.mem_map.1 ht
      obtain ⟨t, k1, k2, k3⟩ := hm (c := q.1) (d := q.2) (k := k) (ν := ν') (tr := some .additivity) (h3 q hq).1.symm (h3 q hq).2 (by omega)
        (free_sum (tr := tr) (ts := monos O l) (cs := cs) (ty := .and) ha)
      refine ⟨t, k1, ?_, k3⟩
      rw [toMv_mono (gl q hq)]
      exact k2

/-! ## Multiplying out -/

theorem able_term (hO : O.Exact) {t : Expr} (hp : PolyExpr O t) (h : PolyTerm t) (n : Nat) : expandableE O (n + 3) t = .ok false := by
  have hsp : ∀ {s u} (n : Nat), SymPower s u → expandableE O (n + 2) u = .ok false := by
    intro s u n hu
    cases hu with
    | one => rfl
    | power k hk =>
      have := able_vp (O := O) n s k
      rcases vp_cases s k with ⟨h1, _⟩ | ⟨_, e⟩
      · omega
      · rwa [e] at this
  have hsum : ∀ {s u}, SymPower s u → u.isSum = false := by
    intro s u hu
    cases hu <;> rfl
  have hprod : ∀ {ts : List Expr}, PolyExpr O (prod ts) → (∀ u ∈ ts, (∃ q, u = rat q) ∨ ∃ s, SymPower s u) → expandableE O (n + 3) (prod ts) = .ok false := by
    intro ts hp hl
    rw [expandableE, anyR_false fun u hu => ?_, ok_bind]
    · simp only [Bool.false_eq_true, if_false]
      cases hp with
      | prod m hts hnp hc =>
        obtain ⟨us, X, δ, h1, -⟩ := numDen_poly (C := ctors O (n + 2)) hts hnp (acc_le hO (.prod m hts hnp hc))
        rw [h1]; rfl
    · rcases hl u hu with ⟨q, rfl⟩ | ⟨s, hs⟩
      · rfl
      · rw [hsum hs]; exact hsp n hs
  have hpp : ∀ {ts : List Expr}, PowerProduct ts → ∀ u ∈ ts, ∃ s, SymPower s u := by
    rintro ts ⟨ss, -, hf⟩ u hu
    induction hf with
    | nil => cases hu
    | cons h1 _ ih =>
      rcases List.mem_cons.1 hu with rfl | hu
      · exact ⟨_, h1⟩
      · exact ih hu
  cases h with
  | num q => rfl
  | power hs => exact hsp (n + 1) hs
  | prod _ h => exact hprod hp fun u hu => .inr (hpp h u hu)
  | scaled _ _ _ h =>
    refine hprod hp fun u hu => ?_
    rcases List.mem_cons.1 hu with rfl | hu
    · exact .inl ⟨_, rfl⟩
    · exact .inr (hpp h u hu)

theorem pull_none {C : Ctors} : ∀ {l pre : List Expr}, (∀ f ∈ l, v ∈ syms f) → pullLoop C v pre l = .ok none
  | [], _, _ => rfl
  | t :: r, pre, h => by
    rw [pullLoop, if_pos (h t (by simp)), pull_none fun f hf => h f (by simp [hf])]

/-- Nothing but Additivity and PullConstant. -/
def Quiet : Option Transf → Prop
  | none => True
  | some t => Node.isLinearity t = true

theorem quiet_last : ∀ {l : List Node}, (∀ a ∈ l, Quiet a.tr) → Node.lastTr Node.isLinearity l = none
  | [], _ => rfl
  | t :: r, h => by
    have h1 := h t (by simp)
    rw [Node.lastTr]
    cases ht : t.tr with
    | none => rfl
    | some x =>
      rw [ht] at h1
      dsimp only
      rw [if_pos (show Node.isLinearity x = true from h1)]
      exact quiet_last fun a ha => h a (by simp [ha])

/-- The ancestors of a polynomial that is not multiplied out yet. -/
def Upper (O : Oracle) (v : Str) (N : Nat) (as : List Node) : Prop :=
  ∀ a ∈ as, a.var = v ∧ expandableE O N a.expr = .ok true ∧ Quiet a.tr

theorem upper_free {as : List Node} {N : Nat} (h : Upper O v (N + 3) as) : Free O v as := fun a ha => ⟨(h a ha).1, fun c d hx => by
  have := (h a ha).2.1
  rw [hx, able_mono N c d] at this
  cases this⟩

theorem no_fraction (hO : O.Exact) {ts : List Expr} (hp : PolyExpr O (prod ts)) (hv : ∀ f ∈ ts, v ∈ syms f) (n : Nat) : fractionLists O n v ts = .ok none := by
  cases hp with
  | prod m hts hnp hc =>
    obtain ⟨us, qs, h1, h2, h3, h4, h5⟩ := numDen_polyLoop (C := ctors O n) hts hnp
    have h0 : ts.filter isAcc = [] := by
      rw [List.filter_eq_nil_iff]
      intro t ht hx
      have := hv t ht
      cases hts t ht <;> simp_all [isAcc, syms]
    rw [h0] at h5
    have hq : qs = [] := List.length_eq_zero_iff.1 (by simpa using h5)
    subst hq
    obtain ⟨us', X, δ, k1, k2, k3, -⟩ := numDen_poly (C := ctors O n) hts hnp (by rw [h0]; simp)
    have hd : δ = 1 := by
      unfold numDen at k1
      rw [h1, ok_bind] at k1
      dsimp only at k1
      obtain ⟨Y, _, k4⟩ := bind_ok.1 k1
      simp [mkProdSkip, bind, Except.bind, pure, Except.pure] at k4
      exact k4.2.symm
    subst hd
    unfold fractionLists
    rw [k1, ok_bind]
    simp [beq, pure, Except.pure]

theorem safely_expand {n k : Nat} {e g : Expr} {t' : Node} (hs : ∀ ts, e ≠ sum ts) (hp : pullConstant O n v e = .ok none)
    (h1 : partialFractions O n v e = .ok none) (h2 : polyDiv O n n v e = .ok none)
    (hq : Node.isSquare (Node.lastTr Node.isLinearity (Node.mk e v tr .unset none false [] :: as)) = false)
    (hx : expandT O n e = .ok (some g))
    (hr : Node.refused O (Node.mk e v tr .unset none false [] :: as) (Node.leaf g v .expand) = false)
    (hc : Node.safely O n k (ν.child 0) (Node.mk e v tr .unset none false [Node.leaf g v .expand] :: as) (Node.leaf g v .expand) = .ok t') :
    Node.safely O n (k + 1) ν as (Node.mk e v tr .unset none false []) = .ok (Node.mk e v tr .unset none false [t']) := by
  have ha : Node.additivityPlan v e = .ok none := by
    cases e <;> first | rfl | exact absurd rfl (hs _)
  have hpl : Node.safePlan O n ν as (Node.mk e v tr .unset none false []) = .ok (some { kids := [Node.leaf g v .expand] }) := by
    simp only [Node.safePlan, Node.expr, Node.var, ha, hp, h1, h2, hq, hx, Node.orElseR, Except.map, Node.planOpt, Bool.false_eq_true, if_false]
  rw [Node.safely]
  simp only [hpl, bind, Except.bind, Option.getD, Node.Plan.apply, Node.addChildren, Node.addChild, hr, Bool.false_eq_true, if_false,
      List.nil_append, Node.children, Node.mapIdxR, hc, pure, Except.pure, Node.withChildren]

/-- A summand. -/
theorem ready_summand (hO : O.Exact) {t : Expr} (hv : goodName v = true) (h : PolySummand O v t) {m : ℕ} (hw : Width m (toMv t)) (ha : Upper O v (n + 8) as)
    (hq : Quiet tr) (hk : m + 2 < k) (hn : height t ≤ n) : ∃ t', Node.safely O (n + 8) k ν as (.mk t v tr .unset none false []) = .ok t' ∧
      Node.Ready O (n + 8) v t' (polyE O (A v (toMv t))) ∧ t'.tr = tr := by
  have hg := good_toMv h.poly
  obtain ⟨b, hb⟩ := able_ok hO h.poly (n := n + 8) (by omega)
  cases b with
  | false =>
    have he := done_poly hO h.poly hb
    obtain ⟨t', h1, h2, h3⟩ := ready_polyE (O := O) (v := v) (n := n) (k := k) (ν := ν) (as := as) (tr := tr) hO hv hg hw (upper_free (N := n + 5) ha) (by omega)
    exact ⟨t', by rw [he]; exact h1, h2, h3⟩
  | true =>
    obtain ⟨k, rfl⟩ : ∃ j, k = j + 1 := ⟨k - 1, by omega⟩
    have up : ∀ cs, Upper O v (n + 8) (Node.mk t v tr .unset none false cs :: as) := fun cs a hm => by
      rcases List.mem_cons.1 hm with rfl | hm
      · exact ⟨rfl, hb, hq⟩
      · exact ha a hm
    have hx : expandT O (n + 8) t = .ok (some (polyE O (toMv t))) := by
      have := expand_poly hO h.poly (n := n + 8) (by omega)
      unfold expandOr at this
      rw [hb, ok_bind] at this
      unfold expandT
      rw [hb, ok_bind]
      simp only [if_true] at this ⊢
      rw [this]; rfl
    have hsum : ∀ ts, t ≠ sum ts := by
      rintro ts rfl
      exact absurd h.noSum (by simp [isSum])
    have hfac : ∀ ts, t = prod ts → ∀ f ∈ ts, v ∈ syms f := by
      intro ts ht
      refine (h.shape ts ht).resolve_left fun hterm => ?_
      rw [able_term hO h.poly hterm (n + 5)] at hb
      cases hb
    have h3 : pullConstant O (n + 8) v t = .ok none ∧ partialFractions O (n + 8) v t = .ok none ∧ polyDiv O (n + 8) (n + 8) v t = .ok none := by
      have hp := h.poly
      cases hp with
      | @prod j ts a b c =>
        have hf := hfac ts rfl
        have nf := no_fraction (v := v) hO (.prod j a b c) hf (n + 8)
        refine ⟨pull_none hf, ?_, ?_⟩
        · rw [partialFractions, nf]; rfl
        · rw [polyDiv, nf]; split <;> rfl
      | _ => exact ⟨rfl, rfl, rfl⟩
    have hr : Node.refused O (Node.mk t v tr .unset none false [] :: as) (Node.leaf (polyE O (toMv t)) v .expand) = false :=
      not_refused (polyExpr_polyE hO hg) (fun a hm => ⟨(up [] a hm).1, fun hx => by
        have := (up [] a hm).2.1
        rw [hx, able_polyE (n + 4)] at this
        cases this⟩) _
    obtain ⟨t', k1, k2, k3⟩ := ready_polyE (O := O) (v := v) (n := n) (k := k) (ν := ν.child 0) (as := Node.mk t v tr .unset none false [Node.leaf (polyE O (toMv t)) v .expand] :: as)
      (tr := some .expand) hO hv hg hw (upper_free (N := n + 5) (up _)) (by omega)
    exact ⟨_, safely_expand hsum h3.1 h3.2.1 h3.2.2 (by rw [quiet_last fun a hm => (up [] a hm).2.2]; rfl) hx hr k1, .one k2 k3 rfl rfl, rfl⟩

/-- A sum of summands. -/
theorem ready_summands (hO : O.Exact) {e : Expr} (hv : goodName v = true) (h : PolySummands O v e) {m : ℕ} (hw : Width m (toMv e))
    (hw' : ∀ ts, e = sum ts → ∀ t ∈ ts, Width m (toMv t)) (ha : Upper O v (n + 8) as)
    (hb : ∀ a ∈ as, sizeOf e < sizeOf a.expr) (hq : Quiet tr) (hk : m + 3 < k) (hn : height e ≤ n) :
    ∃ t', Node.safely O (n + 8) k ν as (.mk e v tr .unset none false []) = .ok t' ∧ Node.Ready O (n + 8) v t' (polyE O (A v (toMv e))) ∧ t'.tr = tr := by
  cases h with
  | term h => exact ready_summand hO hv h hw ha hq (by omega) hn
  | @sum ts hp hts =>
    have hg := good_toMv hp
    obtain ⟨b, hbl⟩ := able_ok hO hp (n := n + 8) (by omega)
    cases b with
    | false =>
      have he := done_poly hO hp hbl
      obtain ⟨t', h1, h2, h3⟩ := ready_polyE (O := O) (v := v) (n := n) (k := k) (ν := ν) (as := as) (tr := tr) hO hv hg hw (upper_free (N := n + 5) ha) (by omega)
      exact ⟨t', by rw [he]; exact h1, h2, h3⟩
    | true =>
      obtain ⟨k, rfl⟩ : ∃ j, k = j + 1 := ⟨k - 1, by omega⟩
      have hne : ts ≠ [] := by
        rintro rfl
        cases hbl
      have hs : (ctors O (n + 8)).sum (ts.map fun t => polyE O (A v (toMv t))) = .ok (polyE O (A v (toMv (sum ts)))) := by
        have := sum_polys hO (n + 2) ((ts.map toMv).map (A v)) (fun q hq => by
          obtain ⟨_, h4, rfl⟩ := List.mem_map.1 hq
          obtain ⟨t, h5, rfl⟩ := List.mem_map.1 h4
          exact good_A hv (good_toMv (hts t h5).poly))
        rw [← A_list, ← toMv_sum] at this
        rw [← this]
        simp only [List.map_map, Function.comp_def]
      refine ready_sum hne (fun t ht => (hts t ht).poly) ?_ ?_ hs
      · intro t ht
        have hlt : sizeOf t < sizeOf (sum ts) := by
          have := List.sizeOf_lt_of_mem ht
          simp; omega
        refine ⟨fun hx => by rw [← hx] at hlt; omega, fun a hm => ⟨(ha a hm).1, fun hx => ?_⟩⟩
        have := hb a hm
        rw [hx] at this; omega
      · intro t ht ν' cs
        refine ready_summand hO hv (hts t ht) (hw' ts rfl t ht) (fun a hm => ?_) rfl (by omega) ?_
        · rcases List.mem_cons.1 hm with rfl | hm
          · exact ⟨rfl, hbl, hq⟩
          · exact ha a hm
        · have := heightL_mem ht
          rw [height] at hn; omega

/-! ## The way back through a number -/

theorem mem_syms_mono {c : ℚ} {d : Str →₀ ℕ} {s : Str} (h0 : c ≠ 0) (hs : d s ≠ 0) : s ∈ syms (mono O c d) := by
  have d0 : d ≠ 0 := by rintro rfl; simp at hs
  have hf := flat_mono (O := O) (d := d) h0
  have hm : vp s (d s) ∈ flatP (mono O c d) := by
    rw [hf]; exact List.mem_append_right _ (mem_fs.2 ⟨s, by omega, rfl⟩)
  rcases mono_form (O := O) h0 d0 with ⟨s', k, _, _, e⟩ | ⟨e, -⟩
  · rw [e, flat_vp] at hm
    have := List.mem_singleton.1 hm
    rw [e, ← this, syms_vp]; simp
  · rw [e]
    generalize flatP (mono O c d) = L at *
    exact mem_symsL.2 ⟨_, hm, by rw [syms_vp]; simp⟩

theorem prod_rat_sum {C : Ctors} {q : ℚ} {ws : List Expr} {m : ℕ} (h0 : q ≠ 0) (h1 : q ≠ 1) (hn : Simpy.nwf (sum ws) = .ok (m + 1)) :
    prodCtor O C [rat q, sum ws] = if q = -1 then opNeg C (sum ws) else .ok (prod [rat q, sum ws]) := by
  have hc : combineProd O C (flatPL [rat q, sum ws]) = .ok [sum ws, rat q] := by
    simp [flatPL, Simpy.flatP, combineProd, combineProdLoop, deconPow, beq, isAcc, bind, Except.bind, pure, Except.pure, h0, h1,
      show accumulateProd O [rat q] = .ok (rat q) from by simpa using accumulateProd_rat (O := O) (qs := [q]) ]
  have hr : Simpy.nwf (rat q) = .ok 0 := by simp [Simpy.nwf]
  have hlt : cmpLt C (rat q) (sum ws) = .ok true := by
    unfold cmpLt
    rw [hr, hn]
    simp [bind, Except.bind, pure, Except.pure]
  have hs : sortTerms C [sum ws, rat q] = .ok [rat q, sum ws] := by
    unfold sortTerms pySorted
    simp only [countRun, hlt, ok_bind]
    simp [runTail, binarySort, bind, Except.bind, pure, Except.pure]
  unfold prodCtor
  rw [hc, ok_bind]
  dsimp only
  rw [hs, ok_bind]
  simp [beq]
  rfl

theorem nwf_all : ∀ {l : List Expr}, (∀ t ∈ l, Ok (Simpy.nwf t)) → ∃ ks, nwfAll l = .ok ks ∧ ks.length = l.length
  | [], _ => ⟨[], rfl, rfl⟩
  | t :: r, h => by
    obtain ⟨k, hk⟩ := h t (by simp)
    obtain ⟨ks, h1, h2⟩ := nwf_all (l := r) fun u hu => h u (by simp [hu])
    exact ⟨k :: ks, by simp [nwfAll, hk, h1, bind, Except.bind, pure, Except.pure], by simp [h2]⟩

theorem nwf_poly {p : MvPolynomial Str ℚ} {ws : List Expr} (h : polyE O p = sum ws) : ∃ m, Simpy.nwf (sum ws) = .ok (m + 1) := by
  rcases polyE_cases (O := O) p with ⟨c, d, rfl⟩ | ⟨h', hlen⟩
  · rw [polyE_mono] at h
    have := sum_mono (O := O) c d
    rw [h] at this; cases this
  · obtain ⟨l, h1, h2, h3, h4⟩ := terms_list (O := O) p
    rw [h', h1] at h
    cases h
    have hl : 2 ≤ l.length := by
      have : l.length = (terms O p).length := by
        have := congrArg List.length h1
        simp [monos] at this
        rw [← this, (sorted_perm (O := O) (terms O p)).length_eq]
      omega
    obtain ⟨ks, k1, k2⟩ := nwf_all (l := monos O l) fun t ht => by
      obtain ⟨q, _, rfl⟩ := List.mem_map.1 ht
      exact (fine_mono (O := O) 0 q.1 q.2).1
    have hk : ∃ m, maxNat ks = .ok m := by
      cases ks with
      | nil => simp [monos] at k2; omega
      | cons a r => exact ⟨_, rfl⟩
    obtain ⟨m, hm⟩ := hk
    have hv : varies (sum (monos O l)) = true := by
      by_contra hx
      simp only [varies, syms, Bool.or_eq_true, Bool.not_eq_true', List.isEmpty_eq_false_iff, not_or, not_not] at hx
      have hz : ∀ q ∈ l, q.2 = 0 := by
        intro q hq
        by_contra hd
        obtain ⟨s, hs⟩ := Finsupp.ne_iff.1 hd
        have : s ∈ symsL (monos O l) := mem_symsL.2 ⟨_, List.mem_map.2 ⟨q, hq, rfl⟩, mem_syms_mono (h3 q hq).2 (by simpa using hs)⟩
        rw [hx.1] at this; cases this
      match l, hl with
      | a :: b :: r, _ =>
        have e1 := hz a (by simp)
        have e2 := hz b (by simp)
        simp [e1, e2] at h4
    exact ⟨m, by rw [Simpy.nwf, if_pos hv, k1, ok_bind, hm, ok_bind, Nat.add_comm]; rfl⟩

theorem prodCtor_fuel (n : Nat) (ts : List Expr) : (ctors O (n + 1)).prod ts = prodCtor O (ctors O n) ts := rfl

/-! ## Heights -/

theorem height_vp (s : Str) (k : ℕ) : height (vp s k) ≤ 1 := by
  rcases vp_cases s k with ⟨_, e⟩ | ⟨_, e⟩ <;> rw [e] <;> simp [height]

theorem heightL_le {m : ℕ} : ∀ {l : List Expr}, (∀ t ∈ l, height t ≤ m) → heightL l ≤ m
  | [], _ => Nat.zero_le _
  | t :: r, h => by
    rw [heightL]
    exact max_le (h t (by simp)) (heightL_le fun u hu => h u (by simp [hu]))

theorem height_leaf {f : Expr} (h : Leaf f) : height f ≤ 1 := by
  cases h with
  | num q => simp [height]
  | pow s k _ => exact height_vp s k

theorem height_mono (c : ℚ) (d : Str →₀ ℕ) : height (mono O c d) ≤ 2 := by
  have hl := mono_leaves (O := O) (c := c) (d := d)
  rcases mono_split (O := O) (c := c) (d := d) with h | ⟨_, _, e, _⟩
  · exact (height_leaf h).trans (by omega)
  · rw [e]
    generalize flatP (mono O c d) = L at *
    rw [height]
    have := heightL_le (m := 1) (l := L) fun t ht => height_leaf (hl t ht)
    omega

theorem height_polyE (p : MvPolynomial Str ℚ) : height (polyE O p) ≤ 3 := by
  rcases polyE_cases (O := O) p with ⟨c, d, rfl⟩ | ⟨h, _⟩
  · rw [polyE_mono]; exact (height_mono c d).trans (by omega)
  · obtain ⟨l, h1, _⟩ := terms_list (O := O) p
    rw [h, h1, height]
    have := heightL_le (m := 2) (l := monos O l) fun t ht => by
      obtain ⟨q, _, rfl⟩ := List.mem_map.1 ht; exact height_mono _ _
    omega

/-! ## Width -/

theorem vars_le {e : Expr} (h : PolyExpr O e) : ∀ s ∈ (toMv e).vars, s ∈ syms e := by
  induction h with
  | rat q => rw [toMv_rat, MvPolynomial.vars_C]; simp
  | sym s hs => rw [toMv_sym, MvPolynomial.vars_X]; simp [syms]
  | @sum n ts _ _ ih =>
    rw [toMv_sum, syms]
    clear * - ih
    induction ts with
    | nil => simp
    | cons t r ihr =>
      intro s hs
      rw [List.map_cons, List.sum_cons] at hs
      rw [symsL, List.mem_append]
      rcases Finset.mem_union.1 (MvPolynomial.vars_add_subset _ _ hs) with h | h
      · exact .inl (ih t (by simp) s h)
      · exact .inr (ihr (fun u hu => ih u (by simp [hu])) s h)
  | @prod n ts _ _ _ ih =>
    rw [toMv_prod, syms]
    clear * - ih
    induction ts with
    | nil => simp
    | cons t r ihr =>
      intro s hs
      rw [List.map_cons, List.prod_cons] at hs
      rw [symsL, List.mem_append]
      rcases Finset.mem_union.1 (MvPolynomial.vars_mul _ _ hs) with h | h
      · exact .inl (ih t (by simp) s h)
      · exact .inr (ihr (fun u hu => ih u (by simp [hu])) s h)
  | @pow n b k _ _ _ _ ih =>
    intro s hs
    rw [toMv_pow] at hs
    rw [syms, List.mem_append]
    exact .inl (ih s (MvPolynomial.vars_pow _ _ hs))

theorem width_poly {e : Expr} (h : PolyExpr O e) {l : List Str} (hl : ∀ s ∈ syms e, s ∈ l) : Width l.length (toMv e) := by
  intro d hd
  have : d.support ⊆ l.toFinset := fun s hs => by
    rw [List.mem_toFinset]
    exact hl s (vars_le h s (MvPolynomial.mem_vars s |>.2 ⟨d, hd, hs⟩))
  exact (Finset.card_le_card this).trans (List.toFinset_card_le l)

/-! ## A number times a polynomial -/

theorem scale_polyE (hO : O.Exact) (n : Nat) {q : ℚ} (h0 : q ≠ 0) (h1 : q ≠ 1) {p : MvPolynomial Str ℚ} (hg : Good p) :
    ∃ F, opMul (ctors O (n + 8)) (rat q) (polyE O p) = .ok F ∧ PolyExpr O F ∧ toMv F = MvPolynomial.C q * p ∧ height F ≤ 4 := by
  have hC : Good (MvPolynomial.C q * p) := good_mul (good_C q) hg
  have fin : opMul (ctors O (n + 8)) (rat q) (polyE O p) = .ok (polyE O (MvPolynomial.C q * p)) → ∃ F, opMul (ctors O (n + 8)) (rat q) (polyE O p) = .ok F ∧
      PolyExpr O F ∧ toMv F = MvPolynomial.C q * p ∧ height F ≤ 4 := fun h =>
    ⟨_, h, polyExpr_polyE hO hC, toMv_polyE hO hC, (height_polyE _).trans (by omega)⟩
  rcases polyE_cases (O := O) p with ⟨c, d, rfl⟩ | ⟨h, hlen⟩
  · refine fin ?_
    have hm := prod_mono2 (O := O) (n + 5) q c 0 d
    rw [mono_const, zero_add] at hm
    rw [MvPolynomial.C_mul_monomial, polyE_mono, polyE_mono, ← hm]
    generalize mono O c d = g at *
    cases g <;> first | rfl | skip
    rename_i r
    have := prod_mono2 (O := O) (n + 5) q r 0 0
    rw [mono_const, mono_const, zero_add, mono_const] at this
    rw [this]; rfl
  · set ws := (sorted O (terms O p)).reverse
    obtain ⟨m, hm⟩ := nwf_poly h
    have hp := prod_rat_sum (O := O) (C := ctors O (n + 7)) h0 h1 hm
    have hop : opMul (ctors O (n + 8)) (rat q) (polyE O p) = prodCtor O (ctors O (n + 7)) [rat q, sum ws] := by
      rw [h]; rfl
    by_cases hq : q = -1
    · refine fin ?_
      rw [hop, hp, if_pos hq, ← h, neg_polyE hO (n + 1) hg, hq]
      simp
    · rw [if_neg hq] at hp
      refine ⟨_, hop.trans hp, .prod (n + 8) ?_ ?_ hp, ?_, ?_⟩
      · intro t ht
        simp at ht
        rcases ht with rfl | rfl
        · exact .rat q
        · rw [← h]; exact polyExpr_polyE hO hg
      · intro t ht
        simp at ht
        rcases ht with rfl | rfl <;> rfl
      · rw [toMv_prod, ← h]
        simp [toMv_rat, toMv_polyE hO hg]
      · rw [height, ← h]
        have := height_polyE (O := O) p
        simp [heightL, height]; omega

/-! ## The whole search -/

theorem pull_rat {C : Ctors} {q : ℚ} {r : List Expr} : ∀ {l pre : List Expr}, (∀ f ∈ l, v ∈ syms f) → pullLoop C v pre (l ++ rat q :: r) = (do
    let g ← C.prod (pre ++ l ++ r)
    return some (rat q, g))
  | [], pre, _ => by simp [pullLoop, syms]
  | t :: l, pre, h => by
    rw [List.cons_append, pullLoop, if_pos (h t (by simp)), pull_rat fun f hf => h f (by simp [hf])]
    simp

theorem size_productOf {q : ℚ} {pre r : List Expr} : sizeOf (productOf (pre ++ r)) < sizeOf (prod (pre ++ rat q :: r)) := by
  have hl : ∀ a b : List Expr, sizeOf (a ++ rat q :: b) = sizeOf (a ++ b) + (1 + sizeOf (rat q)) := by
    intro a b
    induction a with
    | nil => simp; omega
    | cons x a ih => simp [ih]; omega
  have h1 := hl pre r
  generalize pre ++ r = L at *
  have : sizeOf (productOf L) ≤ 1 + sizeOf L := by
    match L with
    | [] => simp [productOf]
    | [x] => simp [productOf]; omega
    | a :: b :: c => simp [productOf]
  simp [h1]; omega

theorem toMv_productOf {l : List Expr} : toMv (productOf l) = (l.map toMv).prod := by
  match l with
  | [] => simp [productOf, toMv_prod]
  | [x] => simp [productOf]
  | a :: b :: c => simp only [productOf, toMv_prod]

theorem syms_productOf {l : List Expr} : ∀ s ∈ syms (productOf l), s ∈ symsL l := by
  match l with
  | [] => simp [productOf, syms]
  | [x] => simp [productOf, symsL]
  | a :: b :: c => simp [productOf, syms]

theorem height_productOf {l : List Expr} : height (productOf l) ≤ 1 + heightL l := by
  match l with
  | [] => simp [productOf, height]
  | [x] => simp [productOf, heightL]
  | a :: b :: c => simp [productOf, height]

theorem syms_term {ts : List Expr} {t : Expr} (h : t ∈ ts) : ∀ s ∈ syms t, s ∈ syms (sum ts) := fun s hs => by
  rw [syms]; exact mem_symsL.2 ⟨t, h, hs⟩

theorem summands_poly {e : Expr} (h : PolySummands O v e) : PolyExpr O e := by
  cases h with
  | term h => exact h.poly
  | sum h _ => exact h

theorem integrand_poly {e : Expr} (h : PolyIntegrand O v e) : PolyExpr O e := by
  cases h with
  | plain h => exact summands_poly h
  | scaled h _ _ _ => exact h

theorem ready_done (hO : O.Exact) (hv : goodName v = true) {p : MvPolynomial Str ℚ} (hg : Good p) {m : ℕ} (hw : Width m p) (hk : m + 1 < k) :
    ∃ t F, Node.safely O (n + 8) k ν [] (.mk (polyE O p) v none .unset none false []) = .ok t ∧ Node.Ready O (n + 8) v t F ∧
      PolyExpr O F ∧ toMv F = A v p ∧ height F ≤ 4 := by
  obtain ⟨t, h1, h2, -⟩ := ready_polyE (O := O) (v := v) (n := n) (k := k) (ν := ν) (as := []) (tr := none) hO hv hg hw (by intro a ha; cases ha) hk
  exact ⟨t, _, h1, h2, polyExpr_polyE hO (good_A hv hg), toMv_polyE hO (good_A hv hg), (height_polyE _).trans (by omega)⟩

theorem ready_integrand (hO : O.Exact) {e : Expr} (hv : goodName v = true) (h : PolyIntegrand O v e) (hk : (syms e).length + 4 < k) (hn : height e ≤ n) :
    ∃ t F, Node.safely O (n + 8) k ν [] (.mk e v none .unset none false []) = .ok t ∧ Node.Ready O (n + 8) v t F ∧
      PolyExpr O F ∧ toMv F = A v (toMv e) ∧ height F ≤ 4 := by
  have no : ∀ N, Upper O v N [] := fun N a ha => by cases ha
  cases h with
  | plain h =>
    have hp := summands_poly h
    have hg := good_A hv (good_toMv hp)
    obtain ⟨t, h1, h2, -⟩ := ready_summands (ν := ν) (as := []) (tr := none) (k := k) (n := n) (m := (syms e).length) hO hv h (width_poly hp fun _ h => h) (by
      rintro ts rfl t ht
      cases h with
      | term h => exact absurd h.noSum (by simp [isSum])
      | sum _ hts => exact width_poly (hts t ht).poly (syms_term ht)) (no _) (by intro a ha; cases ha) trivial (by omega) hn
    exact ⟨t, _, h1, h2, polyExpr_polyE hO hg, toMv_polyE hO hg, (height_polyE _).trans (by omega)⟩
  | @scaled q pre r hp hf hc hs =>
    have hgp := good_toMv hp
    obtain ⟨b, hb⟩ := able_ok hO hp (n := n + 8) (by omega)
    cases b with
    | false =>
      have he := done_poly hO hp hb
      obtain ⟨t, F, h1, h2⟩ := ready_done (ν := ν) (n := n) (k := k) hO hv hgp (width_poly hp fun _ h => h) (by omega)
      exact ⟨t, F, by rw [he]; exact h1, h2⟩
    | true =>
      obtain ⟨k, rfl⟩ : ∃ j, k = j + 1 := ⟨k - 1, by omega⟩
      set g := productOf (pre ++ r) with hgdef
      have hpg := summands_poly hs
      have pc : pullConstant O (n + 8) v (prod (pre ++ rat q :: r)) = .ok (some (rat q, g)) := by
        show pullLoop _ _ _ _ = _
        rw [pull_rat fun f h => hf f (by simp [h]), List.nil_append, (ctors_le O (by omega : 8 ≤ n + 8)).prod _ _ hc]
        rfl
      have hsz : sizeOf g < sizeOf (prod (pre ++ rat q :: r)) := size_productOf
      have hr : Node.refused O [Node.mk (prod (pre ++ rat q :: r)) v none .unset none false []] (Node.leaf g v (.pullConstant (rat q))) = false :=
        not_refused hpg (fun a hm => by
          simp at hm
          subst hm
          refine ⟨rfl, fun hx => ?_⟩
          rw [← show prod (pre ++ rat q :: r) = g from hx] at hsz
          omega) _
      have hsy : ∀ s ∈ syms g, s ∈ syms (prod (pre ++ rat q :: r)) := fun s hs => by
        obtain ⟨t, ht, hst⟩ := mem_symsL.1 (syms_productOf s hs)
        rw [syms]
        refine mem_symsL.2 ⟨t, ?_, hst⟩
        simp at ht ⊢; tauto
      obtain ⟨t, h1, h2, h3⟩ := ready_summands (ν := ν.child 0) (k := k) (n := n) (tr := some (.pullConstant (rat q)))
        (as := [Node.mk (prod (pre ++ rat q :: r)) v none .unset none false [Node.leaf g v (.pullConstant (rat q))]])
        (m := (syms (prod (pre ++ rat q :: r))).length) hO hv hs (width_poly hpg hsy) (by
          intro ts hts t ht
          have hpt : PolyExpr O t := by
            rw [hts] at hpg
            cases hpg with
            | sum _ h _ => exact h t ht
          refine width_poly hpt fun s hst => hsy s ?_
          rw [hts]; exact syms_term ht s hst) (by
          intro a hm
          simp at hm
          subst hm
          exact ⟨rfl, hb, trivial⟩) (by
          intro a hm
          simp at hm
          subst hm
          exact hsz) rfl (by omega) (by
          refine height_productOf.trans ?_
          rw [height] at hn
          refine le_trans ?_ hn
          have : heightL (pre ++ r) ≤ heightL (pre ++ rat q :: r) := heightL_le fun t ht => heightL_mem (by simp at ht ⊢; tauto)
          omega)
      have hcan := (built_poly hp).canon hO
      rw [Canon] at hcan
      have hq := hcan.1.2.2 (rat q) (by simp) rfl
      have q0 : q ≠ 0 := by rintro rfl; simp [beq] at hq
      have q1 : q ≠ 1 := by rintro rfl; simp [beq] at hq
      obtain ⟨F, k1, k2, k3, k4⟩ := scale_polyE (O := O) hO n q0 q1 (good_A hv (good_toMv hpg))
      refine ⟨_, F, safely_pull (by intro ts; simp) pc hr h1, .one h2 h3 rfl k1, k2, ?_, k4⟩
      rw [k3, hgdef, toMv_productOf, toMv_prod, ← MvPolynomial.smul_eq_C_mul, ← map_smul]
      congr 1
      simp [MvPolynomial.smul_eq_C_mul, toMv_rat]
      ring

end NF
end Simpy
