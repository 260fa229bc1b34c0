import Verif.Proofs.GrownSearch
import Verif.Proofs.ScopeSimp
import Verif.Spec.Scope

/-! Which symbols occur in a search tree. -/

namespace Simpy
open Expr

section
variable {A : Str → Prop} {ν : Supply}

theorem Fresh.child (h : Fresh A ν) (i : Nat) : Fresh A (ν.child i) :=
  ⟨fun l => h.new _, fun l l' hl => (List.cons.inj (h.inj _ _ hl)).2⟩

theorem Fresh.own (h : Fresh A ν) (k : Nat) : Fresh A (ν.own k) :=
  ⟨fun l => h.new _, fun l l' hl => (List.cons.inj (h.inj _ _ hl)).2⟩

theorem Fresh.plus (h : Fresh A ν) (i k : Nat) : Fresh (Plus A (ν.own k [])) (ν.child i) :=
  ⟨fun l hl => by
    rcases hl with hl | hl
    · have := (List.cons.inj (h.inj _ _ hl)).1
      omega
    · exact h.new _ hl, (h.child i).inj⟩

end

namespace Node

variable {O : Oracle} {n : Nat} {A : Str → Prop} {ν : Supply} {v : Str} {e : Expr} {t t' c c' : Node}

/-- The symbols allowed below a node. -/
def scopeOf (A : Str → Prop) (c : Node) : Str → Prop := if c.isUSub then Plus A c.var else A

theorem scopeOf_mono {s : Str} (h : A s) : scopeOf A c s := by
  unfold scopeOf; split
  · exact .inr h
  · exact h

theorem In.mono {B : Str → Prop} (h : In A e) (hB : ∀ s, A s → B s) : In B e := fun s hs => hB s (h s hs)

theorem isUSub_congr (h : c'.tr = c.tr) : c'.isUSub = c.isUSub := by simp only [isUSub, h]

theorem scopeOf_congr (h : c'.tr = c.tr) (hv : c'.var = c.var) : scopeOf A c' = scopeOf A c := by
  rw [scopeOf, scopeOf, isUSub_congr h, hv]

/-- The edge to a child. -/
def Edge (A : Str → Prop) (c : Node) : Prop := ∀ q, c.tr.bind usubOf = some q → In A q ∧ ¬A c.var

theorem Edge.congr (h : Edge A c) (htr : c'.tr = c.tr) (hv : c'.var = c.var) : Edge A c' := by
  unfold Edge; rw [htr, hv]; exact h

/-- Additivity children have no siblings made by a u-substitution. -/
def Apart (cs : List Node) : Prop := ∀ c ∈ cs, ∀ d ∈ cs, c.tr = some .additivity → d.isUSub = false

/-- The symbols of a tree are those allowed. -/
inductive Sc : Supply → (Str → Prop) → Node → Prop
  | mk {ν : Supply} {A : Str → Prop} {t : Node} : Fresh A ν → A t.var → In A t.expr → (∀ S, t.sol = some S → In A S) →
      (∀ k, t.tr = some (.pullConstant k) → In A k) → (isByParts t.tr = false → Apart t.children) →
      (∀ (i : Nat) (c : Node), t.children[i]? = some c → Edge A c) →
      (∀ (i : Nat) (c : Node), t.children[i]? = some c → Sc (ν.child i) (scopeOf A c) c) → Sc ν A t

theorem Sc.fresh : Sc ν A t → Fresh A ν | .mk h _ _ _ _ _ _ _ => h
theorem Sc.var : Sc ν A t → A t.var | .mk _ h _ _ _ _ _ _ => h
theorem Sc.expr : Sc ν A t → In A t.expr | .mk _ _ h _ _ _ _ _ => h
theorem Sc.sol : Sc ν A t → ∀ S, t.sol = some S → In A S | .mk _ _ _ h _ _ _ _ => h
theorem Sc.con : Sc ν A t → ∀ k, t.tr = some (.pullConstant k) → In A k | .mk _ _ _ _ h _ _ _ => h
theorem Sc.apart : Sc ν A t → isByParts t.tr = false → Apart t.children | .mk _ _ _ _ _ h _ _ => h
theorem Sc.edge {i : Nat} : Sc ν A t → t.children[i]? = some c → Edge A c | .mk _ _ _ _ _ _ h _, hc => h i c hc
theorem Sc.kid {i : Nat} : Sc ν A t → t.children[i]? = some c → Sc (ν.child i) (scopeOf A c) c | .mk _ _ _ _ _ _ _ h, hc => h i c hc

theorem sc_leaf {tr : Option Transf} {ty : NType} {f : Bool} {s : Option Expr} (hf : Fresh A ν) (hv : A v) (he : In A e)
    (hs : ∀ S, s = some S → In A S) (hk : ∀ k, tr = some (.pullConstant k) → In A k) : Sc ν A (mk e v tr ty s f []) :=
  .mk hf hv he hs hk (fun _ c h => by simp [Node.children] at h) (fun i c h => by simp [Node.children] at h)
    (fun i c h => by simp [Node.children] at h)

/-- Replacing the children by others with the same transforms and variables. -/
theorem Sc.withKids (h : Sc ν A t) (e1 : t'.expr = t.expr) (e2 : t'.var = t.var) (e3 : t'.tr = t.tr)
    (hs : ∀ S, t'.sol = some S → In A S)
    (hk : ∀ (i : Nat) (c' : Node), t'.children[i]? = some c' → ∃ c, t.children[i]? = some c ∧ c'.tr = c.tr ∧ c'.var = c.var ∧
      Sc (ν.child i) (scopeOf A c) c') : Sc ν A t' := by
  have mem : ∀ c' ∈ t'.children, ∃ c ∈ t.children, c'.tr = c.tr := by
    intro c' hc'
    obtain ⟨i, hi⟩ := List.mem_iff_getElem?.1 hc'
    obtain ⟨c, h1, h2, -⟩ := hk i c' hi
    exact ⟨c, List.mem_of_getElem? h1, h2⟩
  refine .mk h.fresh (e2 ▸ h.var) (e1 ▸ h.expr) hs (fun k hk => h.con k (e3 ▸ hk)) (fun hb => ?_) (fun i c' hc' => ?_) (fun i c' hc' => ?_)
  · intro a ha b hb' htr
    obtain ⟨a', ha', h1⟩ := mem a ha
    obtain ⟨b', hb'', h2⟩ := mem b hb'
    rw [isUSub_congr h2]
    exact h.apart (e3 ▸ hb) a' ha' b' hb'' (h1 ▸ htr)
  · obtain ⟨c, h1, h2, h3, -⟩ := hk i c' hc'
    exact (h.edge h1).congr h2 h3
  · obtain ⟨c, h1, h2, h3, h4⟩ := hk i c' hc'
    rw [scopeOf_congr h2 h3]
    exact h4

/-! ## The transforms -/

/-- What a transform makes is in scope. -/
theorem madeBy_scope {old : List Expr} {tr : Transf} (hm : MadeBy O n ν old e v false c tr) (htr : c.tr = some tr)
    (hf : Fresh A ν) (hv : A v) (he : In A e) : Edge A c ∧ scopeOf A c c.var ∧ In (scopeOf A c) c.expr ∧
      (∀ i, Fresh (scopeOf A c) (ν.child i)) ∧ ∀ k, c.tr = some (.pullConstant k) → In (scopeOf A c) k := by
  have plain : usubOf tr = none → c.var = v → In A c.expr → (∀ k, tr = .pullConstant k → In A k) → Edge A c ∧ scopeOf A c c.var ∧
      In (scopeOf A c) c.expr ∧ (∀ i, Fresh (scopeOf A c) (ν.child i)) ∧ ∀ k, c.tr = some (.pullConstant k) → In (scopeOf A c) k := by
    intro hu hcv hce hk
    have hs : scopeOf A c = A := by simp [scopeOf, isUSub, htr, hu]
    rw [hs, hcv]
    refine ⟨fun q hq => ?_, hv, hce, hf.child, fun k h => ?_⟩
    · rw [htr] at hq; simp [hu] at hq
    · rw [htr] at h; exact hk k (Option.some.inj h)
  have sub : ∀ {q : Expr} {k : Nat}, usubOf tr = some q → c.var = ν.own k [] → In A q ∧ In (Plus A c.var) c.expr →
      Edge A c ∧ scopeOf A c c.var ∧
      In (scopeOf A c) c.expr ∧ (∀ i, Fresh (scopeOf A c) (ν.child i)) ∧ ∀ k, c.tr = some (.pullConstant k) → In (scopeOf A c) k := by
    intro q k hu hcv hq
    have hs : scopeOf A c = Plus A c.var := by simp [scopeOf, isUSub, htr, hu]
    rw [hs]
    refine ⟨fun q' hq' => ?_, .inl rfl, hq.2, fun i => ?_, fun k h => ?_⟩
    · rw [htr] at hq'
      simp only [Option.bind_some, hu, Option.some.injEq] at hq'
      subst hq'
      refine ⟨hq.1, ?_⟩
      rw [hcv]
      exact hf.new _
    · rw [hcv]; exact hf.plus i k
    · rw [htr] at h
      cases h
      simp [usubOf] at hu
  cases tr with
  | pullConstant k =>
    obtain ⟨-, h1, h2⟩ := hm
    obtain ⟨h3, h4⟩ := pullConstant_in he h2
    exact plain rfl h1 h4 (fun k' h => by cases h; exact h3)
  | additivity =>
    obtain ⟨h1, h2 | ⟨-, ts, h2, h3⟩⟩ := hm
    · cases h2
    · subst h2; exact plain rfl h1 (in_sum.1 he _ h3) (fun _ h => by cases h)
  | partialFractions => obtain ⟨-, h1, h2⟩ := hm; exact plain rfl h1 (partialFractions_in he h2) (fun _ h => by cases h)
  | polynomialDivision => obtain ⟨-, h1, h2⟩ := hm; exact plain rfl h1 (polyDiv_in hv he h2) (fun _ h => by cases h)
  | expand => obtain ⟨-, h1, h2⟩ := hm; exact plain rfl h1 (expandT_in he h2) (fun _ h => by cases h)
  | productToSum => obtain ⟨-, h1, h2⟩ := hm; exact plain rfl h1 (productToSumUnit_in he h2) (fun _ h => by cases h)
  | byParts => obtain ⟨-, h1, h2, -⟩ := hm; exact plain rfl h1 (h2 ▸ he) (fun _ h => by cases h)
  | rewriteTrig => obtain ⟨-, h1, gs, h2, h3⟩ := hm; exact plain rfl h1 (rewriteTrig_in he h2 h3) (fun _ h => by cases h)
  | rewritePythagorean => obtain ⟨-, h1, h2⟩ := hm; exact plain rfl h1 (rewritePythagorean_in he h2) (fun _ h => by cases h)
  | simplify => obtain ⟨-, h1, h2⟩ := hm; exact plain rfl h1 (pythagoreanSimplification_in he h2) (fun _ h => by cases h)
  | completeTheSquare => obtain ⟨-, h1, h2⟩ := hm; exact plain rfl h1 (completeTheSquare_in hv he h2) (fun _ h => by cases h)
  | linearUSub q => obtain ⟨-, h1, h2⟩ := hm; exact sub rfl h1 (linearUSub_in hv he h2)
  | polynomialUSub q => obtain ⟨-, h1, h2⟩ := hm; exact sub rfl h1 (polynomialUSub_in hv he h2)
  | trigUSub2 q => obtain ⟨-, h1, h2⟩ := hm; exact sub rfl h1 (trigUSub2_in hv he h2)
  | inverseTrigUSub q => obtain ⟨-, h1, h2⟩ := hm; exact sub rfl h1 (inverseTrigUSub_in hv he h2)
  | genericUSub q => obtain ⟨-, h1, h2⟩ := hm; exact sub rfl h1 (genericUSub_in hv he h2)

/-- A subtree that `_integrate_safely` may work on: children only below filler nodes of ByParts, or made by Simplify. -/
inductive Calm : Node → Prop
  | mk {t : Node} : (isByParts t.tr = false → ∀ c ∈ t.children, c.tr = some .simplify) → (∀ c ∈ t.children, Calm c) → Calm t

theorem calm_leaf (e : Expr) (v : Str) (tr : Option Transf) (ty : NType) (s : Option Expr) (f : Bool) : Calm (mk e v tr ty s f []) :=
  .mk (fun _ c h => by simp [Node.children] at h) (fun c h => by simp [Node.children] at h)

theorem safely_sc : ∀ {k : Nat} {ν : Supply} {A : Str → Prop} {as : List Node} {t t' : Node}, Calm t → Sc ν A t →
    safely O n k ν as t = .ok t' → Sc ν A t' ∧ t'.tr = t.tr ∧ t'.var = t.var
  | 0, _, _, _, _, _, _, _, h => by cases h
  | k + 1, ν, A, as, t, t', hr, hg, h => by
    rw [safely] at h
    obtain ⟨pl, h1, h⟩ := bind_ok.1 h
    dsimp only at h
    obtain ⟨cs, h3, h⟩ := bind_ok.1 h
    cases pure_ok.1 h
    obtain ⟨t1, ht1, a1, a2, a3, a4, a5, a6, ks, a7, a8, -⟩ := apply_shape O as (pl.getD {}) t
    rw [ht1] at h3 ⊢
    have hks : (∀ c ∈ ks, Made O n ν [] t.expr t.var false c ∧ ∃ e v tr, c = leaf e v tr) ∧
        ((∀ c ∈ ks, c.isUSub = false) ∨ ∀ c ∈ ks, c.tr ≠ some .additivity) := by
      cases pl with
      | none =>
        refine ⟨fun c hc => ?_, .inl fun c hc => ?_⟩ <;> (have := a8.subset hc; simp at this)
      | some pl =>
        refine ⟨fun c hc => ⟨((safePlan_made [] false h1).2 c (a8.subset hc)).1, ((safePlan_made [] false h1).2 c (a8.subset hc)).2.1⟩, ?_⟩
        rcases safePlan_cases h1 with ⟨ts, h1, rfl⟩ | ⟨c, g, h1, rfl⟩ | ⟨g, h1, rfl⟩ | ⟨g, h1, rfl⟩ | ⟨g, h1, rfl⟩ | ⟨q, g, h1, rfl⟩
        · left
          intro c hc
          have := a8.subset hc
          simp only [Option.getD_some, List.mem_map] at this
          obtain ⟨e, -, rfl⟩ := this
          rfl
        all_goals
          right
          intro c hc
          have := a8.subset hc
          simp only [Option.getD_some, List.mem_singleton] at this
          subst this
          simp [leaf, Node.tr]
    cases hr with
    | mk hr1 hr2 =>
    have hkid : ∀ (i : Nat) (c : Node), t1.children[i]? = some c → Calm c ∧ Sc (ν.child i) (scopeOf A c) c ∧ Edge A c := by
      intro i c hc
      rw [a7] at hc
      by_cases hi : i < t.children.length
      · rw [List.getElem?_append_left hi] at hc
        exact ⟨hr2 c (List.mem_of_getElem? hc), hg.kid hc, hg.edge hc⟩
      · rw [List.getElem?_append_right (by omega)] at hc
        obtain ⟨⟨tr, htr, hm⟩, ⟨e, v, tr', rfl⟩⟩ := hks.1 c (List.mem_of_getElem? hc)
        obtain ⟨b1, b2, b3, b4, b5⟩ := madeBy_scope hm htr hg.fresh hg.var hg.expr
        exact ⟨calm_leaf _ _ _ _ _ _, sc_leaf (b4 i) b2 b3 (fun S h => by cases h) b5, b1⟩
    have hsc1 : Sc ν A t1 := by
      refine .mk hg.fresh (a2 ▸ hg.var) (a1 ▸ hg.expr) (a5 ▸ hg.sol) (a3 ▸ hg.con) (fun hb => ?_) (fun i c hc => (hkid i c hc).2.2)
        (fun i c hc => (hkid i c hc).2.1)
      rw [a3] at hb
      rw [a7]
      intro a ha b hb' htr
      have hs := hr1 hb
      rcases List.mem_append.1 ha with ha | ha
      · rw [hs a ha] at htr; cases htr
      · rcases List.mem_append.1 hb' with hb' | hb'
        · simp [isUSub, hs b hb', usubOf]
        · rcases hks.2 with h | h
          · exact h b hb'
          · exact absurd htr (h a ha)
    obtain ⟨hlen, hget⟩ := mapIdxR_get h3
    obtain ⟨w1, w2, w3, w4, w5, w6, w7⟩ := withChildren_shape cs t1
    refine ⟨hsc1.withKids w1 w2 w3 (w5 ▸ hsc1.sol) (fun i c' hc' => ?_), w3.trans a3, w2.trans a2⟩
    rw [w7] at hc'
    obtain ⟨c, hc, hsafe⟩ := hget i c' hc'
    rw [Nat.zero_add] at hsafe
    obtain ⟨r1, r2, -⟩ := hkid i c hc
    obtain ⟨s1, s2, s3⟩ := safely_sc r1 r2 hsafe
    exact ⟨c, hc, s2, s3, s1⟩

/-! ## The table -/

theorem tableAllL_get {fail : Bool} : ∀ {cs cs' : List Node}, tableAllL O n fail cs = .ok cs' →
    ∀ (i : Nat) (c' : Node), cs'[i]? = some c' → ∃ c, cs[i]? = some c ∧ tableAll O n fail c = .ok c'
  | [], _, h => by rw [tableAllL] at h; cases h; simp
  | c :: cs, cs', h => by
    rw [tableAllL] at h
    split at h
    · cases h
    · next c1 h1 =>
      split at h
      · cases h
      · next r' h2 =>
        cases h
        intro i d hd
        cases i with
        | zero => simp only [List.getElem?_cons_zero, Option.some.injEq] at hd; subst hd; exact ⟨c, rfl, h1⟩
        | succ i => simpa using tableAllL_get h2 i d (by simpa using hd)

theorem checkTable_in {F : Expr} (hv : A v) (he : In A e) (h : checkTable O n v e = .ok (some F)) : In A F :=
  (adm_syms O A).checkTable (in_sym hv) he h

theorem tableAll_sc {fail : Bool} : ∀ {t t' : Node} {ν : Supply} {A : Str → Prop}, Sc ν A t → tableAll O n fail t = .ok t' →
    Sc ν A t' ∧ t'.tr = t.tr ∧ t'.var = t.var
  | mk e v tr ty s f [], t', ν, A, hg, h => by
    have leafS : ∀ {ty' : NType} {s' : Option Expr}, (∀ S, s' = some S → In A S) → Sc ν A (mk e v tr ty' s' f []) := fun hs =>
      sc_leaf hg.fresh hg.var hg.expr hs hg.con
    have core : (match checkTable O n v e with
        | .error er => .error er
        | .ok (some r) => .ok (mk e v tr .solution (some r) f [])
        | .ok none => .ok (mk e v tr (if fail then .failure else ty) s f []) : R Node) = .ok t' →
        Sc ν A t' ∧ t'.tr = (mk e v tr ty s f []).tr ∧ t'.var = (mk e v tr ty s f []).var := by
      clear h
      intro h
      split at h
      · cases h
      · next r hr =>
        cases h
        exact ⟨leafS (fun S h => by cases h; exact checkTable_in hg.var hg.expr hr), rfl, rfl⟩
      · cases h
        exact ⟨leafS hg.sol, rfl, rfl⟩
    cases ty with
    | solution => simp only [tableAll] at h; cases h; exact ⟨hg, rfl, rfl⟩
    | failure => simp only [tableAll] at h; cases h; exact ⟨hg, rfl, rfl⟩
    | and => simp only [tableAll] at h; exact core h
    | or => simp only [tableAll] at h; exact core h
    | unset => simp only [tableAll] at h; exact core h
  | mk e v tr ty s f (c :: cs), t', ν, A, hg, h => by
    rw [tableAll] at h
    split at h
    · cases h
    · next cs' h1 =>
      cases h
      refine ⟨hg.withKids (t' := mk e v tr ty s f cs') rfl rfl rfl hg.sol (fun i c' hc' => ?_), rfl, rfl⟩
      obtain ⟨d, hd, h2⟩ := tableAllL_get h1 i c' hc'
      have : d ∈ c :: cs := List.mem_of_getElem? hd
      obtain ⟨b1, b2, b3⟩ := tableAll_sc (hg.kid (c := d) (i := i) hd) h2
      exact ⟨d, hd, b2, b3, b1⟩
termination_by t => sizeOf t
decreasing_by
  have := List.sizeOf_lt_of_mem this
  simp only [Node.mk.sizeOf_spec, gt_iff_lt]
  omega

/-! ## Going back -/

/-- The symbols allowed at a node. -/
def scopeAt : List Nat → Node → (Str → Prop) → (Str → Prop)
  | [], _, A => A
  | i :: p, t, A => match t.children[i]? with
    | some c => scopeAt p c (scopeOf A c)
    | none => A

theorem sc_at : ∀ {p : List Nat} {t c : Node} {ν : Supply} {A : Str → Prop}, Sc ν A t → at? p t = some c →
    Sc (ν.at p) (scopeAt p t A) c
  | [], _, _, _, _, hg, h => by cases h; exact hg
  | i :: p, t, c, ν, A, hg, h => by
    simp only [at?] at h
    obtain ⟨d, hd, h⟩ := Option.bind_eq_some_iff.1 h
    have := sc_at (hg.kid hd) h
    simpa [Supply.at, scopeAt, hd] using this

theorem scopeAt_snoc : ∀ {p : List Nat} {i : Nat} {t N c : Node} {A : Str → Prop}, at? p t = some N → N.children[i]? = some c →
    scopeAt (p ++ [i]) t A = scopeOf (scopeAt p t A) c
  | [], i, t, N, c, A, h, hc => by cases h; simp [scopeAt, hc]
  | j :: p, i, t, N, c, A, h, hc => by
    simp only [at?] at h
    obtain ⟨d, hd, h⟩ := Option.bind_eq_some_iff.1 h
    simp only [List.cons_append, scopeAt, hd]
    exact scopeAt_snoc h hc

theorem goBackwards_sc {S : Expr} {l : List (Str × Expr × Expr)} (hg : Sc ν A t) (ha : PartsApart t)
    (h : goBackwards O n t = .ok (S, l)) : In A S := by
  refine goBackwards_ok (Safe := fun _ _ _ => True) (P := fun p S => In (scopeAt p t A) S) (fun p N S hN hS => (sc_at hg hN).sol S hS)
    (fun p N i c tr hN hc htr _ => ?_) h (fun _ _ _ _ => trivial)
  have hsN := sc_at hg hN
  have hs : scopeAt (p ++ [i]) t A = scopeOf (scopeAt p t A) c := scopeAt_snoc hN hc
  have plain : usubOf tr = none → scopeAt (p ++ [i]) t A = scopeAt p t A := fun hu => by
    rw [hs]; simp [scopeOf, isUSub, htr, hu]
  have sub : ∀ {q S r : Expr}, usubOf tr = some q → In (scopeAt (p ++ [i]) t A) S → replaceOld O n S (sym c.var) q = .ok r →
      In (scopeAt p t A) r := by
    intro q S r hu hS hr
    have he := hsN.edge hc q (by rw [htr]; exact hu)
    rw [hs] at hS
    simp only [scopeOf, isUSub, htr, Option.bind_some, hu, Option.isSome_some, if_true] at hS
    exact subst_syms he.1 hS hr
  cases tr with
  | additivity =>
    intro ss r hlen hss hr
    refine in_csum (fun S hS => ?_) hr
    obtain ⟨j, hj⟩ := List.mem_iff_getElem?.1 hS
    have := hss j S hj
    have hjl : j < N.children.length := hlen ▸ (List.getElem?_eq_some_iff.1 hj).1
    have hd : N.children[j]? = some N.children[j] := List.getElem?_eq_getElem hjl
    have hnu : N.children[j].isUSub = false := by
      cases hb : isByParts N.tr with
      | true => exact ha p N _ hN hb (List.mem_of_getElem? hd)
      | false => exact hsN.apart hb c (List.mem_of_getElem? hc) _ (List.mem_of_getElem? hd) htr
    have e : scopeAt (p ++ [j]) t A = scopeAt p t A := by
      rw [scopeAt_snoc hN hd]; simp [scopeOf, hnu]
    show In (scopeAt p t A) S
    rw [← e]
    exact this
  | pullConstant k =>
    intro S r hS _ hr
    change In (scopeAt (p ++ [i]) t A) S at hS
    rw [plain rfl] at hS
    have hk := (hsN.kid hc).con k htr
    rw [← hs, plain rfl] at hk
    exact in_mul hk hS hr
  | trigUSub2 q => intro S r hS _ hr; exact sub rfl hS hr
  | inverseTrigUSub q => intro S r hS _ hr; exact sub rfl hS hr
  | polynomialUSub q => intro S r hS _ hr; exact sub rfl hS hr
  | linearUSub q => intro S r hS _ hr; exact sub rfl hS hr
  | genericUSub q => intro S r hS _ hr; exact sub rfl hS hr
  | _ =>
    intro S r hS _ hr
    change In (scopeAt (p ++ [i]) t A) S at hS
    rw [plain rfl] at hS
    cases hr
    exact hS

end Node
end Simpy
