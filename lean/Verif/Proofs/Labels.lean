import Verif.Proofs.Alternatives

/-! # Lemmas: conditions on the nodes of the search tree that only depend on the problems and steps above them -/

namespace Simpy
open Expr
namespace Node

variable {O : Oracle} {n : Nat}

/-- What never changes about a node. -/
structure Label where
  expr : Expr
  var : Str
  tr : Option Transf
  filler : Bool

def lab (t : Node) : Label := ⟨t.expr, t.var, t.tr, t.filler⟩

/-- The conditions under which a node may be added below the others (nearest first). -/
structure May (O : Oracle) (ls : List Label) (l : Label) : Prop where
  new : l.filler = false → ∀ p ∈ ls, eqWithVar O p.var l.var p.expr l.expr = false
  square : l.tr = some .expand → isSquare (lastTr isLinearity (ls.map fun l => mk l.expr l.var l.tr .unset none l.filler [])) = false
  trig : isTrigSub l.tr = true →
    isInverseSub (lastTr isLinearity (ls.map fun l => mk l.expr l.var l.tr .unset none l.filler [])) = false
  inverse : isInverseSub l.tr = true →
    isTrigSub (lastTr isLinearity (ls.map fun l => mk l.expr l.var l.tr .unset none l.filler [])) = false
  rewrite : isRewriteTrig l.tr = true →
    isRewriteTrig (lastTr isLinearityOrExpand (ls.map fun l => mk l.expr l.var l.tr .unset none l.filler [])) = false

theorem lastTr_labels (skip : Transf → Bool) : ∀ as : List Node,
    lastTr skip ((as.map lab).map fun l => mk l.expr l.var l.tr .unset none l.filler []) = lastTr skip as
  | [] => rfl
  | t :: as => by
    have ih := lastTr_labels skip as
    simp only [List.map_cons, lastTr]
    have : (mk (lab t).expr (lab t).var (lab t).tr .unset none (lab t).filler []).tr = t.tr := rfl
    rw [this, ih]

/-- All nodes below `t` may be where they are; `ls` are the labels above `t`. -/
inductive Law (O : Oracle) : List Label → Node → Prop
  | mk {ls : List Label} {t : Node} : (∀ c ∈ t.children, May O (lab t :: ls) (lab c)) → (∀ c ∈ t.children, Law O (lab t :: ls) c) → Law O ls t

theorem Law.may {ls : List Label} {t : Node} : Law O ls t → ∀ c ∈ t.children, May O (lab t :: ls) (lab c) | .mk h _ => h
theorem Law.kid {ls : List Label} {t : Node} : Law O ls t → ∀ c ∈ t.children, Law O (lab t :: ls) c | .mk _ h => h

theorem Law.none {ls : List Label} {t : Node} (h : t.children = []) : Law O ls t :=
  .mk (by simp [h]) (by simp [h])

theorem lab_eq {t t' : Node} (h1 : t'.expr = t.expr) (h2 : t'.var = t.var) (h3 : t'.tr = t.tr) (h4 : t'.filler = t.filler) :
    lab t' = lab t := by
  simp only [lab, h1, h2, h3, h4]

theorem Law.congr {ls : List Label} {t t' : Node} (h : Law O ls t) (hl : lab t' = lab t) (hc : t'.children = t.children) : Law O ls t' :=
  .mk (by rw [hc, hl]; exact h.may) (by rw [hc, hl]; exact h.kid)

/-! ## Adding children -/

/-- A kid that may be added unless `add_child` refuses it. -/
structure Fit (O : Oracle) (ls : List Label) (k : Node) : Prop where
  square : k.tr = some .expand → isSquare (lastTr isLinearity (ls.map fun l => mk l.expr l.var l.tr .unset none l.filler [])) = false
  trig : isTrigSub k.tr = true →
    isInverseSub (lastTr isLinearity (ls.map fun l => mk l.expr l.var l.tr .unset none l.filler [])) = false
  inverse : isInverseSub k.tr = true →
    isTrigSub (lastTr isLinearity (ls.map fun l => mk l.expr l.var l.tr .unset none l.filler [])) = false
  rewrite : isRewriteTrig k.tr = true →
    isRewriteTrig (lastTr isLinearityOrExpand (ls.map fun l => mk l.expr l.var l.tr .unset none l.filler [])) = false
  law : Law O ls k

theorem addChild_law {as : List Node} {t k : Node} (h : Law O (as.map lab) t) (hk : Fit O ((t :: as).map lab) k) :
    Law O (as.map lab) (addChild O as k t) := by
  cases t with
  | mk e v tr ty s f cs =>
    simp only [addChild]
    split
    · exact h
    · next hr =>
      have hlab : lab (mk e v tr ty s f (cs ++ [k])) = lab (mk e v tr ty s f cs) := rfl
      refine .mk (fun c hc => ?_) fun c hc => ?_
      · simp only [Node.children, List.mem_append, List.mem_singleton] at hc
        rcases hc with hc | rfl
        · exact h.may c hc
        · refine ⟨fun hf p hp => ?_, hk.square, hk.trig, hk.inverse, hk.rewrite⟩
          simp only [refused, Bool.and_eq_true, Bool.not_eq_true', List.any_eq_true, not_and, not_exists] at hr
          have hr := hr hf
          rw [hlab] at hp
          have hp' : p ∈ (mk e v tr ty s f cs :: as).map lab := hp
          obtain ⟨a, ha, rfl⟩ := List.mem_map.1 hp'
          have := hr a ha
          simpa [lab] using this
      · simp only [Node.children, List.mem_append, List.mem_singleton] at hc
        rcases hc with hc | rfl
        · exact h.kid c hc
        · exact hk.law

theorem addChild_lab (as : List Node) (k t : Node) : lab (addChild O as k t) = lab t := by
  obtain ⟨h1, h2, h3, _, _, h4, _⟩ := addChild_shape O as k t
  exact lab_eq h1 h2 h3 h4

theorem addChildren_law {as : List Node} : ∀ {ks : List Node} {t : Node}, Law O (as.map lab) t → (∀ k ∈ ks, Fit O ((t :: as).map lab) k) →
    Law O (as.map lab) (addChildren O as ks t) ∧ lab (addChildren O as ks t) = lab t
  | [], t, h, _ => ⟨h, rfl⟩
  | k :: ks, t, h, hk => by
    rw [addChildren]
    have hl := addChild_lab (O := O) as k t
    obtain ⟨a, b⟩ := addChildren_law (addChild_law h (hk k (by simp))) (ks := ks) fun k' hk' => by
      have := hk k' (by simp [hk'])
      simp only [List.map_cons] at this ⊢
      rw [hl]; exact this
    exact ⟨a, b.trans hl⟩

theorem apply_law {as : List Node} {pl : Plan} {t : Node} (h : Law O (as.map lab) t) (hk : ∀ k ∈ pl.kids, Fit O ((t :: as).map lab) k) :
    Law O (as.map lab) (pl.apply O as t) ∧ lab (pl.apply O as t) = lab t := by
  unfold Plan.apply
  cases hty : pl.ty with
  | none => exact addChildren_law h hk
  | some ty =>
    obtain ⟨s1, s2, s3, s4, s5, s6, s7⟩ := setType_shape ty t
    have hl : lab (setType ty t) = lab t := lab_eq s1 s2 s3 s6
    have := addChildren_law (O := O) (as := as) (ks := pl.kids) (t := setType ty t) (h.congr hl s7) fun k hk' => by
      simp only [List.map_cons]; rw [hl]; exact hk k hk'
    exact ⟨this.1, this.2.trans hl⟩

/-- Steps that may always be taken. -/
theorem Fit.free {ls : List Label} {k : Node} (h1 : k.tr ≠ some .expand) (h2 : isTrigSub k.tr = false) (h3 : isInverseSub k.tr = false)
    (h4 : isRewriteTrig k.tr = false) (hl : Law O ls k) : Fit O ls k :=
  ⟨fun h => absurd h h1, fun h => (by rw [h2] at h; cases h), fun h => (by rw [h3] at h; cases h), fun h => (by rw [h4] at h; cases h), hl⟩

theorem leaf_law {ls : List Label} (e : Expr) (v : Str) (tr : Transf) : Law O ls (leaf e v tr) := .none rfl

/-! ## Safe transforms and the table -/

theorem safePlan_fit {ν : Supply} {as : List Node} {t : Node} {pl : Plan} (h : safePlan O n ν as t = .ok (some pl)) :
    ∀ k ∈ pl.kids, Fit O ((t :: as).map lab) k := by
  have hsq : ∀ g, pl = { kids := [leaf g t.var .expand] } → isSquare (lastTr isLinearity (t :: as)) = false := by
    intro g hg
    cases hs : isSquare (lastTr isLinearity (t :: as)) with
    | false => rfl
    | true =>
      exfalso
      subst hg
      unfold safePlan at h
      dsimp only at h
      rw [hs, if_pos rfl] at h
      have skip : ∀ {a b : R (Option Plan)}, orElseR a b = .ok (some { kids := [leaf g t.var .expand] }) →
          (∀ p, a = .ok (some p) → p ≠ { kids := [leaf g t.var .expand] }) → b = .ok (some { kids := [leaf g t.var .expand] }) := by
        intro a b h hne
        match a, h, hne with
        | .ok none, h, _ => exact h
        | .ok (some p), h, hne => cases h; exact absurd rfl (hne _ rfl)
        | .error _, h, _ => cases h
      have other : ∀ {α : Type} {f : α → Node} {r : R (Option α)}, (∀ a, (f a).tr ≠ some .expand) →
          ∀ p, r.map (planOpt f) = .ok (some p) → p ≠ { kids := [leaf g t.var .expand] } := by
        intro α f r hf p hp
        match r, hp with
        | .ok (some a), hp =>
          cases hp
          intro hc
          simp only [Plan.mk.injEq, List.cons.injEq, and_true, true_and] at hc
          exact hf a (by rw [hc]; rfl)
        | .ok none, hp => cases hp
        | .error _, hp => cases hp
      have h := skip h fun p hp => by
        unfold additivityPlan at hp
        split at hp
        · cases hp; simp
        · cases hp
      have h := skip h (other fun a => by simp [leaf, Node.tr])
      have h := skip h (other fun a => by simp [leaf, Node.tr])
      have h := skip h (other fun a => by simp [leaf, Node.tr])
      have h := skip h fun p hp => by cases hp
      exact other (fun a => by simp [leaf, Node.tr]) _ h rfl
  rcases safePlan_cases h with ⟨ts, h1, rfl⟩ | ⟨c, g, h1, rfl⟩ | ⟨g, h1, rfl⟩ | ⟨g, h1, rfl⟩ | ⟨g, h1, rfl⟩ | ⟨q, g, h1, rfl⟩
  · intro k hk
    simp only [List.mem_map] at hk
    obtain ⟨e, -, rfl⟩ := hk
    exact .free (by simp [leaf, Node.tr]) rfl rfl rfl (leaf_law _ _ _)
  all_goals
    intro k hk
    simp only [List.mem_singleton] at hk
    subst hk
  · exact .free (by simp [leaf, Node.tr]) rfl rfl rfl (leaf_law _ _ _)
  · exact .free (by simp [leaf, Node.tr]) rfl rfl rfl (leaf_law _ _ _)
  · exact .free (by simp [leaf, Node.tr]) rfl rfl rfl (leaf_law _ _ _)
  · refine ⟨fun _ => ?_, fun h => (by cases h), fun h => (by cases h), fun h => (by cases h), leaf_law _ _ _⟩
    rw [lastTr_labels]; exact hsq g rfl
  · exact .free (by simp [leaf, Node.tr]) rfl rfl rfl (leaf_law _ _ _)

theorem law_of_kids {ls : List Label} {t : Node} {cs : List Node} (h : Law O ls t) (hl : ∀ c' ∈ cs, ∃ c ∈ t.children, lab c' = lab c)
    (hk : ∀ c' ∈ cs, Law O (lab t :: ls) c') : Law O ls (withChildren t cs) := by
  obtain ⟨w1, w2, w3, w4, w5, w6, w7⟩ := withChildren_shape cs t
  have hw : lab (withChildren t cs) = lab t := lab_eq w1 w2 w3 w6
  refine .mk (fun c' hc' => ?_) fun c' hc' => ?_
  · rw [w7] at hc'
    obtain ⟨c, hc, e⟩ := hl c' hc'
    rw [hw, e]; exact h.may c hc
  · rw [w7] at hc'
    rw [hw]; exact hk c' hc'

theorem safely_law : ∀ {k : Nat} {ν : Supply} {as : List Node} {t t' : Node}, Law O (as.map lab) t → safely O n k ν as t = .ok t' →
    Law O (as.map lab) t' ∧ lab t' = lab t
  | 0, _, _, _, _, _, h => by cases h
  | k + 1, ν, as, t, t', hp, h => by
    rw [safely] at h
    obtain ⟨pl, h1, h⟩ := bind_ok.1 h
    dsimp only at h
    obtain ⟨cs, h3, h⟩ := bind_ok.1 h
    cases pure_ok.1 h
    have hap : Law O (as.map lab) ((pl.getD {}).apply O as t) ∧ lab ((pl.getD {}).apply O as t) = lab t := by
      apply apply_law hp
      cases pl with
      | none => simp
      | some pl => exact safePlan_fit h1
    revert h3 hap
    generalize (pl.getD {}).apply O as t = t1
    intro h3 ⟨l1, l2⟩
    have hcs : ∀ c' ∈ cs, ∃ c ∈ t1.children, Law O ((t1 :: as).map lab) c' ∧ lab c' = lab c := by
      intro c' hc'
      obtain ⟨j, hj⟩ := List.mem_iff_getElem?.1 hc'
      obtain ⟨c, hc, hsafe⟩ := (mapIdxR_get h3).2 j c' hj
      have hm := List.mem_of_getElem? hc
      exact ⟨c, hm, safely_law (l1.kid c hm) hsafe⟩
    obtain ⟨w1, w2, w3, w4, w5, w6, w7⟩ := withChildren_shape cs t1
    refine ⟨law_of_kids l1 (fun c' hc' => ?_) (fun c' hc' => ?_), (lab_eq w1 w2 w3 w6).trans l2⟩
    · obtain ⟨c, h1, -, h2⟩ := hcs c' hc'
      exact ⟨c, h1, h2⟩
    · obtain ⟨c, -, h1, -⟩ := hcs c' hc'
      exact h1

mutual
theorem tableAll_law {fail : Bool} : ∀ {t t' : Node} {ls : List Label}, Law O ls t → tableAll O n fail t = .ok t' →
    Law O ls t' ∧ lab t' = lab t
  | mk e v tr ty s f [], t', ls, ha, h => by
    obtain ⟨_, _, rfl⟩ := tableAll_leaf h
    exact ⟨.none rfl, rfl⟩
  | mk e v tr ty s f (c :: cs), t', ls, ha, h => by
    rw [tableAll] at h
    split at h
    · cases h
    · next cs' h1 =>
      cases h
      have h2 := tableAllL_law (cs := c :: cs) (ls := lab (mk e v tr ty s f (c :: cs)) :: ls) (fun c hc => ha.kid c hc) h1
      refine ⟨law_of_kids (cs := cs') ha (fun c' hc' => ?_) (fun c' hc' => ?_), rfl⟩
      · obtain ⟨c, h1, -, h2⟩ := h2 c' hc'
        exact ⟨c, h1, h2⟩
      · obtain ⟨c, -, h1, -⟩ := h2 c' hc'
        exact h1
theorem tableAllL_law {fail : Bool} : ∀ {cs cs' : List Node} {ls : List Label}, (∀ c ∈ cs, Law O ls c) → tableAllL O n fail cs = .ok cs' →
    ∀ c' ∈ cs', ∃ c ∈ cs, Law O ls c' ∧ lab c' = lab c
  | [], _, _, _, h => by cases h; simp
  | c :: cs, _, ls, ha, h => by
    rw [tableAllL] at h
    split at h
    · cases h
    · next c' h1 =>
      split at h
      · cases h
      · next cs' h2 =>
        cases h
        intro d hd
        rcases List.mem_cons.1 hd with rfl | hd
        · exact ⟨c, by simp, tableAll_law (ha c (by simp)) h1⟩
        · obtain ⟨b, hb, r⟩ := tableAllL_law (fun d hd => ha d (by simp [hd])) h2 d hd
          exact ⟨b, by simp [hb], r⟩
end

/-! ## Heuristics -/

theorem fit_opt {α : Type} {f : α → Node} {r : R (Option α)} {pl : HPlan} {ls : List Label} (hf : ∀ a, Fit O ls (f a))
    (h : planR (r.map (planOpt f)) = .ok pl) : ∀ k ∈ pl.plan.kids, Fit O ls k := by
  cases r with
  | error er => cases h
  | ok o =>
    cases o with
    | none => cases h; simp [planOpt]
    | some a =>
      cases h
      intro k hk
      simp only [planOpt, Option.getD_some, List.mem_singleton] at hk
      subst hk
      exact hf a

theorem fit_one {k : Node} {ls : List Label} (h : Fit O ls k) : ∀ c ∈ [k], Fit O ls c := by
  intro c hc
  simp only [List.mem_singleton] at hc
  subst hc
  exact h

theorem funky_law (as : List Node) (t : Node) (c g : Expr) : Law O ((t :: as).map lab) (funky O as t c g) := by
  unfold funky
  refine (addChildren_law (.none rfl) fun k hk => ?_).1
  simp only [List.mem_cons, List.not_mem_nil, or_false] at hk
  rcases hk with rfl | rfl
  · exact .free (by simp [Node.tr]) rfl rfl rfl (.none rfl)
  · exact .free (by simp [leaf, Node.tr]) rfl rfl rfl (.none rfl)

theorem solvedFiller_fit {ls : List Label} (t : Node) (r : Expr) : Fit O ls (solvedFiller t r) :=
  .free (by simp [solvedFiller, Node.tr]) rfl rfl rfl (.none rfl)

theorem funky_fit (as : List Node) (t : Node) (c g : Expr) : Fit O ((t :: as).map lab) (funky O as t c g) := by
  have h := (plain_funky (O := O) as t c g).2
  exact .free (by rw [h]; simp) (by rw [h]; rfl) (by rw [h]; rfl) (by rw [h]; rfl) (funky_law as t c g)

theorem byPartsPlan_fit {ν : Supply} {as : List Node} {p : List Nat} {t : Node} {pl : HPlan} (h : byPartsPlan O n ν as p t = .ok pl) :
    ∀ k ∈ pl.plan.kids, Fit O ((t :: as).map lab) k := by
  unfold byPartsPlan at h
  dsimp only at h
  obtain ⟨k, -, h⟩ := bind_ok.1 h
  cases k with
  | none => cases pure_ok.1 h; simp
  | some k =>
    obtain ⟨u, du, w⟩ := k
    simp only at h
    obtain ⟨⟨c, g, f⟩, -, h⟩ := bind_ok.1 h
    dsimp only at h
    split_ifs at h
    · obtain ⟨r, -, h⟩ := bind_ok.1 h
      cases pure_ok.1 h
      exact fit_one (solvedFiller_fit _ _)
    · obtain ⟨o, h3, h⟩ := bind_ok.1 h
      cases o with
      | none =>
        cases pure_ok.1 h
        exact fit_one (funky_fit _ _ _ _)
      | some pl' =>
        cases pure_ok.1 h
        cases hl : lastByParts 0 (t :: as) with
        | none => rw [hl] at h3; simp [byPartsTwice] at h3
        | some jP =>
          obtain ⟨j, P⟩ := jP
          rw [hl] at h3
          simp only [byPartsTwice] at h3
          obtain ⟨s, -, h3⟩ := bind_ok.1 h3
          split at h3
          · cases pure_ok.1 h3
          · obtain ⟨k, -, h3⟩ := bind_ok.1 h3
            obtain ⟨f', -, h3⟩ := bind_ok.1 h3
            obtain ⟨r, -, h3⟩ := bind_ok.1 h3
            split at h3
            swap
            · cases h3
            cases pure_ok.1 h3
            exact fit_one (solvedFiller_fit _ _)

theorem rewriteTrigPlan_fit {as : List Node} {t : Node} {pl : Plan} (h : rewriteTrigPlan O n as t = .ok pl) :
    ∀ k ∈ pl.kids, Fit O ((t :: as).map lab) k := by
  unfold rewriteTrigPlan at h
  split_ifs at h with h0
  · cases h; simp
  · obtain ⟨gs, h1, h⟩ := bind_ok.1 h
    cases pure_ok.1 h
    intro k hk
    simp only [List.mem_map] at hk
    obtain ⟨g, hg, rfl⟩ := hk
    refine ⟨fun h => (by cases h), fun h => (by cases h), fun h => (by cases h), fun _ => ?_, leaf_law _ _ _⟩
    rw [lastTr_labels]; simpa using h0
  · cases h; simp

theorem inversePlan_fit {u : Str} {as : List Node} {t : Node} {pl : Plan} (h : inversePlan O n u as t = .ok pl) :
    ∀ k ∈ pl.kids, Fit O ((t :: as).map lab) k := by
  unfold inversePlan at h
  split_ifs at h with h0
  · cases h; simp
  · obtain ⟨k, h1, h⟩ := bind_ok.1 h
    cases k with
    | none => cases pure_ok.1 h; simp
    | some k =>
      obtain ⟨q, g⟩ := k
      simp only at h
      obtain ⟨c, h2, h⟩ := bind_ok.1 h
      cases pure_ok.1 h
      unfold inverseNode at h2
      obtain ⟨s, h3, h2⟩ := bind_ok.1 h2
      have h2 := pure_ok.1 h2
      have inv : ∀ k : Node, k.tr = some (.inverseTrigUSub q) → Law O ((t :: as).map lab) k → Fit O ((t :: as).map lab) k := by
        intro k hk hl
        refine ⟨fun h => (by rw [hk] at h; cases h), fun h => (by rw [hk] at h; cases h), fun _ => ?_, fun h => (by rw [hk] at h; cases h), hl⟩
        rw [lastTr_labels]; simpa using h0
      split_ifs at h2
      · subst h2
        refine fit_one (inv _ (addChild_shape O (t :: as) (leaf s u .simplify) (leaf g u (.inverseTrigUSub q))).2.2.1 ?_)
        exact addChild_law (leaf_law _ _ _) (.free (by simp [leaf, Node.tr]) rfl rfl rfl (leaf_law _ _ _))
      · subst h2
        exact fit_one (inv _ rfl (leaf_law _ _ _))

theorem heuristics_fit {ν : Supply} {as : List Node} {p : List Nat} {t : Node} {r : R HPlan} {pl : HPlan} (hr : r ∈ heuristics O n ν as p t)
    (h : r = .ok pl) : ∀ k ∈ pl.plan.kids, Fit O ((t :: as).map lab) k := by
  have mapped : ∀ {a : R Plan}, (∀ pl, a = .ok pl → ∀ k ∈ pl.kids, Fit O ((t :: as).map lab) k) →
      (a.map fun pl => ({ plan := pl } : HPlan)) = .ok pl → ∀ k ∈ pl.plan.kids, Fit O ((t :: as).map lab) k := by
    intro a ha h
    cases a with
    | error er => cases h
    | ok pl' => cases h; exact ha pl' rfl
  have free : ∀ (e : Expr) (v : Str) (tr : Transf), (some tr ≠ some Transf.expand) → isTrigSub (some tr) = false →
      isInverseSub (some tr) = false → isRewriteTrig (some tr) = false → Fit O ((t :: as).map lab) (leaf e v tr) :=
    fun e v tr h1 h2 h3 h4 => .free h1 h2 h3 h4 (leaf_law _ _ _)
  subst h
  simp only [heuristics, List.mem_cons, List.not_mem_nil, or_false] at hr
  rcases hr with hr | hr | hr | hr | hr | hr | hr | hr | hr
  · exact fit_opt (fun a => free _ _ _ (by simp) rfl rfl rfl) hr.symm
  · exact fit_opt (fun a => free _ _ _ (by simp) rfl rfl rfl) hr.symm
  · split_ifs at hr with h0
    · cases hr; simp
    · refine fit_opt (fun a => ?_) hr.symm
      refine ⟨fun h => (by cases h), fun _ => ?_, fun h => (by cases h), fun h => (by cases h), leaf_law _ _ _⟩
      rw [lastTr_labels]; simpa using h0
  · exact byPartsPlan_fit hr.symm
  · exact mapped (fun pl h => rewriteTrigPlan_fit h) hr.symm
  · exact fit_opt (fun a => free _ _ _ (by simp) rfl rfl rfl) hr.symm
  · exact mapped (fun pl h => inversePlan_fit h) hr.symm
  · exact fit_opt (fun a => free _ _ _ (by simp) rfl rfl rfl) hr.symm
  · exact fit_opt (fun a => free _ _ _ (by simp) rfl rfl rfl) hr.symm

theorem runHeuristics_law {as : List Node} : ∀ {hs : List (R HPlan)} {t t' : Node} {sc : Option (Nat × Expr)}, Law O (as.map lab) t →
    (∀ r ∈ hs, ∀ pl, r = .ok pl → ∀ k ∈ pl.plan.kids, Fit O ((t :: as).map lab) k) → runHeuristics O as hs t = .ok (t', sc) →
    Law O (as.map lab) t' ∧ lab t' = lab t
  | [], t, t', sc, hl, _, h => by
    simp only [runHeuristics, Except.ok.injEq, Prod.mk.injEq] at h
    obtain ⟨rfl, rfl⟩ := h
    exact ⟨hl, rfl⟩
  | r :: hs, t, t', sc, hl, hg, h => by
    rw [runHeuristics] at h
    obtain ⟨pl, h1, h⟩ := bind_ok.1 h
    obtain ⟨⟨t2, sc2⟩, h2, h⟩ := bind_ok.1 h
    have h := pure_ok.1 h
    simp only [Prod.mk.injEq] at h
    obtain ⟨rfl, rfl⟩ := h
    obtain ⟨a1, a2⟩ := apply_law hl (hg r (by simp) pl h1)
    obtain ⟨b1, b2⟩ := runHeuristics_law a1 (fun r hr pl h k hk => by
      simp only [List.map_cons]; rw [a2]; exact hg r (by simp [hr]) pl h k hk) h2
    exact ⟨b1, b2.trans a2⟩

theorem heuristically_law {ν : Supply} {as : List Node} {p : List Nat} {t t' : Node} {sc : Option (Nat × Expr)}
    (hl : Law O (as.map lab) t) (h : heuristically O n ν as p t = .ok (t', sc)) : Law O (as.map lab) t' ∧ lab t' = lab t := by
  unfold heuristically at h
  obtain ⟨⟨t1, sc1⟩, h1, h⟩ := bind_ok.1 h
  dsimp only at h
  obtain ⟨a1, a2⟩ := runHeuristics_law hl (fun r hr pl h => heuristics_fit hr h) h1
  have set : ∀ ty, Law O (as.map lab) (setType ty t1) ∧ lab (setType ty t1) = lab t1 := by
    intro ty
    obtain ⟨s1, s2, s3, s4, s5, s6, s7⟩ := setType_shape ty t1
    have hl : lab (setType ty t1) = lab t1 := lab_eq s1 s2 s3 s6
    exact ⟨a1.congr hl s7, hl⟩
  have fin : ∀ (t2 : Node), Law O (as.map lab) t2 → lab t2 = lab t → (do
        let cs ← mapIdxR (fun i c => safely O n n (ν.child i) (t2 :: as) c) 0 t2.children
        return (t2.withChildren cs, sc1)) = Except.ok (t', sc) → Law O (as.map lab) t' ∧ lab t' = lab t := by
    intro t2 l1 l2 h
    obtain ⟨cs, h3, h⟩ := bind_ok.1 h
    have h := pure_ok.1 h
    simp only [Prod.mk.injEq] at h
    obtain ⟨rfl, rfl⟩ := h
    obtain ⟨w1, w2, w3, w4, w5, w6, w7⟩ := withChildren_shape cs t2
    have hcs : ∀ c' ∈ cs, ∃ c ∈ t2.children, Law O ((t2 :: as).map lab) c' ∧ lab c' = lab c := by
      intro c' hc'
      obtain ⟨j, hj⟩ := List.mem_iff_getElem?.1 hc'
      obtain ⟨c, hc, hsafe⟩ := (mapIdxR_get h3).2 j c' hj
      have hm := List.mem_of_getElem? hc
      exact ⟨c, hm, safely_law (l1.kid c hm) hsafe⟩
    refine ⟨law_of_kids l1 (fun c' hc' => ?_) (fun c' hc' => ?_), (lab_eq w1 w2 w3 w6).trans l2⟩
    · obtain ⟨c, h1, -, h2⟩ := hcs c' hc'
      exact ⟨c, h1, h2⟩
    · obtain ⟨c, -, h1, -⟩ := hcs c' hc'
      exact h1
  split_ifs at h with h2 h3 h4
  · have h := pure_ok.1 h
    simp only [Prod.mk.injEq] at h
    obtain ⟨rfl, rfl⟩ := h
    exact ⟨a1, a2⟩
  · have h := pure_ok.1 h
    simp only [Prod.mk.injEq] at h
    obtain ⟨rfl, rfl⟩ := h
    exact ⟨(set _).1, (set _).2.trans a2⟩
  · exact fin _ (set _).1 ((set _).2.trans a2) h
  · exact fin _ a1 a2 h

/-! ## The tree -/

theorem law_at : ∀ {p : List Nat} {t c : Node} {bs as : List Node}, Law O (bs.map lab) t → lineage bs p t = some (c, as) →
    Law O (as.map lab) c
  | [], t, c, bs, as, hl, h => by
    simp only [lineage, Option.some.injEq, Prod.mk.injEq] at h
    obtain ⟨rfl, rfl⟩ := h
    exact hl
  | i :: p, t, c, bs, as, hl, h => by
    simp only [lineage] at h
    obtain ⟨d, hd, h⟩ := Option.bind_eq_some_iff.1 h
    exact law_at (bs := t :: bs) (hl.kid d (List.mem_of_getElem? hd)) h

theorem lineage_of_at : ∀ {p : List Nat} {t c : Node} {bs : List Node}, at? p t = some c → ∃ as, lineage bs p t = some (c, as)
  | [], t, c, bs, h => by cases h; exact ⟨bs, rfl⟩
  | i :: p, t, c, bs, h => by
    simp only [at?] at h
    obtain ⟨d, hd, h⟩ := Option.bind_eq_some_iff.1 h
    obtain ⟨as, ha⟩ := lineage_of_at (bs := t :: bs) h
    exact ⟨as, by simp [lineage, hd, ha]⟩

theorem replaceAt_law : ∀ {p : List Nat} {t c c' : Node} {bs as : List Node}, Law O (bs.map lab) t → lineage bs p t = some (c, as) →
    Law O (as.map lab) c' → lab c' = lab c → Law O (bs.map lab) (replaceAt c' p t) ∧ lab (replaceAt c' p t) = lab t
  | [], t, c, c', bs, as, _, h, hl', hc => by
    simp only [lineage, Option.some.injEq, Prod.mk.injEq] at h
    obtain ⟨rfl, rfl⟩ := h
    exact ⟨hl', hc⟩
  | i :: p, mk e v tr ty s f cs, c, c', bs, as, hl, h, hl', hc => by
    simp only [lineage, Node.children] at h
    obtain ⟨d, hd, h⟩ := Option.bind_eq_some_iff.1 h
    have hm := List.mem_of_getElem? hd
    obtain ⟨g1, g2⟩ := replaceAt_law (bs := mk e v tr ty s f cs :: bs) (hl.kid d hm) h hl' hc
    simp only [replaceAt, hd]
    have hmem : ∀ b ∈ cs.set i (replaceAt c' p d), b = replaceAt c' p d ∨ b ∈ cs := fun b hb =>
      (List.mem_or_eq_of_mem_set hb).symm
    refine ⟨law_of_kids (t := mk e v tr ty s f cs) hl (fun b hb => ?_) (fun b hb => ?_), rfl⟩
    · rcases hmem b hb with rfl | hb
      · exact ⟨d, hm, g2⟩
      · exact ⟨b, hb, rfl⟩
    · rcases hmem b hb with rfl | hb
      · exact g1
      · exact hl.kid b hb

theorem rescale_law {p : List Nat} {sc : Option (Nat × Expr)} {t t' : Node} (ha : Law O [] t) (h : rescale O n p sc t = .ok t') :
    Law O [] t' ∧ lab t' = lab t := by
  unfold rescale at h
  split at h
  · cases h; exact ⟨ha, rfl⟩
  · split at h
    · cases h
    · next a hat =>
      split at h
      · cases h
      · obtain ⟨r, -, h⟩ := bind_ok.1 h
        cases pure_ok.1 h
        obtain ⟨as, hl⟩ := lineage_of_at (bs := []) hat
        have haa := law_at (bs := []) ha hl
        refine replaceAt_law (bs := []) ha hl (haa.congr ?_ ?_) ?_ <;> · cases a; rfl

theorem cycle_law {ν : Supply} {bf : Bool} {t t' : Node} {p : List Nat} {nx : Next} (ha : Law O [] t)
    (h : cycle O n ν bf t p = .ok (t', nx)) : Law O [] t' ∧ lab t' = lab t := by
  unfold cycle at h
  split at h
  · cases h
  next t0 ht0 =>
  obtain ⟨t1, h1, h⟩ := bind_ok.1 h
  dsimp only at h
  obtain ⟨as0, hl0⟩ := lineage_of_at (bs := []) ht0
  obtain ⟨x1, x2⟩ := tableAll_law (law_at (bs := []) ha hl0) h1
  obtain ⟨g1, g2⟩ := replaceAt_law (bs := []) ha hl0 x1 x2
  split at h
  · have h := pure_ok.1 h
    simp only [Prod.mk.injEq] at h
    obtain ⟨rfl, -⟩ := h
    exact ⟨g1, g2⟩
  next q _ hq =>
  split at h
  · cases h
  next l as hl =>
  obtain ⟨⟨l', sc⟩, h3, h⟩ := bind_ok.1 h
  obtain ⟨root2, h4, h⟩ := bind_ok.1 h
  obtain ⟨nx', -, h⟩ := bind_ok.1 h
  have h := pure_ok.1 h
  simp only [Prod.mk.injEq] at h
  obtain ⟨rfl, -⟩ := h
  obtain ⟨b1, b2⟩ := heuristically_law (law_at (bs := []) g1 hl) h3
  obtain ⟨c1, c2⟩ := replaceAt_law (bs := []) g1 hl b1 b2
  obtain ⟨d1, d2⟩ := rescale_law c1 h4
  exact ⟨d1, d2.trans (c2.trans g2)⟩

theorem searchLoop_law {ν : Supply} {bf : Bool} : ∀ {k : Nat} {t T : Node} {p : List Nat}, Law O [] t →
    searchLoop O n ν bf k t p = .ok T → Law O [] T
  | 0, t, T, p, hg, h => by
    rw [searchLoop.eq_def] at h
    simp only at h
    obtain ⟨⟨t', nx⟩, h1, h⟩ := bind_ok.1 h
    cases pure_ok.1 h
    exact (cycle_law hg h1).1
  | k + 1, t, T, p, hg, h => by
    rw [searchLoop] at h
    obtain ⟨⟨t', nx⟩, h1, h⟩ := bind_ok.1 h
    have a := (cycle_law hg h1).1
    dsimp only at h
    split_ifs at h
    · cases pure_ok.1 h
      exact a
    · cases nx with
      | none => cases h
      | node q => exact searchLoop_law a h
      | solved =>
        simp only at h
        obtain ⟨nx, -, h⟩ := bind_ok.1 h
        cases nx with
        | none => cases h
        | solved => cases h
        | node q => exact searchLoop_law a h

theorem search_law {ν : Supply} {bf : Bool} {k : Nat} {v : Str} {e : Expr} {T : Node} (h : search O n ν bf k v e = .ok T) : Law O [] T := by
  unfold search startTree at h
  obtain ⟨t, h1, h⟩ := bind_ok.1 h
  obtain ⟨s, h2, h1⟩ := bind_ok.1 h1
  exact searchLoop_law (safely_law (as := []) (.none rfl) h1).1 h

/-- The conditions at a node that is not the root. -/
theorem may_at : ∀ {p : List Nat} {t c : Node} {bs as : List Node}, Law O (bs.map lab) t → lineage bs p t = some (c, as) → p ≠ [] →
    May O (as.map lab) (lab c)
  | [], t, c, bs, as, hl, h, hp => absurd rfl hp
  | [i], t, c, bs, as, hl, h, _ => by
    simp only [lineage] at h
    obtain ⟨d, hd, h⟩ := Option.bind_eq_some_iff.1 h
    simp only [Option.some.injEq, Prod.mk.injEq] at h
    obtain ⟨rfl, rfl⟩ := h
    exact hl.may d (List.mem_of_getElem? hd)
  | i :: j :: p, t, c, bs, as, hl, h, _ => by
    rw [lineage] at h
    obtain ⟨d, hd, h⟩ := Option.bind_eq_some_iff.1 h
    exact may_at (bs := t :: bs) (hl.kid d (List.mem_of_getElem? hd)) h (by simp)

theorem lastTr_mid {skip : Transf → Bool} {b : Node} {rest : List Node} {tr : Transf} (hb : b.tr = some tr) (hs : skip tr = false) :
    ∀ {mid : List Node}, (∀ m ∈ mid, ∃ s, m.tr = some s ∧ skip s = true) → lastTr skip (mid ++ b :: rest) = some tr
  | [], _ => by simp [lastTr, hb, hs]
  | m :: mid, h => by
    obtain ⟨s, h1, h2⟩ := h m (by simp)
    simp only [List.cons_append, lastTr, h1, h2, if_true]
    exact lastTr_mid hb hs fun m hm => h m (by simp [hm])

end Node
end Simpy
