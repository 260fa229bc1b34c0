import Verif.Proofs.EngineCtl
import Verif.Proofs.PartsSound
import Verif.Spec.Grown

/-! The search keeps `Grown`. -/

namespace Simpy
open Expr
namespace Node

variable {O : Oracle} {n : Nat}

/-- The same node, as far as its parent is concerned. -/
structure Kept1 (c c' : Node) : Prop where
  expr : c'.expr = c.expr
  var : c'.var = c.var
  tr : c'.tr = c.tr
  filler : c'.filler = c.filler
  type : c.filler = true → c'.type = c.type

theorem Kept1.refl (c : Node) : Kept1 c c := ⟨rfl, rfl, rfl, rfl, fun _ => rfl⟩

/-- The same node with its children, as far as its parent is concerned. -/
structure Kept (c c' : Node) : Prop extends Kept1 c c' where
  sol : c.filler = true → c.tr = some .byParts → c'.sol = c.sol
  kids : c.filler = true → List.Forall₂ Kept1 c.children c'.children

theorem forall₂_refl {α : Type} {R : α → α → Prop} (h : ∀ a, R a a) : ∀ l, List.Forall₂ R l l
  | [] => .nil
  | a :: l => .cons (h a) (forall₂_refl h l)

theorem Kept.refl (c : Node) : Kept c c := ⟨.refl c, fun _ _ => rfl, fun _ => forall₂_refl .refl _⟩

theorem FillerOf.congr {v : Str} {e c g f : Expr} {t t' : Node} (h : FillerOf O n v e c g f t) (ht : t'.type = t.type)
    (hs : t'.sol = t.sol) (hk : List.Forall₂ Kept1 t.children t'.children) : FillerOf O n v e c g f t' := by
  rcases h with ⟨h1, h2, r, h3, h4⟩ | ⟨h1, h2, h3, a, rest, h4, h5, h6, h7, h8, h9, h10⟩
  · rw [h2] at hk
    cases hk' : t'.children with
    | nil => exact .inl ⟨ht.trans h1, hk', r, hs.trans h3, h4⟩
    | cons b l => rw [hk'] at hk; cases hk
  · rw [h4] at hk
    cases hk' : t'.children with
    | nil => rw [hk'] at hk; cases hk
    | cons b l =>
      rw [hk'] at hk
      cases hk with
      | cons hab hl =>
        refine .inr ⟨ht.trans h1, hs.trans h2, h3, b, l, hk', hab.expr.trans h5, hab.var.trans h6, hab.tr.trans h7,
          hab.filler.trans h8, (hab.type h8).trans h9, fun d hd htr => ?_⟩
        obtain ⟨d0, hd0, k⟩ := Node.forall₂_right hl d hd
        rw [k.tr] at htr
        rw [k.filler, k.var, k.expr]
        exact h10 d0 hd0 htr

theorem Made.kept {ν : Supply} {old : List Expr} {e : Expr} {v : Str} {bp : Bool} {c c' : Node} (h : Made O n ν old e v bp c)
    (hk : Kept c c') : Made O n ν old e v bp c' := by
  obtain ⟨tr, htr, h⟩ := h
  refine ⟨tr, hk.tr.trans htr, ?_⟩
  cases tr
  case byParts =>
    obtain ⟨h1, h2, h3, a, g, f, h4, h5⟩ := h
    exact ⟨hk.filler.trans h1, hk.var.trans h2, hk.expr.trans h3, a, g, f, h4,
      h5.congr (hk.type h1) (hk.sol h1 htr) (hk.kids h1)⟩
  all_goals
    simp only [MadeBy] at h ⊢
    rw [hk.filler, hk.var, hk.expr]
    exact h

theorem oldOf_kept {old : List Expr} {c c' : Node} (hk : Kept1 c c') : oldOf c' old = oldOf c old := by
  simp only [oldOf, hk.tr, hk.expr]

theorem Grown.labelled {ν : Supply} {old : List Expr} {t : Node} : Grown O n ν old t → Labelled O n t | .mk h _ _ => h
theorem Grown.made {ν : Supply} {old : List Expr} {t c : Node} {i : Nat} : Grown O n ν old t → t.children[i]? = some c →
    Made O n ν old t.expr t.var (isByParts t.tr) c | .mk _ h _, hc => h i c hc
theorem Grown.kid {ν : Supply} {old : List Expr} {t c : Node} {i : Nat} : Grown O n ν old t → t.children[i]? = some c →
    Grown O n (ν.child i) (oldOf c old) c | .mk _ _ h, hc => h i c hc

theorem grown_leaf (ν : Supply) (old : List Expr) (e : Expr) (v : Str) (tr : Transf) : Grown O n ν old (leaf e v tr) :=
  .mk ⟨.inl ⟨rfl, by simp [leaf, Node.type]⟩, fun h => by simp [leaf, Node.filler] at h⟩ (fun i c h => by simp [leaf, Node.children] at h)
    (fun i c h => by simp [leaf, Node.children] at h)

/-! ## Safe transforms -/

/-- A subtree that `_integrate_safely` may work on: no solved nodes except for the filler with `u * v`. -/
inductive Raw : Node → Prop
  | mk {t : Node} : (t.type = .solution → t.filler = true ∧ isByParts t.tr = false) → (∀ c ∈ t.children, Raw c) → Raw t

theorem raw_leaf (e : Expr) (v : Str) (tr : Transf) : Raw (leaf e v tr) :=
  .mk (fun h => by simp [leaf, Node.type] at h) (fun c h => by simp [leaf, Node.children] at h)

theorem addChild_shape (O : Oracle) (as : List Node) (c t : Node) : (addChild O as c t).expr = t.expr ∧ (addChild O as c t).var = t.var ∧
    (addChild O as c t).tr = t.tr ∧ (addChild O as c t).type = t.type ∧ (addChild O as c t).sol = t.sol ∧
    (addChild O as c t).filler = t.filler ∧
    ((addChild O as c t).children = t.children ∧ c.filler = false ∨ (addChild O as c t).children = t.children ++ [c]) := by
  cases t with
  | mk e v tr ty s f cs =>
    simp only [addChild]
    split_ifs with h
    · refine ⟨rfl, rfl, rfl, rfl, rfl, rfl, .inl ⟨rfl, ?_⟩⟩
      simp only [refused, Bool.and_eq_true, Bool.not_eq_true'] at h
      exact h.1
    · exact ⟨rfl, rfl, rfl, rfl, rfl, rfl, .inr rfl⟩

theorem addChildren_shape (O : Oracle) (as : List Node) : ∀ (ks : List Node) (t : Node), ∃ t', addChildren O as ks t = t' ∧ t'.expr = t.expr ∧ t'.var = t.var ∧
    t'.tr = t.tr ∧ t'.type = t.type ∧ t'.sol = t.sol ∧ t'.filler = t.filler ∧
    ∃ ks' : List Node, t'.children = t.children ++ ks' ∧ ks'.Sublist ks ∧ ∀ k ∈ ks, k.filler = true → k ∈ ks'
  | [], t => ⟨t, rfl, rfl, rfl, rfl, rfl, rfl, rfl, [], by simp, .refl _, by simp⟩
  | k :: ks, t => by
    obtain ⟨a1, a2, a3, a4, a5, a6, a7⟩ := addChild_shape O as k t
    obtain ⟨t', h, b1, b2, b3, b4, b5, b6, ks', b7, b8, b9⟩ := addChildren_shape O as ks (addChild O as k t)
    refine ⟨t', h, b1.trans a1, b2.trans a2, b3.trans a3, b4.trans a4, b5.trans a5, b6.trans a6, ?_⟩
    rcases a7 with ⟨a7, hf⟩ | a7
    · refine ⟨ks', by rw [b7, a7], b8.cons _, fun d hd hdf => ?_⟩
      rcases List.mem_cons.1 hd with rfl | hd
      · rw [hf] at hdf; cases hdf
      · exact b9 d hd hdf
    · refine ⟨k :: ks', by rw [b7, a7]; simp, b8.cons_cons _, fun d hd hdf => ?_⟩
      rcases List.mem_cons.1 hd with rfl | hd
      · simp
      · simp [b9 d hd hdf]

theorem setType_shape (ty : NType) (t : Node) : (setType ty t).expr = t.expr ∧ (setType ty t).var = t.var ∧ (setType ty t).tr = t.tr ∧
    (setType ty t).type = ty ∧ (setType ty t).sol = t.sol ∧ (setType ty t).filler = t.filler ∧
    (setType ty t).children = t.children := by
  cases t; exact ⟨rfl, rfl, rfl, rfl, rfl, rfl, rfl⟩

theorem withChildren_shape (cs : List Node) (t : Node) : (withChildren t cs).expr = t.expr ∧ (withChildren t cs).var = t.var ∧
    (withChildren t cs).tr = t.tr ∧ (withChildren t cs).type = t.type ∧ (withChildren t cs).sol = t.sol ∧
    (withChildren t cs).filler = t.filler ∧ (withChildren t cs).children = cs := by
  cases t; exact ⟨rfl, rfl, rfl, rfl, rfl, rfl, rfl⟩

theorem apply_shape (O : Oracle) (as : List Node) (pl : Plan) (t : Node) : ∃ t', pl.apply O as t = t' ∧ t'.expr = t.expr ∧ t'.var = t.var ∧
    t'.tr = t.tr ∧ t'.type = pl.ty.getD t.type ∧ t'.sol = t.sol ∧ t'.filler = t.filler ∧
    ∃ ks' : List Node, t'.children = t.children ++ ks' ∧ ks'.Sublist pl.kids ∧ ∀ k ∈ pl.kids, k.filler = true → k ∈ ks' := by
  obtain ⟨ty, ks⟩ := pl
  cases ty with
  | none => exact addChildren_shape O as ks t
  | some ty =>
    obtain ⟨a1, a2, a3, a4, a5, a6, a7⟩ := setType_shape ty t
    obtain ⟨t', h, b1, b2, b3, b4, b5, b6, ks', b7, b8, b9⟩ := addChildren_shape O as ks (setType ty t)
    exact ⟨t', h, b1.trans a1, b2.trans a2, b3.trans a3, b4.trans a4, b5.trans a5, b6.trans a6, ks', by rw [b7, a7], b8, b9⟩

theorem mapIdxR_get {f : Nat → Node → R Node} : ∀ {cs cs' : List Node} {i : Nat}, mapIdxR f i cs = .ok cs' →
    cs'.length = cs.length ∧ ∀ (j : Nat) (c' : Node), cs'[j]? = some c' → ∃ c, cs[j]? = some c ∧ f (i + j) c = .ok c'
  | [], _, _, h => by cases h; simp
  | c :: r, cs', i, h => by
    rw [mapIdxR] at h
    obtain ⟨c', h1, h⟩ := bind_ok.1 h
    obtain ⟨r', h2, h⟩ := bind_ok.1 h
    cases pure_ok.1 h
    obtain ⟨a, b⟩ := mapIdxR_get h2
    refine ⟨by simp [a], fun j d hd => ?_⟩
    cases j with
    | zero => simp only [List.getElem?_cons_zero, Option.some.injEq] at hd; subst hd; exact ⟨c, rfl, h1⟩
    | succ j =>
      obtain ⟨c0, h3, h4⟩ := b j d (by simpa using hd)
      exact ⟨c0, by simpa using h3, by rwa [show i + (j + 1) = i + 1 + j by omega]⟩

theorem forall₂_of_get {α β : Type} {R : α → β → Prop} : ∀ {l : List α} {l' : List β}, l'.length = l.length →
    (∀ (j : Nat) (b : β), l'[j]? = some b → ∃ a, l[j]? = some a ∧ R a b) → List.Forall₂ R l l'
  | [], [], _, _ => .nil
  | [], b :: l', h, _ => by simp at h
  | a :: l, [], h, _ => by simp at h
  | a :: l, b :: l', hl, h => by
    refine .cons ?_ (forall₂_of_get (by simpa using hl) fun j b hb => ?_)
    · obtain ⟨a', h1, h2⟩ := h 0 b rfl
      simp only [List.getElem?_cons_zero, Option.some.injEq] at h1
      exact h1 ▸ h2
    · obtain ⟨a', h1, h2⟩ := h (j + 1) b (by simpa using hb)
      exact ⟨a', by simpa using h1, h2⟩

/-- What `_integrate_safely` does to a node. -/
structure SafeKept (t t' : Node) : Prop extends Kept1 t t' where
  sol : t'.sol = t.sol
  kids : ∃ ks : List Node, List.Forall₂ Kept1 (t.children ++ ks) t'.children ∧ ∀ k ∈ ks, k.tr = some .additivity → ∃ ts, t.expr = sum ts

/-- The safe transforms make what they should. -/
theorem safePlan_made {ν : Supply} {as : List Node} {t : Node} {pl : Plan} (old : List Expr) (bp : Bool)
    (h : safePlan O n ν as t = .ok (some pl)) :
    (pl.ty = none ∨ pl.ty = some .and ∧ ∃ ts, t.expr = sum ts) ∧ ∀ k ∈ pl.kids, Made O n ν old t.expr t.var bp k ∧
      (∃ e v tr, k = leaf e v tr) ∧ (k.tr = some .additivity → ∃ ts, t.expr = sum ts) := by
  rcases safePlan_cases h with ⟨ts, h1, rfl⟩ | ⟨c, g, h1, rfl⟩ | ⟨g, h1, rfl⟩ | ⟨g, h1, rfl⟩ | ⟨g, h1, rfl⟩ | ⟨q, g, h1, rfl⟩
  · refine ⟨.inr ⟨rfl, ts, h1⟩, fun k hk => ?_⟩
    simp only [List.mem_map] at hk
    obtain ⟨e, he, rfl⟩ := hk
    exact ⟨⟨_, rfl, rfl, .inr ⟨rfl, ts, h1, he⟩⟩, ⟨_, _, _, rfl⟩, fun _ => ⟨ts, h1⟩⟩
  all_goals
    refine ⟨.inl rfl, fun k hk => ?_⟩
    simp only [List.mem_singleton] at hk
    subst hk
    exact ⟨⟨_, rfl, rfl, rfl, h1⟩, ⟨_, _, _, rfl⟩, fun h => by cases h⟩

theorem Made.safeKept {ν : Supply} {old : List Expr} {e : Expr} {v : Str} {bp : Bool} {c c' : Node} (h : Made O n ν old e v bp c)
    (hl : Labelled O n c) (hr : c.type = .solution → isByParts c.tr = false) (hk : SafeKept c c') : Made O n ν old e v bp c' := by
  obtain ⟨tr, htr, h⟩ := h
  refine ⟨tr, hk.tr.trans htr, ?_⟩
  cases tr
  case byParts =>
    obtain ⟨h1, h2, h3, a, g, f, h4, h5⟩ := h
    refine ⟨hk.filler.trans h1, hk.var.trans h2, hk.expr.trans h3, a, g, f, h4, ?_⟩
    rcases h5 with ⟨h5, -⟩ | ⟨b1, b2, b3, d, rest, b4, b5, b6, b7, b8, b9, b10⟩
    · have := hr h5
      rw [htr] at this; cases this
    · obtain ⟨ks, hks, hadd⟩ := hk.kids
      rw [b4] at hks
      cases hc' : c'.children with
      | nil => rw [hc'] at hks; cases hks
      | cons x l =>
        rw [hc'] at hks
        cases hks with
        | cons hab hl' =>
          refine .inr ⟨(hk.type h1).trans b1, hk.sol.trans b2, b3, x, l, hc', hab.expr.trans b5, hab.var.trans b6, hab.tr.trans b7,
            hab.filler.trans b8, (hab.type b8).trans b9, fun y hy hty => ?_⟩
          obtain ⟨y0, hy0, k⟩ := Node.forall₂_right hl' y hy
          rw [k.tr] at hty
          rw [k.filler, k.var, k.expr]
          rcases List.mem_append.1 hy0 with hy0 | hy0
          · exact b10 y0 hy0 hty
          · obtain ⟨ts, hts⟩ := hadd y0 hy0 hty
            exact absurd hts ((hl.2 h1).1 ts)
  all_goals
    simp only [MadeBy] at h ⊢
    rw [hk.filler, hk.var, hk.expr]
    exact h

theorem safely_grown : ∀ {k : Nat} {ν : Supply} {as : List Node} {old : List Expr} {t t' : Node}, Raw t → Grown O n ν old t →
    safely O n k ν as t = .ok t' → Grown O n ν old t' ∧ SafeKept t t'
  | 0, _, _, _, _, _, _, _, h => by cases h
  | k + 1, ν, as, old, t, t', hr, hg, h => by
    rw [safely] at h
    obtain ⟨pl, h1, h⟩ := bind_ok.1 h
    dsimp only at h
    obtain ⟨cs, h3, h⟩ := bind_ok.1 h
    cases pure_ok.1 h
    obtain ⟨t1, ht1, a1, a2, a3, a4, a5, a6, ks, a7, a8, -⟩ := apply_shape O as (pl.getD {}) t
    rw [ht1] at h3 ⊢
    have hks : ∀ c ∈ ks, Made O n ν old t.expr t.var (isByParts t.tr) c ∧ (∃ e v tr, c = leaf e v tr) ∧
        (c.tr = some .additivity → ∃ ts, t.expr = sum ts) := by
      cases pl with
      | none => intro c hc; have := a8.subset hc; simp at this
      | some pl => exact fun c hc => (safePlan_made old _ h1).2 c (a8.subset hc)
    have hty : t1.type = t.type ∨ t1.type = .and ∧ ∃ ts, t.expr = sum ts := by
      cases pl with
      | none => exact .inl a4
      | some pl =>
        rcases (safePlan_made old (isByParts t.tr) h1).1 with h | ⟨h, h'⟩
        · left; rw [a4]; simp [h]
        · right; rw [a4]; simp [h, h']
    cases hr with
    | mk hr1 hr2 =>
    have hkid : ∀ (i : Nat) (c : Node), t1.children[i]? = some c → Raw c ∧ Grown O n (ν.child i) (oldOf c old) c ∧
        Made O n ν old t.expr t.var (isByParts t.tr) c := by
      intro i c hc
      rw [a7] at hc
      by_cases hi : i < t.children.length
      · rw [List.getElem?_append_left hi] at hc
        exact ⟨hr2 c (List.mem_of_getElem? hc), hg.kid hc, hg.made hc⟩
      · rw [List.getElem?_append_right (by omega)] at hc
        obtain ⟨hm, ⟨e, v, tr, rfl⟩, -⟩ := hks c (List.mem_of_getElem? hc)
        exact ⟨raw_leaf _ _ _, grown_leaf _ _ _ _ _, hm⟩
    obtain ⟨hlen, hget⟩ := mapIdxR_get h3
    have hget' : ∀ (j : Nat) (c' : Node), cs[j]? = some c' → ∃ c, t1.children[j]? = some c ∧ Grown O n (ν.child j) (oldOf c old) c' ∧ SafeKept c c' ∧
        Made O n ν old t.expr t.var (isByParts t.tr) c' := by
      intro j c' hc'
      obtain ⟨c, hc, hsafe⟩ := hget j c' hc'
      rw [Nat.zero_add] at hsafe
      obtain ⟨r1, r2, r3⟩ := hkid j c hc
      obtain ⟨s1, s2⟩ := safely_grown r1 r2 hsafe
      refine ⟨c, hc, s1, s2, r3.safeKept r2.labelled (fun h => ?_) s2⟩
      cases r1 with
      | mk q1 _ => exact (q1 h).2
    obtain ⟨w1, w2, w3, w4, w5, w6, w7⟩ := withChildren_shape cs t1
    have hk1 : Kept1 t (t1.withChildren cs) := by
      refine ⟨w1.trans a1, w2.trans a2, w3.trans a3, w6.trans a6, fun hf => ?_⟩
      rw [w4]
      rcases hty with h | ⟨-, ts, h⟩
      · exact h
      · exact absurd h ((hg.labelled.2 hf).1 ts)
    refine ⟨.mk ⟨?_, fun hf => ?_⟩ (fun i c hc => ?_) (fun i c hc => ?_), hk1, w5.trans a5, ks, ?_, fun c hc => (hks c hc).2.2⟩
    · rw [w5, a5, w4, w6, a6, w2, a2, w1, a1]
      rcases hg.labelled.1 with ⟨l1, l2⟩ | ⟨l1, l2⟩
      · left
        refine ⟨l1, ?_⟩
        rcases hty with h | ⟨h, -⟩ <;> rw [h]
        · exact l2
        · simp
      · right
        rcases hty with h | ⟨h, ts, hts⟩
        · exact ⟨h.trans l1, l2⟩
        · exact absurd hts ((hg.labelled.2 (hr1 l1).1).1 ts)
    · rw [w6, a6] at hf
      refine ⟨fun ts => by rw [w1, a1]; exact (hg.labelled.2 hf).1 ts, fun h => ?_⟩
      rw [hk1.type hf]
      refine (hg.labelled.2 hf).2 ?_
      rw [w7] at h
      rw [h, a7] at hlen
      simp only [List.length_nil, List.length_append] at hlen
      exact List.length_eq_zero_iff.1 (by omega)
    · rw [w7] at hc
      obtain ⟨c0, -, -, -, hm⟩ := hget' i c hc
      rw [w1, a1, w2, a2, w3, a3]
      exact hm
    · rw [w7] at hc
      obtain ⟨c0, -, hg', hk, -⟩ := hget' i c hc
      rw [oldOf_kept hk.toKept1]
      exact hg'
    · rw [← a7, w7]
      exact forall₂_of_get hlen fun j b hb => by
        obtain ⟨c0, h0, -, hk, -⟩ := hget' j b hb
        exact ⟨c0, h0, hk.toKept1⟩

/-! ## The table -/

mutual
theorem tableAll_grown {fail : Bool} : ∀ {t t' : Node} {ν : Supply} {old : List Expr}, Grown O n ν old t → tableAll O n fail t = .ok t' →
    Grown O n ν old t' ∧ Kept t t'
  | mk e v tr ty s f [], t', ν, old, hg, h => by
    have nf : f = true → ty = .solution := fun hf => (hg.labelled.2 hf).2 rfl
    have leafG : ∀ {ty' : NType} {s' : Option Expr}, Labelled O n (mk e v tr ty' s' f []) → Grown O n ν old (mk e v tr ty' s' f []) := fun hl =>
      .mk hl (fun i c h => by simp [Node.children] at h) (fun i c h => by simp [Node.children] at h)
    have sol0 : ty ≠ .solution → s = none := fun hne => by
      rcases hg.labelled.1 with ⟨a, -⟩ | ⟨a, -⟩
      · exact a
      · exact absurd a hne
    have core : ty ≠ .solution → (match checkTable O n v e with
        | .error er => .error er
        | .ok (some r) => .ok (mk e v tr .solution (some r) f [])
        | .ok none => .ok (mk e v tr (if fail then .failure else ty) s f []) : R Node) = .ok t' →
        Grown O n ν old t' ∧ Kept (mk e v tr ty s f []) t' := by
      clear h
      intro h1 h
      have hf : f = false := by
        cases hf : f with
        | false => rfl
        | true => exact absurd (nf hf) h1
      subst hf
      have hkept : ∀ {ty' : NType} {s' : Option Expr}, Kept (mk e v tr ty s false []) (mk e v tr ty' s' false []) := by
        intro ty' s'
        exact ⟨⟨rfl, rfl, rfl, rfl, fun h => by cases h⟩, (fun h => by cases h), (fun h => by cases h)⟩
      split at h
      · cases h
      · next r hr =>
        cases h
        exact ⟨leafG ⟨.inr ⟨rfl, r, rfl, fun _ => hr⟩, fun h => by cases h⟩, hkept⟩
      · next hr =>
        cases h
        refine ⟨leafG ⟨.inl ⟨sol0 h1, ?_⟩, fun h => by cases h⟩, hkept⟩
        simp only [Node.type]
        split_ifs
        · simp
        · exact h1
    cases ty with
    | solution => simp only [tableAll] at h; cases h; exact ⟨hg, .refl _⟩
    | failure => simp only [tableAll] at h; cases h; exact ⟨hg, .refl _⟩
    | and => simp only [tableAll] at h; exact core (by simp) h
    | or => simp only [tableAll] at h; exact core (by simp) h
    | unset => simp only [tableAll] at h; exact core (by simp) h
  | mk e v tr ty s f (c :: cs), t', ν, old, hg, h => by
    rw [tableAll] at h
    split at h
    · cases h
    · next cs' h1 =>
      cases h
      obtain ⟨hl, hk⟩ := tableAllL_grown (N := mk e v tr ty s f (c :: cs)) (i := 0) (fun j d hd => by
        rw [Nat.zero_add]; exact ⟨hg.made hd, hg.kid hd⟩) h1
      have hne : cs' ≠ [] := by
        intro h; rw [h] at hk; cases hk
      refine ⟨.mk ⟨hg.labelled.1, fun hf => ⟨(hg.labelled.2 hf).1, fun h => absurd h hne⟩⟩ (fun i d hd => (hl i d hd).1)
        (fun i d hd => by have := (hl i d hd).2; rwa [Nat.zero_add] at this), ⟨rfl, rfl, rfl, rfl, fun _ => rfl⟩, fun _ _ => rfl, fun _ => ?_⟩
      exact hk
theorem tableAllL_grown {fail : Bool} {N : Node} : ∀ {cs cs' : List Node} {i : Nat} {ν : Supply} {old : List Expr},
    (∀ (j : Nat) (c : Node), cs[j]? = some c → Made O n ν old N.expr N.var (isByParts N.tr) c ∧
      Grown O n (ν.child (i + j)) (oldOf c old) c) → tableAllL O n fail cs = .ok cs' →
    (∀ (j : Nat) (c : Node), cs'[j]? = some c → Made O n ν old N.expr N.var (isByParts N.tr) c ∧
      Grown O n (ν.child (i + j)) (oldOf c old) c) ∧ List.Forall₂ Kept1 cs cs'
  | [], _, _, _, _, _, h => by rw [tableAllL] at h; cases h; simp
  | c :: cs, cs', i, ν, old, hg, h => by
    rw [tableAllL] at h
    split at h
    · cases h
    · next c' h1 =>
      split at h
      · cases h
      · next r' h2 =>
        cases h
        obtain ⟨m0, g0⟩ := hg 0 c rfl
        obtain ⟨g1, k1⟩ := tableAll_grown g0 h1
        obtain ⟨g2, k2⟩ := tableAllL_grown (i := i + 1) (ν := ν) (old := old) (N := N) (fun j d hd => by
          have := hg (j + 1) d (by simpa using hd)
          rwa [show i + (j + 1) = i + 1 + j by omega] at this) h2
        refine ⟨fun j d hd => ?_, .cons k1.toKept1 k2⟩
        cases j with
        | zero =>
          simp only [List.getElem?_cons_zero, Option.some.injEq] at hd
          subst hd
          rw [oldOf_kept k1.toKept1]
          exact ⟨m0.kept k1, g1⟩
        | succ j =>
          have := g2 j d (by simpa using hd)
          rwa [show i + 1 + j = i + (j + 1) by omega] at this
end

end Node
end Simpy
