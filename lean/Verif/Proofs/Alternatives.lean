import Verif.Spec.Alternatives
import Verif.Proofs.GrownSearch

/-! In the trees of the search, several attempts are alternatives. -/

namespace Simpy
open Expr
namespace Node

variable {O : Oracle} {n : Nat}

/-- The condition on one node. -/
def Alt1 (t : Node) : Prop :=
  (Attempts t → t.type = .or ∨ (t.type = .unset ∨ t.type = .and) ∧ ∀ c ∈ t.children, c.isSolved = true) ∧
  (t.type = .or → ∀ c ∈ t.children, isAttempt c.tr = true) ∧ (t.type = .failure → t.children = [])

/-- … on all nodes. -/
inductive Alt : Node → Prop
  | mk {t : Node} : Alt1 t → (∀ c ∈ t.children, Alt c) → Alt t

theorem Alt.here {t : Node} : Alt t → Alt1 t | .mk h _ => h
theorem Alt.kid {t : Node} : Alt t → ∀ c ∈ t.children, Alt c | .mk _ h => h

/-- No attempts below the node. -/
inductive Plain : Node → Prop
  | mk {t : Node} : t.type ≠ .or → t.type ≠ .failure → (∀ c ∈ t.children, isAttempt c.tr = false) → (∀ c ∈ t.children, Plain c) → Plain t

theorem Plain.alt : ∀ {t : Node}, Plain t → Alt t
  | t, .mk h1 h2 h3 h4 => by
    refine .mk ⟨fun ⟨ha, hb⟩ => ?_, fun h => absurd h h1, fun h => absurd h h2⟩ fun c hc => (h4 c hc).alt
    obtain ⟨c, hc⟩ := List.exists_mem_of_length_pos (l := t.children) (by omega)
    exact absurd (hb c hc) (by rw [h3 c hc]; simp)

theorem plain_leaf (e : Expr) (v : Str) (tr : Transf) : Plain (leaf e v tr) :=
  .mk (by simp [leaf, Node.type]) (by simp [leaf, Node.type]) (by simp [leaf, Node.children]) (by simp [leaf, Node.children])

/-- What a parent sees. -/
structure Evol (c c' : Node) : Prop where
  tr : c'.tr = c.tr
  solved : c.isSolved = true → c'.isSolved = true

theorem Evol.refl (c : Node) : Evol c c := ⟨rfl, id⟩

theorem evol_back {l l' : List Node} (h : List.Forall₂ Evol l l') : ∀ c' ∈ l', ∃ c ∈ l, Evol c c' := by
  induction h with
  | nil => simp
  | cons h _ ih =>
    intro c' hc'
    rcases List.mem_cons.1 hc' with rfl | hc'
    · exact ⟨_, by simp, h⟩
    · obtain ⟨c, hc, e⟩ := ih c' hc'
      exact ⟨c, by simp [hc], e⟩

theorem evol_fwd {l l' : List Node} (h : List.Forall₂ Evol l l') : ∀ c ∈ l, ∃ c' ∈ l', Evol c c' := by
  induction h with
  | nil => simp
  | cons h _ ih =>
    intro c' hc'
    rcases List.mem_cons.1 hc' with rfl | hc'
    · exact ⟨_, by simp, h⟩
    · obtain ⟨c, hc, e⟩ := ih c' hc'
      exact ⟨c, by simp [hc], e⟩

theorem Alt1.congr {t t' : Node} (h : Alt1 t) (hty : t'.type = t.type) (hk : List.Forall₂ Evol t.children t'.children) : Alt1 t' := by
  obtain ⟨h1, h2, h3⟩ := h
  have hl := hk.length_eq
  refine ⟨fun ⟨ha, hb⟩ => ?_, fun hor c' hc' => ?_, fun hf => ?_⟩
  · rw [hty]
    have := h1 ⟨by omega, fun c hc => by
      obtain ⟨c', hc', e⟩ := evol_fwd hk c hc
      rw [← e.tr]; exact hb c' hc'⟩
    rcases this with this | ⟨this, hs⟩
    · exact .inl this
    · refine .inr ⟨this, fun c' hc' => ?_⟩
      obtain ⟨c, hc, e⟩ := evol_back hk c' hc'
      exact e.solved (hs c hc)
  · obtain ⟨c, hc, e⟩ := evol_back hk c' hc'
    rw [e.tr]; exact h2 (hty ▸ hor) c hc
  · rw [h3 (hty ▸ hf)] at hl
    exact List.length_eq_zero_iff.1 hl.symm

/-! ## Safe transforms and the table -/

theorem safely_plain : ∀ {k : Nat} {ν : Supply} {as : List Node} {t t' : Node}, Plain t → safely O n k ν as t = .ok t' →
    Plain t' ∧ t'.tr = t.tr
  | 0, _, _, _, _, _, h => by cases h
  | k + 1, ν, as, t, t', hp, h => by
    rw [safely] at h
    obtain ⟨pl, h1, h⟩ := bind_ok.1 h
    dsimp only at h
    obtain ⟨cs, h3, h⟩ := bind_ok.1 h
    cases pure_ok.1 h
    obtain ⟨t1, ht1, a1, a2, a3, a4, a5, a6, ks, a7, a8, -⟩ := apply_shape O as (pl.getD {}) t
    rw [ht1] at h3 ⊢
    obtain ⟨w1, w2, w3, w4, w5, w6, w7⟩ := withChildren_shape cs t1
    obtain ⟨p1, p2, p3, p4⟩ := hp
    have hks : (t1.type = t.type ∨ t1.type = .and) ∧ ∀ c ∈ ks, Plain c ∧ isAttempt c.tr = false := by
      cases pl with
      | none => exact ⟨.inl a4, fun c hc => by have := a8.subset hc; simp at this⟩
      | some pl =>
        rcases safePlan_cases h1 with ⟨ts, h1, rfl⟩ | ⟨c, g, h1, rfl⟩ | ⟨g, h1, rfl⟩ | ⟨g, h1, rfl⟩ | ⟨g, h1, rfl⟩ | ⟨q, g, h1, rfl⟩
        · refine ⟨.inr a4, fun c hc => ?_⟩
          have := a8.subset hc
          simp only [Option.getD_some, List.mem_map] at this
          obtain ⟨e, -, rfl⟩ := this
          exact ⟨plain_leaf _ _ _, rfl⟩
        all_goals
          refine ⟨.inl a4, fun c hc => ?_⟩
          have := a8.subset hc
          simp only [Option.getD_some, List.mem_singleton] at this
          subst this
          exact ⟨plain_leaf _ _ _, rfl⟩
    have hkid : ∀ c ∈ t1.children, Plain c ∧ isAttempt c.tr = false := by
      intro c hc
      rw [a7] at hc
      rcases List.mem_append.1 hc with hc | hc
      · exact ⟨p4 c hc, p3 c hc⟩
      · exact hks.2 c hc
    have hcs : ∀ c' ∈ cs, Plain c' ∧ isAttempt c'.tr = false := by
      intro c' hc'
      obtain ⟨j, hj⟩ := List.mem_iff_getElem?.1 hc'
      obtain ⟨c, hc, hsafe⟩ := (mapIdxR_get h3).2 j c' hj
      obtain ⟨q1, q2⟩ := hkid c (List.mem_of_getElem? hc)
      obtain ⟨r1, r2⟩ := safely_plain q1 hsafe
      exact ⟨r1, by rw [r2]; exact q2⟩
    refine ⟨.mk ?_ ?_ ?_ ?_, w3.trans a3⟩
    · rw [w4]; rcases hks.1 with h | h <;> rw [h]
      · exact p1
      · simp
    · rw [w4]; rcases hks.1 with h | h <;> rw [h]
      · exact p2
      · simp
    · rw [w7]; exact fun c hc => (hcs c hc).2
    · rw [w7]; exact fun c hc => (hcs c hc).1

theorem tableAll_leaf {fail : Bool} {e : Expr} {v : Str} {tr : Option Transf} {ty : NType} {s : Option Expr} {f : Bool} {t' : Node}
    (h : tableAll O n fail (mk e v tr ty s f []) = .ok t') : ∃ ty' s', t' = mk e v tr ty' s' f [] := by
  unfold tableAll at h
  cases ty <;> dsimp only at h
  case solution => cases h; exact ⟨_, _, rfl⟩
  case failure => cases h; exact ⟨_, _, rfl⟩
  all_goals
    revert h
    generalize checkTable O n v e = r
    intro h
    match r, h with
    | .error _, h => cases h
    | .ok none, h => cases h; exact ⟨_, _, rfl⟩
    | .ok (some _), h => cases h; exact ⟨_, _, rfl⟩

theorem tableAll_tr {fail : Bool} {t t' : Node} (h : tableAll O n fail t = .ok t') : t'.tr = t.tr := by
  cases t with
  | mk e v tr ty s f cs =>
    cases cs with
    | nil =>
      obtain ⟨_, _, rfl⟩ := tableAll_leaf h
      rfl
    | cons c cs =>
      rw [tableAll] at h
      split at h
      · cases h
      · cases h; rfl

theorem tableAll_evol {fail : Bool} {t t' : Node} (h : tableAll O n fail t = .ok t') : Evol t t' :=
  ⟨tableAll_tr h, (later_stable _ _ (tableAll_later h)).2⟩

mutual
theorem tableAll_alt {fail : Bool} : ∀ {t t' : Node}, Alt t → tableAll O n fail t = .ok t' → Alt t'
  | mk e v tr ty s f [], t', ha, h => by
    have leaf : ∀ {t' : Node}, t'.children = [] → Alt t' := fun h => .mk ⟨fun ⟨a, _⟩ => by rw [h] at a; simp at a,
      fun _ c hc => by rw [h] at hc; simp at hc, fun _ => h⟩ (fun c hc => by rw [h] at hc; simp at hc)
    obtain ⟨_, _, rfl⟩ := tableAll_leaf h
    exact leaf rfl
  | mk e v tr ty s f (c :: cs), t', ha, h => by
    rw [tableAll] at h
    split at h
    · cases h
    · next cs' h1 =>
      cases h
      obtain ⟨h2, h3⟩ := tableAllL_alt (fun c hc => ha.kid c hc) h1
      exact .mk (ha.here.congr (t' := mk e v tr ty s f cs') rfl h3) h2
theorem tableAllL_alt {fail : Bool} : ∀ {cs cs' : List Node}, (∀ c ∈ cs, Alt c) → tableAllL O n fail cs = .ok cs' →
    (∀ c ∈ cs', Alt c) ∧ List.Forall₂ Evol cs cs'
  | [], _, _, h => by cases h; exact ⟨by simp, .nil⟩
  | c :: cs, _, ha, h => by
    rw [tableAllL] at h
    split at h
    · cases h
    · next c' h1 =>
      split at h
      · cases h
      · next cs' h2 =>
        cases h
        obtain ⟨h3, h4⟩ := tableAllL_alt (fun d hd => ha d (by simp [hd])) h2
        refine ⟨fun d hd => ?_, .cons (tableAll_evol h1) h4⟩
        rcases List.mem_cons.1 hd with rfl | hd
        · exact tableAll_alt (ha c (by simp)) h1
        · exact h3 d hd
end

/-! ## Heuristics -/

/-- What a heuristic may do. -/
def AltPlan (pl : Plan) : Prop := (pl.ty = none ∨ pl.ty = some .or) ∧ ∀ k ∈ pl.kids, Plain k ∧ isAttempt k.tr = true

theorem altPlan_empty : AltPlan {} := ⟨.inl rfl, fun k hk => by simp at hk⟩

theorem altPlan_one {k : Node} {ty : Option NType} (hty : ty = none ∨ ty = some .or) (h1 : Plain k) (h2 : isAttempt k.tr = true) :
    AltPlan { ty := ty, kids := [k] } :=
  ⟨hty, fun c hc => by simp only [List.mem_singleton] at hc; subst hc; exact ⟨h1, h2⟩⟩

theorem altPlan_opt {α : Type} {f : α → Node} {r : R (Option α)} {pl : HPlan} (hf : ∀ a, Plain (f a) ∧ isAttempt (f a).tr = true)
    (h : planR (r.map (planOpt f)) = .ok pl) : AltPlan pl.plan := by
  cases r with
  | error er => cases h
  | ok o =>
    cases o with
    | none => cases h; exact altPlan_empty
    | some a => cases h; exact altPlan_one (.inl rfl) (hf a).1 (hf a).2

theorem plain_funky (as : List Node) (t : Node) (c g : Expr) : Plain (funky O as t c g) ∧ (funky O as t c g).tr = some .byParts := by
  obtain ⟨rest, hrest, h⟩ := funky_shape O as t c g
  rw [h]
  have hk : ∀ d ∈ (mk t.expr t.var (some .additivity) .solution (some c) true [] :: rest), Plain d ∧ isAttempt d.tr = false := by
    intro d hd
    rcases List.mem_cons.1 hd with rfl | hd
    · exact ⟨.mk (by simp [Node.type]) (by simp [Node.type]) (by simp [Node.children]) (by simp [Node.children]), rfl⟩
    · rcases hrest with rfl | rfl
      · simp at hd
      · simp only [List.mem_singleton] at hd
        subst hd
        exact ⟨plain_leaf _ _ _, rfl⟩
  exact ⟨.mk (by simp [Node.type]) (by simp [Node.type]) (fun d hd => (hk d hd).2) (fun d hd => (hk d hd).1), rfl⟩

theorem plain_solvedFiller (t : Node) (r : Expr) : Plain (solvedFiller t r) :=
  .mk (by simp [solvedFiller, Node.type]) (by simp [solvedFiller, Node.type]) (by simp [solvedFiller, Node.children])
    (by simp [solvedFiller, Node.children])

theorem byPartsPlan_alt {ν : Supply} {as : List Node} {p : List Nat} {t : Node} {pl : HPlan} (h : byPartsPlan O n ν as p t = .ok pl) :
    AltPlan pl.plan := by
  unfold byPartsPlan at h
  dsimp only at h
  obtain ⟨k, -, h⟩ := bind_ok.1 h
  cases k with
  | none => cases pure_ok.1 h; exact altPlan_empty
  | some k =>
    obtain ⟨u, du, w⟩ := k
    simp only at h
    obtain ⟨⟨c, g, f⟩, -, h⟩ := bind_ok.1 h
    dsimp only at h
    split_ifs at h
    · obtain ⟨r, -, h⟩ := bind_ok.1 h
      cases pure_ok.1 h
      exact altPlan_one (.inr rfl) (plain_solvedFiller _ _) rfl
    · obtain ⟨o, h3, h⟩ := bind_ok.1 h
      cases o with
      | none =>
        cases pure_ok.1 h
        exact altPlan_one (.inl rfl) (plain_funky _ _ _ _).1 (by rw [(plain_funky _ _ _ _).2]; rfl)
      | some pl' =>
        cases pure_ok.1 h
        cases hl : lastByParts 0 (t :: as) with
        | none => rw [hl] at h3; simp [byPartsTwice] at h3
        | some jP =>
          obtain ⟨j, P⟩ := jP
          rw [hl] at h3
          simp only [byPartsTwice] at h3
          obtain ⟨s, -, h3⟩ := bind_ok.1 h3
          split at h3
          · cases pure_ok.1 h3
          · obtain ⟨k, -, h3⟩ := bind_ok.1 h3
            obtain ⟨f', -, h3⟩ := bind_ok.1 h3
            obtain ⟨r, -, h3⟩ := bind_ok.1 h3
            split at h3
            swap
            · cases h3
            cases pure_ok.1 h3
            exact altPlan_one (.inr rfl) (plain_solvedFiller _ _) rfl

theorem rewriteTrigPlan_alt {as : List Node} {t : Node} {pl : Plan} (h : rewriteTrigPlan O n as t = .ok pl) : AltPlan pl := by
  unfold rewriteTrigPlan at h
  split_ifs at h
  · cases h; exact altPlan_empty
  · obtain ⟨gs, h1, h⟩ := bind_ok.1 h
    cases pure_ok.1 h
    refine ⟨.inr rfl, fun k hk => ?_⟩
    simp only [List.mem_map] at hk
    obtain ⟨g, hg, rfl⟩ := hk
    exact ⟨plain_leaf _ _ _, rfl⟩
  · cases h; exact altPlan_empty

theorem inversePlan_alt {u : Str} {as : List Node} {t : Node} {pl : Plan} (h : inversePlan O n u as t = .ok pl) : AltPlan pl := by
  unfold inversePlan at h
  split_ifs at h
  · cases h; exact altPlan_empty
  · obtain ⟨k, h1, h⟩ := bind_ok.1 h
    cases k with
    | none => cases pure_ok.1 h; exact altPlan_empty
    | some k =>
      obtain ⟨q, g⟩ := k
      simp only at h
      obtain ⟨c, h2, h⟩ := bind_ok.1 h
      cases pure_ok.1 h
      unfold inverseNode at h2
      obtain ⟨s, h3, h2⟩ := bind_ok.1 h2
      have h2 := pure_ok.1 h2
      split_ifs at h2
      · subst h2
        obtain ⟨a1, a2, a3, a4, a5, a6, a7⟩ := addChild_shape O (t :: as) (leaf s u .simplify) (leaf g u (.inverseTrigUSub q))
        have hkid : ∀ d ∈ (addChild O (t :: as) (leaf s u .simplify) (leaf g u (.inverseTrigUSub q))).children,
            d = leaf s u .simplify := by
          intro d hd
          rcases a7 with ⟨a7, -⟩ | a7 <;> rw [a7] at hd <;> simpa [leaf, Node.children] using hd
        refine altPlan_one (.inl rfl) (.mk (by rw [a4]; simp [leaf, Node.type]) (by rw [a4]; simp [leaf, Node.type])
          (fun d hd => ?_) (fun d hd => ?_)) (by rw [a3]; rfl)
        · rw [hkid d hd]; rfl
        · rw [hkid d hd]; exact plain_leaf _ _ _
      · subst h2
        exact altPlan_one (.inl rfl) (plain_leaf _ _ _) rfl

theorem heuristics_alt {ν : Supply} {as : List Node} {p : List Nat} {t : Node} {r : R HPlan} {pl : HPlan} (hr : r ∈ heuristics O n ν as p t)
    (h : r = .ok pl) : AltPlan pl.plan := by
  have mapped : ∀ {a : R Plan}, (∀ pl, a = .ok pl → AltPlan pl) →
      (a.map fun pl => ({ plan := pl } : HPlan)) = .ok pl → AltPlan pl.plan := by
    intro a ha h
    cases a with
    | error er => cases h
    | ok pl' => cases h; exact ha pl' rfl
  subst h
  simp only [heuristics, List.mem_cons, List.not_mem_nil, or_false] at hr
  rcases hr with hr | hr | hr | hr | hr | hr | hr | hr | hr
  · exact altPlan_opt (fun a => ⟨plain_leaf _ _ _, rfl⟩) hr.symm
  · exact altPlan_opt (fun a => ⟨plain_leaf _ _ _, rfl⟩) hr.symm
  · split_ifs at hr
    · cases hr; exact altPlan_empty
    · exact altPlan_opt (fun a => ⟨plain_leaf _ _ _, rfl⟩) hr.symm
  · exact byPartsPlan_alt hr.symm
  · exact mapped (fun pl h => rewriteTrigPlan_alt h) hr.symm
  · exact altPlan_opt (fun a => ⟨plain_leaf _ _ _, rfl⟩) hr.symm
  · exact mapped (fun pl h => inversePlan_alt h) hr.symm
  · exact altPlan_opt (fun a => ⟨plain_leaf _ _ _, rfl⟩) hr.symm
  · exact altPlan_opt (fun a => ⟨plain_leaf _ _ _, rfl⟩) hr.symm

theorem runHeuristics_alt {as : List Node} : ∀ {hs : List (R HPlan)} {t t' : Node} {sc : Option (Nat × Expr)},
    (∀ r ∈ hs, ∀ pl, r = .ok pl → AltPlan pl.plan) → runHeuristics O as hs t = .ok (t', sc) → t'.tr = t.tr ∧
      (t'.type = t.type ∨ t'.type = .or) ∧ ∃ ks : List Node, t'.children = t.children ++ ks ∧ ∀ k ∈ ks, Plain k ∧ isAttempt k.tr = true
  | [], t, t', sc, _, h => by
    simp only [runHeuristics, Except.ok.injEq, Prod.mk.injEq] at h
    obtain ⟨rfl, rfl⟩ := h
    exact ⟨rfl, .inl rfl, [], by simp, by simp⟩
  | r :: hs, t, t', sc, hg, h => by
    rw [runHeuristics] at h
    obtain ⟨pl, h1, h⟩ := bind_ok.1 h
    obtain ⟨⟨t2, sc2⟩, h2, h⟩ := bind_ok.1 h
    have h := pure_ok.1 h
    simp only [Prod.mk.injEq] at h
    obtain ⟨rfl, rfl⟩ := h
    obtain ⟨p1, p2⟩ := hg r (by simp) pl h1
    obtain ⟨t1, ht1, a1, a2, a3, a4, a5, a6, ks1, a7, a8, -⟩ := apply_shape O as pl.plan t
    rw [ht1] at h2
    obtain ⟨b3, b4, ks2, b8, b9⟩ := runHeuristics_alt (fun r hr pl h => hg r (by simp [hr]) pl h) h2
    have ty1 : t1.type = t.type ∨ t1.type = .or := by
      rcases p1 with p1 | p1 <;> rw [a4, p1] <;> simp
    refine ⟨b3.trans a3, ?_, ks1 ++ ks2, by rw [b8, a7, List.append_assoc], fun k hk => ?_⟩
    · rcases b4 with b4 | b4
      · rw [b4]; exact ty1
      · exact .inr b4
    · rcases List.mem_append.1 hk with hk | hk
      · exact p2 k (a8.subset hk)
      · exact b9 k hk

theorem open_type {t : Node} (ho : Open t) : t.type ≠ .solution ∧ t.type ≠ .failure := by
  obtain ⟨hc, hf⟩ := ho
  cases t
  simp only [Node.type]
  constructor <;> rintro rfl <;> simp [isFinished, isSolved, isFailed] at hf

theorem heuristically_alt {ν : Supply} {as : List Node} {p : List Nat} {t t' : Node} {sc : Option (Nat × Expr)}
    (ho : Open t) (h : heuristically O n ν as p t = .ok (t', sc)) : Alt t' ∧ Evol t t' := by
  have ev : t'.tr = t.tr → Evol t t' := fun h => ⟨h, fun hs => by
    have := ho.2
    simp [isFinished, hs] at this⟩
  unfold heuristically at h
  obtain ⟨⟨t1, sc1⟩, h1, h⟩ := bind_ok.1 h
  dsimp only at h
  obtain ⟨a3, a4, ks, a8, a9⟩ := runHeuristics_alt (fun r hr pl h => heuristics_alt hr h) h1
  rw [show t.children = [] from ho.1, List.nil_append] at a8
  obtain ⟨o1, o2⟩ := open_type ho
  have hty1 : t1.type ≠ .solution ∧ t1.type ≠ .failure := by
    rcases a4 with a4 | a4 <;> rw [a4]
    · exact ⟨o1, o2⟩
    · simp
  -- the node whose children have been integrated safely
  have fin : ∀ (t2 : Node), t2.tr = t1.tr → t2.type ≠ .failure → (2 ≤ t1.children.length → t2.type = .or) →
      t2.children = t1.children → (do
        let cs ← mapIdxR (fun i c => safely O n n (ν.child i) (t2 :: as) c) 0 t2.children
        return (t2.withChildren cs, sc1)) = Except.ok (t', sc) → t1.children ≠ [] → Alt t' ∧ t'.tr = t.tr := by
    intro t2 e3 e6 e8 e7 h hne
    obtain ⟨cs, h3, h⟩ := bind_ok.1 h
    have h := pure_ok.1 h
    simp only [Prod.mk.injEq] at h
    obtain ⟨rfl, rfl⟩ := h
    obtain ⟨w1, w2, w3, w4, w5, w6, w7⟩ := withChildren_shape cs t2
    obtain ⟨hlen, hget⟩ := mapIdxR_get h3
    have hcs : ∀ c' ∈ cs, Plain c' ∧ isAttempt c'.tr = true := by
      intro c' hc'
      obtain ⟨j, hj⟩ := List.mem_iff_getElem?.1 hc'
      obtain ⟨c, hc, hsafe⟩ := hget j c' hj
      rw [e7, a8] at hc
      obtain ⟨q1, q2⟩ := a9 c (List.mem_of_getElem? hc)
      obtain ⟨r1, r2⟩ := safely_plain q1 hsafe
      exact ⟨r1, by rw [r2]; exact q2⟩
    refine ⟨.mk ⟨fun ⟨ha, _⟩ => .inl ?_, fun _ c hc => ?_, fun hf => ?_⟩ fun c hc => ?_, (w3.trans e3).trans a3⟩
    · rw [w4]; apply e8; rw [w7, hlen, e7] at ha; exact ha
    · rw [w7] at hc; exact (hcs c hc).2
    · rw [w4] at hf; exact absurd hf e6
    · rw [w7] at hc; exact (hcs c hc).1.alt
  split_ifs at h with h2 h3 h4
  · have h := pure_ok.1 h
    simp only [Prod.mk.injEq] at h
    obtain ⟨rfl, rfl⟩ := h
    refine ⟨.mk ⟨fun ⟨ha, _⟩ => ?_, fun _ c hc => ?_, fun hf => absurd hf hty1.2⟩ fun c hc => ?_, ev a3⟩
    · cases t1 with
      | mk e v tr ty s f cs =>
        simp only [Node.type, Node.children] at *
        cases ty with
        | or => exact .inl rfl
        | solution => exact absurd rfl hty1.1
        | failure => exact absurd rfl hty1.2
        | unset =>
          simp only [isSolved, Bool.and_eq_true] at h2
          exact .inr ⟨.inl rfl, fun c hc => allSolved_iff.1 h2.2 c hc⟩
        | and =>
          simp only [isSolved, Bool.and_eq_true] at h2
          exact .inr ⟨.inr rfl, fun c hc => allSolved_iff.1 h2.2 c hc⟩
    · rw [a8] at hc; exact (a9 c hc).2
    · rw [a8] at hc; exact (a9 c hc).1.alt
  · have h := pure_ok.1 h
    simp only [Prod.mk.injEq] at h
    obtain ⟨rfl, rfl⟩ := h
    obtain ⟨s1, s2, s3, s4, s5, s6, s7⟩ := setType_shape .failure t1
    have hn : (setType .failure t1).children = [] := by
      rw [s7]; simpa using h3
    exact ⟨.mk ⟨fun ⟨a, _⟩ => by rw [hn] at a; simp at a, fun _ c hc => by rw [hn] at hc; simp at hc, fun _ => hn⟩
      (fun c hc => by rw [hn] at hc; simp at hc), ev (s3.trans a3)⟩
  · obtain ⟨s1, s2, s3, s4, s5, s6, s7⟩ := setType_shape .or t1
    obtain ⟨r1, r2⟩ := fin _ s3 (by rw [s4]; simp) (fun _ => s4) s7 h (by simpa using h3)
    exact ⟨r1, ev r2⟩
  · obtain ⟨r1, r2⟩ := fin _ rfl hty1.2 (fun h5 => absurd h5 (by omega)) rfl h (by simpa using h3)
    exact ⟨r1, ev r2⟩

/-! ## The tree -/

theorem alt_at : ∀ {p : List Nat} {t c : Node}, Alt t → at? p t = some c → Alt c
  | [], _, _, ha, h => by cases h; exact ha
  | i :: p, t, c, ha, h => by
    simp only [at?] at h
    obtain ⟨d, hd, h⟩ := Option.bind_eq_some_iff.1 h
    exact alt_at (ha.kid d (List.mem_of_getElem? hd)) h

theorem replaceAt_alt : ∀ {p : List Nat} {t c c' : Node}, Alt t → at? p t = some c → Alt c' → Later c c' → c'.tr = c.tr →
    Alt (replaceAt c' p t) ∧ Evol t (replaceAt c' p t)
  | [], _, _, _, _, h, ha', hl, htr => by cases h; exact ⟨ha', htr, (later_stable _ _ hl).2⟩
  | i :: p, mk e v tr ty s f cs, c, c', ha, h, ha', hl, htr => by
    have L := later_at h hl
    simp only [at?, Node.children] at h
    obtain ⟨d, hd, h⟩ := Option.bind_eq_some_iff.1 h
    obtain ⟨g1, k1⟩ := replaceAt_alt (ha.kid d (List.mem_of_getElem? hd)) h ha' hl htr
    simp only [replaceAt, hd] at L ⊢
    have hget : ∀ (j : Nat) (b : Node), (cs.set i (replaceAt c' p d))[j]? = some b → j = i ∧ b = replaceAt c' p d ∨ j ≠ i ∧ cs[j]? = some b := by
      intro j b hb
      rw [List.getElem?_set] at hb
      split_ifs at hb with h1
      · cases hb
        exact .inl ⟨h1.symm, rfl⟩
      · exact .inr ⟨fun h => h1 h.symm, hb⟩
    refine ⟨.mk (ha.here.congr (t' := mk e v tr ty s f _) rfl (forall₂_of_get (by simp [Node.children]) fun j b hb => ?_)) fun b hb => ?_,
      rfl, (later_stable _ _ L).2⟩
    · rcases hget j b hb with ⟨rfl, rfl⟩ | ⟨-, hb⟩
      · exact ⟨d, hd, k1⟩
      · exact ⟨b, hb, .refl b⟩
    · obtain ⟨j, hj⟩ := List.mem_iff_getElem?.1 hb
      rcases hget j b hj with ⟨rfl, rfl⟩ | ⟨-, hb⟩
      · exact g1
      · exact ha.kid b (List.mem_of_getElem? hb)

theorem rescale_alt {p : List Nat} {sc : Option (Nat × Expr)} {t t' : Node} (ha : Alt t) (h : rescale O n p sc t = .ok t') : Alt t' := by
  unfold rescale at h
  split at h
  · cases h; exact ha
  · split at h
    · cases h
    · next a hat =>
      split at h
      · cases h
      · obtain ⟨r, -, h⟩ := bind_ok.1 h
        cases pure_ok.1 h
        have haa := alt_at ha hat
        refine (replaceAt_alt ha hat ?_ ?_ ?_).1
        · cases a with
          | mk e v tr ty s f cs => exact .mk haa.here haa.kid
        · cases a with
          | mk e v tr ty s f cs => exact .same (forall₂_refl later_refl _)
        · cases a; rfl

theorem cycle_alt {ν : Supply} {bf : Bool} {t t' : Node} {p : List Nat} {nx : Next} (ha : Alt t)
    (h : cycle O n ν bf t p = .ok (t', nx)) : Alt t' := by
  unfold cycle at h
  split at h
  · cases h
  next t0 ht0 =>
  obtain ⟨t1, h1, h⟩ := bind_ok.1 h
  dsimp only at h
  obtain ⟨g2, -⟩ := replaceAt_alt ha ht0 (tableAll_alt (alt_at ha ht0) h1) (tableAll_later h1) (tableAll_tr h1)
  split at h
  · have h := pure_ok.1 h
    simp only [Prod.mk.injEq] at h
    obtain ⟨rfl, -⟩ := h
    exact g2
  next q _ hq =>
  split at h
  · cases h
  next l as hl =>
  obtain ⟨⟨l', sc⟩, h3, h⟩ := bind_ok.1 h
  obtain ⟨root2, h4, h⟩ := bind_ok.1 h
  obtain ⟨nx', -, h⟩ := bind_ok.1 h
  have h := pure_ok.1 h
  simp only [Prod.mk.injEq] at h
  obtain ⟨rfl, -⟩ := h
  have hat := lineage_at hl
  have hopen : Open l := by
    have := (mem_unfinishedPaths t1 q).1 (by rw [hq]; simp)
    rw [at_append, at_replaceAt _ ht0, Option.bind_some, this.1] at hat
    cases hat
    exact this.2
  obtain ⟨b1, b2⟩ := heuristically_alt hopen h3
  exact rescale_alt (replaceAt_alt g2 hat b1 (.work hopen.1 hopen.2) b2.tr).1 h4

theorem searchLoop_alt {ν : Supply} {bf : Bool} : ∀ {k : Nat} {t T : Node} {p : List Nat}, Alt t →
    searchLoop O n ν bf k t p = .ok T → Alt T
  | 0, t, T, p, hg, h => by
    rw [searchLoop.eq_def] at h
    simp only at h
    obtain ⟨⟨t', nx⟩, h1, h⟩ := bind_ok.1 h
    cases pure_ok.1 h
    exact cycle_alt hg h1
  | k + 1, t, T, p, hg, h => by
    rw [searchLoop] at h
    obtain ⟨⟨t', nx⟩, h1, h⟩ := bind_ok.1 h
    have a := cycle_alt hg h1
    dsimp only at h
    split_ifs at h
    · cases pure_ok.1 h
      exact a
    · cases nx with
      | none => cases h
      | node q => exact searchLoop_alt a h
      | solved =>
        simp only at h
        obtain ⟨nx, -, h⟩ := bind_ok.1 h
        cases nx with
        | none => cases h
        | solved => cases h
        | node q => exact searchLoop_alt a h

theorem search_alt {ν : Supply} {bf : Bool} {k : Nat} {v : Str} {e : Expr} {T : Node} (h : search O n ν bf k v e = .ok T) : Alt T := by
  unfold search startTree at h
  obtain ⟨t, h1, h⟩ := bind_ok.1 h
  obtain ⟨s, h2, h1⟩ := bind_ok.1 h1
  refine searchLoop_alt (safely_plain (.mk ?_ ?_ ?_ ?_) h1).1.alt h <;> simp [Node.type, Node.children]

end Node
end Simpy
