import Verif.Proofs.Grown

/-! The search keeps `Grown`: heuristics and cycles. -/

namespace Simpy
open Expr
namespace Node

variable {O : Oracle} {n : Nat}

/-! ## Heuristics -/

/-- What a heuristic may do to a node with the integrand `e` and the variable `v`. -/
def GoodPlan (O : Oracle) (n : Nat) (ν : Supply) (old : List Expr) (e : Expr) (v : Str) (bp : Bool) (pl : Plan) : Prop :=
  (pl.ty = none ∨ pl.ty = some .or) ∧ ∀ k ∈ pl.kids, Made O n ν old e v bp k ∧ (∀ i, Grown O n (ν.child i) (oldOf k old) k) ∧
    (Raw k ∨ pl.ty = some .or ∧ k.isSolved = true ∧ k.filler = true)

theorem goodPlan_empty {ν : Supply} {old : List Expr} {e : Expr} {v : Str} {bp : Bool} : GoodPlan O n ν old e v bp {} :=
  ⟨.inl rfl, fun k hk => by simp at hk⟩

theorem goodPlan_leaf {ν : Supply} {old : List Expr} {e : Expr} {v : Str} {bp : Bool} {e' : Expr} {v' : Str} {tr : Transf}
    (h : MadeBy O n ν old e v bp (leaf e' v' tr) tr) : GoodPlan O n ν old e v bp { kids := [leaf e' v' tr] } :=
  ⟨.inl rfl, fun k hk => by
    simp only [List.mem_singleton] at hk
    subst hk
    exact ⟨⟨tr, rfl, h⟩, fun i => grown_leaf _ _ _ _ _, .inl (raw_leaf _ _ _)⟩⟩

theorem goodPlan_opt {α : Type} {ν : Supply} {old : List Expr} {e : Expr} {v : Str} {bp : Bool} {f : α → Node} {r : R (Option α)} {pl : HPlan}
    (hf : ∀ a, r = .ok (some a) → GoodPlan O n ν old e v bp { kids := [f a] }) (h : planR (r.map (planOpt f)) = .ok pl) :
    GoodPlan O n ν old e v bp pl.plan ∧ pl.scale = none := by
  cases r with
  | error er => cases h
  | ok o =>
    cases o with
    | none => cases h; exact ⟨goodPlan_empty, rfl⟩
    | some a => cases h; exact ⟨hf a rfl, rfl⟩

theorem byPartsCheck_not_sum {x : Str} {integ : Expr → R (Option Expr)} {old : Expr → Bool} {e : Expr} {r : Expr × Expr × Expr}
    (h : byPartsCheck O n x integ old e = .ok (some r)) (ts : List Expr) : e ≠ sum ts := by
  rintro rfl
  simp [byPartsCheck, logOrInverse] at h

theorem funky_shape (O : Oracle) (as : List Node) (t : Node) (c g : Expr) : ∃ rest : List Node,
    (rest = [] ∨ rest = [leaf g t.var .additivity]) ∧ funky O as t c g = mk t.expr t.var (some .byParts) .and none true
      (mk t.expr t.var (some .additivity) .solution (some c) true [] :: rest) := by
  have h0 : refused O (mk t.expr t.var (some .byParts) .and none true [] :: t :: as)
      (mk t.expr t.var (some .additivity) .solution (some c) true []) = false := rfl
  cases hb : refused O (mk t.expr t.var (some .byParts) .and none true
      [mk t.expr t.var (some .additivity) .solution (some c) true []] :: t :: as) (leaf g t.var .additivity) with
  | true => exact ⟨[], .inl rfl, by simp [funky, addChildren, addChild, h0, hb]⟩
  | false => exact ⟨_, .inr rfl, by simp [funky, addChildren, addChild, h0, hb]⟩

theorem goodPlan_filler {ν : Supply} {t : Node} {old : List Expr} {c g f r : Expr} (hp : PartsOf O n (ν.own 3) old t.var t.expr c g f)
    (hr : f.contains t.var = false → byPartsSolution (ctors O n) c f = .ok r) :
    GoodPlan O n ν old t.expr t.var (isByParts t.tr) { ty := some .or, kids := [solvedFiller t r] } := by
  refine ⟨.inr rfl, fun k hk => ?_⟩
  simp only [List.mem_singleton] at hk
  subst hk
  refine ⟨⟨_, rfl, rfl, rfl, rfl, c, g, f, hp, .inl ⟨rfl, rfl, r, rfl, hr⟩⟩, fun i => ?_, .inr ⟨rfl, by simp [solvedFiller, isSolved], rfl⟩⟩
  obtain ⟨_, _, _, hp, -⟩ := hp
  exact .mk ⟨.inr ⟨rfl, r, rfl, fun h => by cases h⟩, fun _ => ⟨byPartsCheck_not_sum hp, fun _ => rfl⟩⟩
    (fun i c h => by simp [solvedFiller, Node.children] at h) (fun i c h => by simp [solvedFiller, Node.children] at h)

theorem raw_funky (as : List Node) (t : Node) (c g : Expr) : Raw (funky O as t c g) := by
  obtain ⟨rest, hrest, h⟩ := funky_shape O as t c g
  rw [h]
  refine .mk (fun h => by simp [Node.type] at h) (fun d hd => ?_)
  simp only [Node.children, List.mem_cons] at hd
  rcases hd with rfl | hd
  · exact .mk (fun _ => ⟨rfl, rfl⟩) (fun d h => by simp [Node.children] at h)
  · rcases hrest with rfl | rfl
    · simp at hd
    · simp only [List.mem_singleton] at hd
      subst hd
      exact raw_leaf _ _ _

theorem goodPlan_funky {ν : Supply} {as : List Node} {t : Node} {old : List Expr} {c g f : Expr} (hp : PartsOf O n (ν.own 3) old t.var t.expr c g f)
    (hf : f.contains t.var = true) :
    GoodPlan O n ν old t.expr t.var (isByParts t.tr) { kids := [funky O as t c g] } := by
  refine ⟨.inl rfl, fun k hk => ?_⟩
  simp only [List.mem_singleton] at hk
  subst hk
  refine ⟨?_, fun i => ?_, .inl (raw_funky _ _ _ _)⟩
  · obtain ⟨rest, hrest, h⟩ := funky_shape O as t c g
    rw [h]
    refine ⟨_, rfl, rfl, rfl, rfl, c, g, f, hp, .inr ⟨rfl, rfl, hf, _, rest, rfl, rfl, rfl, rfl, rfl, rfl, fun d hd _ => ?_⟩⟩
    rcases hrest with rfl | rfl
    · simp at hd
    · simp only [List.mem_singleton] at hd
      subst hd
      exact ⟨rfl, rfl, rfl⟩
  · obtain ⟨_, _, _, hp, -⟩ := hp
    have hns := byPartsCheck_not_sum hp
    obtain ⟨rest, hrest, h⟩ := funky_shape O as t c g
    have hd : ∀ d ∈ (mk t.expr t.var (some .additivity) .solution (some c) true [] :: rest), d.tr = some .additivity ∧ d.var = t.var ∧
        ∀ (ν : Supply) (old : List Expr), Grown O n ν old d := by
      intro d hd
      rcases List.mem_cons.1 hd with rfl | hd
      · refine ⟨rfl, rfl, fun ν old => .mk ⟨.inr ⟨rfl, c, rfl, fun h => by cases h⟩, fun _ => ⟨hns, fun _ => rfl⟩⟩
          (fun i c h => by simp [Node.children] at h) (fun i c h => by simp [Node.children] at h)⟩
      · rcases hrest with rfl | rfl
        · simp at hd
        · simp only [List.mem_singleton] at hd
          subst hd
          exact ⟨rfl, rfl, fun _ _ => grown_leaf _ _ _ _ _⟩
    rw [h]
    refine .mk ⟨.inl ⟨rfl, by simp [Node.type]⟩, fun _ => ⟨hns, fun h => by simp [Node.children] at h⟩⟩ (fun i d hi => ?_) (fun i d hi => ?_)
    · obtain ⟨h1, h2, -⟩ := hd d (List.mem_of_getElem? hi)
      exact ⟨_, h1, h2, .inl rfl⟩
    · exact (hd d (List.mem_of_getElem? hi)).2.2 _ _

/-- What the second component of a plan may be. -/
def GoodScale (l : List Node) (sc : Option (Nat × Expr)) : Prop :=
  ∀ j f, sc = some (j, f) → ∃ P, l[j]? = some P ∧ P.tr = some .byParts

theorem lastByParts_get : ∀ {l : List Node} {i j : Nat} {P : Node}, lastByParts i l = some (j, P) → ∃ k, j = i + k ∧ l[k]? = some P ∧
    P.tr = some .byParts
  | [], _, _, _, h => by simp [lastByParts] at h
  | t :: as, i, j, P, h => by
    rw [lastByParts] at h
    split at h
    · next ht =>
      simp only [Option.some.injEq, Prod.mk.injEq] at h
      obtain ⟨rfl, rfl⟩ := h
      exact ⟨0, rfl, rfl, ht⟩
    · obtain ⟨k, h1, h2, h3⟩ := lastByParts_get h
      exact ⟨k + 1, by omega, by simpa using h2, h3⟩
    · obtain ⟨k, h1, h2, h3⟩ := lastByParts_get h
      exact ⟨k + 1, by omega, by simpa using h2, h3⟩
    · cases h

theorem byPartsPlan_good {ν : Supply} {as : List Node} {p : List Nat} {t : Node} {pl : HPlan} (h : byPartsPlan O n (ν.own 3) as p t = .ok pl) :
    GoodPlan O n ν (oldsOf (t :: as)) t.expr t.var (isByParts t.tr) pl.plan ∧ GoodScale (t :: as) pl.scale := by
  have nos : GoodScale (t :: as) none := fun j f h => by cases h
  unfold byPartsPlan at h
  dsimp only at h
  obtain ⟨k, h1, h⟩ := bind_ok.1 h
  have e1 : (fun g => ((t :: as).filter fun a => isByParts a.tr).any fun a => beq O g a.expr) =
      fun g => (oldsOf (t :: as)).any fun a => beq O g a := by
    funext g
    simp only [oldsOf, List.any_map]
    rfl
  rw [e1] at h1
  cases k with
  | none => cases pure_ok.1 h; exact ⟨goodPlan_empty, nos⟩
  | some k =>
    obtain ⟨u, du, w⟩ := k
    simp only at h
    obtain ⟨⟨c, g, f⟩, h2, h⟩ := bind_ok.1 h
    have hp : PartsOf O n (ν.own 3) (oldsOf (t :: as)) t.var t.expr c g f := ⟨u, du, w, h1, h2⟩
    dsimp only at h
    cases hf : f.contains t.var with
    | false =>
      simp only [hf, Bool.not_false, if_true] at h
      obtain ⟨r, h3, h⟩ := bind_ok.1 h
      cases pure_ok.1 h
      exact ⟨goodPlan_filler hp fun _ => h3, nos⟩
    | true =>
      simp only [hf, Bool.not_true, Bool.false_eq_true, if_false] at h
      obtain ⟨o, h3, h⟩ := bind_ok.1 h
      cases o with
      | none =>
        cases pure_ok.1 h
        exact ⟨goodPlan_funky hp hf, nos⟩
      | some pl' =>
        cases pure_ok.1 h
        cases hl : lastByParts 0 (t :: as) with
        | none => rw [hl] at h3; simp [byPartsTwice] at h3
        | some jP =>
          obtain ⟨j, P⟩ := jP
          rw [hl] at h3
          obtain ⟨k, hk, hP, hPt⟩ := lastByParts_get hl
          rw [Nat.zero_add] at hk
          subst hk
          simp only [byPartsTwice] at h3
          obtain ⟨s, -, h3⟩ := bind_ok.1 h3
          split at h3
          · cases pure_ok.1 h3
          · obtain ⟨k, -, h3⟩ := bind_ok.1 h3
            obtain ⟨f', -, h3⟩ := bind_ok.1 h3
            obtain ⟨r, -, h3⟩ := bind_ok.1 h3
            split at h3
            swap
            · cases h3
            cases pure_ok.1 h3
            refine ⟨goodPlan_filler hp (fun h => by rw [hf] at h; cases h), fun j f h => ?_⟩
            simp only [Option.some.injEq, Prod.mk.injEq] at h
            obtain ⟨rfl, -⟩ := h
            exact ⟨P, hP, hPt⟩

theorem rewriteTrigPlan_good {ν : Supply} {as : List Node} {t : Node} {old : List Expr} {pl : Plan} (h : rewriteTrigPlan O n as t = .ok pl) :
    GoodPlan O n ν old t.expr t.var (isByParts t.tr) pl := by
  unfold rewriteTrigPlan at h
  split_ifs at h
  · cases h; exact goodPlan_empty
  · obtain ⟨gs, h1, h⟩ := bind_ok.1 h
    cases pure_ok.1 h
    refine ⟨.inr rfl, fun k hk => ?_⟩
    simp only [List.mem_map] at hk
    obtain ⟨g, hg, rfl⟩ := hk
    exact ⟨⟨_, rfl, rfl, rfl, gs, h1, hg⟩, fun i => grown_leaf _ _ _ _ _, .inl (raw_leaf _ _ _)⟩
  · cases h; exact goodPlan_empty

theorem inversePlan_good {ν : Supply} {as : List Node} {t : Node} {old : List Expr} {pl : Plan} (h : inversePlan O n (ν.own 4 []) as t = .ok pl) :
    GoodPlan O n ν old t.expr t.var (isByParts t.tr) pl := by
  unfold inversePlan at h
  split_ifs at h
  · cases h; exact goodPlan_empty
  · obtain ⟨k, h1, h⟩ := bind_ok.1 h
    cases k with
    | none => cases pure_ok.1 h; exact goodPlan_empty
    | some k =>
      obtain ⟨q, g⟩ := k
      simp only at h
      obtain ⟨c, h2, h⟩ := bind_ok.1 h
      cases pure_ok.1 h
      unfold inverseNode at h2
      obtain ⟨s, h3, h2⟩ := bind_ok.1 h2
      have h2 := pure_ok.1 h2
      split_ifs at h2
      · subst h2
        obtain ⟨a1, a2, a3, a4, a5, a6, a7⟩ := addChild_shape O (t :: as) (leaf s (ν.own 4 []) .simplify) (leaf g (ν.own 4 []) (.inverseTrigUSub q))
        refine ⟨.inl rfl, fun k hk => ?_⟩
        simp only [List.mem_singleton] at hk
        subst hk
        have hkid : ∀ d ∈ (addChild O (t :: as) (leaf s (ν.own 4 []) .simplify) (leaf g (ν.own 4 []) (.inverseTrigUSub q))).children,
            d = leaf s (ν.own 4 []) .simplify := by
          intro d hd
          rcases a7 with ⟨a7, -⟩ | a7 <;> rw [a7] at hd <;> simpa [leaf, Node.children] using hd
        refine ⟨⟨_, a3, a6, a2, ?_⟩, fun i => .mk ⟨.inl ⟨a5, by rw [a4]; simp [leaf, Node.type]⟩, fun hf => by
          rw [a6] at hf; cases hf⟩ (fun i d hd => ?_) (fun i d hd => ?_), .inl (.mk (fun h => by
            rw [a4] at h; simp [leaf, Node.type] at h) fun d hd => ?_)⟩
        · rw [a1, a2]; exact h1
        · rw [hkid d (List.mem_of_getElem? hd), a1, a2]
          exact ⟨_, rfl, rfl, rfl, h3⟩
        · rw [hkid d (List.mem_of_getElem? hd)]
          exact grown_leaf _ _ _ _ _
        · rw [hkid d hd]; exact raw_leaf _ _ _
      · subst h2
        exact goodPlan_leaf ⟨rfl, rfl, h1⟩

theorem heuristics_good {ν : Supply} {as : List Node} {p : List Nat} {t : Node} {r : R HPlan} {pl : HPlan} (hr : r ∈ heuristics O n ν as p t)
    (h : r = .ok pl) : GoodPlan O n ν (oldsOf (t :: as)) t.expr t.var (isByParts t.tr) pl.plan ∧ GoodScale (t :: as) pl.scale := by
  have nos : pl.scale = none → GoodScale (t :: as) pl.scale := fun hs j f h => by rw [hs] at h; cases h
  have mapped : ∀ {a : R Plan}, (∀ pl, a = .ok pl → GoodPlan O n ν (oldsOf (t :: as)) t.expr t.var (isByParts t.tr) pl) →
      (a.map fun pl => ({ plan := pl } : HPlan)) = .ok pl → GoodPlan O n ν (oldsOf (t :: as)) t.expr t.var (isByParts t.tr) pl.plan ∧
        GoodScale (t :: as) pl.scale := by
    intro a ha h
    cases a with
    | error er => cases h
    | ok pl' => cases h; exact ⟨ha pl' rfl, nos rfl⟩
  have opt : ∀ {α : Type} {f : α → Node} {r : R (Option α)}, (∀ a, r = .ok (some a) →
      GoodPlan O n ν (oldsOf (t :: as)) t.expr t.var (isByParts t.tr) { kids := [f a] }) → planR (r.map (planOpt f)) = .ok pl →
      GoodPlan O n ν (oldsOf (t :: as)) t.expr t.var (isByParts t.tr) pl.plan ∧ GoodScale (t :: as) pl.scale := by
    intro α f r hf h
    obtain ⟨a, b⟩ := goodPlan_opt hf h
    exact ⟨a, nos b⟩
  subst h
  simp only [heuristics, List.mem_cons, List.not_mem_nil, or_false] at hr
  rcases hr with hr | hr | hr | hr | hr | hr | hr | hr | hr
  · exact opt (fun a ha => goodPlan_leaf (tr := .polynomialUSub a.1) ⟨rfl, rfl, ha⟩) hr.symm
  · exact opt (fun a ha => goodPlan_leaf (tr := .productToSum) ⟨rfl, rfl, ha⟩) hr.symm
  · split_ifs at hr
    · cases hr; exact ⟨goodPlan_empty, nos rfl⟩
    · exact opt (fun a ha => goodPlan_leaf (tr := .trigUSub2 a.1) ⟨rfl, rfl, ha⟩) hr.symm
  · exact byPartsPlan_good hr.symm
  · exact mapped (fun pl h => rewriteTrigPlan_good h) hr.symm
  · exact opt (fun a ha => goodPlan_leaf (tr := .rewritePythagorean) ⟨rfl, rfl, ha⟩) hr.symm
  · exact mapped (fun pl h => inversePlan_good h) hr.symm
  · exact opt (fun a ha => goodPlan_leaf (tr := .completeTheSquare) ⟨rfl, rfl, ha⟩) hr.symm
  · exact opt (fun a ha => goodPlan_leaf (tr := .genericUSub a.1) ⟨rfl, rfl, ha⟩) hr.symm

theorem runHeuristics_good {ν : Supply} {as : List Node} {old : List Expr} {l : List Node} : ∀ {hs : List (R HPlan)} {t t' : Node}
    {sc : Option (Nat × Expr)}, (∀ r ∈ hs, ∀ pl, r = .ok pl → GoodPlan O n ν old t.expr t.var (isByParts t.tr) pl.plan ∧ GoodScale l pl.scale) →
    runHeuristics O as hs t = .ok (t', sc) → t'.expr = t.expr ∧ t'.var = t.var ∧ t'.tr = t.tr ∧ (t'.type = t.type ∨ t'.type = .or) ∧
      (t.type = .or → t'.type = .or) ∧
      t'.sol = t.sol ∧ t'.filler = t.filler ∧ GoodScale l sc ∧ ∃ ks : List Node, t'.children = t.children ++ ks ∧
        ∀ k ∈ ks, Made O n ν old t.expr t.var (isByParts t.tr) k ∧ (∀ i, Grown O n (ν.child i) (oldOf k old) k) ∧
          (Raw k ∨ t'.type = .or ∧ k.isSolved = true)
  | [], t, t', sc, _, h => by
    simp only [runHeuristics, Except.ok.injEq, Prod.mk.injEq] at h
    obtain ⟨rfl, rfl⟩ := h
    exact ⟨rfl, rfl, rfl, .inl rfl, id, rfl, rfl, (fun j f h => by cases h), [], by simp, by simp⟩
  | r :: hs, t, t', sc, hg, h => by
    rw [runHeuristics] at h
    obtain ⟨pl, h1, h⟩ := bind_ok.1 h
    obtain ⟨⟨t2, sc2⟩, h2, h⟩ := bind_ok.1 h
    have h := pure_ok.1 h
    simp only [Prod.mk.injEq] at h
    obtain ⟨rfl, rfl⟩ := h
    obtain ⟨⟨p1, p2⟩, p3⟩ := hg r (by simp) pl h1
    obtain ⟨t1, ht1, a1, a2, a3, a4, a5, a6, ks1, a7, a8, -⟩ := apply_shape O as pl.plan t
    rw [ht1] at h2
    obtain ⟨b1, b2, b3, b4, b4', b5, b6, b7, ks2, b8, b9⟩ := runHeuristics_good (l := l) (fun r hr pl h => by
      rw [a1, a2, a3]; exact hg r (by simp [hr]) pl h) h2
    rw [a1, a2, a3] at b9
    have ty1 : t1.type = t.type ∨ t1.type = .or := by
      rcases p1 with p1 | p1 <;> rw [a4, p1] <;> simp
    refine ⟨b1.trans a1, b2.trans a2, b3.trans a3, ?_, fun h => b4' ?_, b5.trans a5, b6.trans a6, ?_, ks1 ++ ks2, by rw [b8, a7, List.append_assoc], fun k hk => ?_⟩
    · rcases b4 with b4 | b4
      · rw [b4]; exact ty1
      · exact .inr b4
    · rcases ty1 with h1 | h1
      · rw [h1, h]
      · exact h1
    · intro j f hj
      cases hs1 : pl.scale with
      | none => rw [hs1] at hj; exact b7 j f hj
      | some s => rw [hs1] at hj; exact p3 j f (by rw [hs1]; exact hj)
    · rcases List.mem_append.1 hk with hk | hk
      · obtain ⟨q1, q2, q3⟩ := p2 k (a8.subset hk)
        refine ⟨q1, q2, ?_⟩
        rcases q3 with q3 | ⟨q3, q4, -⟩
        · exact .inl q3
        · exact .inr ⟨b4' (by rw [a4, q3]; rfl), q4⟩
      · exact b9 k hk

theorem heuristically_grown {ν : Supply} {as : List Node} {p : List Nat} {t t' : Node} {sc : Option (Nat × Expr)}
    (hg : Grown O n ν (oldsOf (t :: as)) t) (ho : Open t) (h : heuristically O n ν as p t = .ok (t', sc)) :
    Grown O n ν (oldsOf (t :: as)) t' ∧ Kept t t' ∧ GoodScale (t :: as) sc := by
  have hty : t.type ≠ .solution := by
    obtain ⟨hc, hf⟩ := ho
    intro h
    cases t
    simp only [Node.type] at h
    subst h
    simp [isFinished, isSolved] at hf
  have hfil : t.filler = false := by
    cases hf : t.filler with
    | false => rfl
    | true => exact absurd ((hg.labelled.2 hf).2 ho.1) hty
  have hsol : t.sol = none := by
    rcases hg.labelled.1 with ⟨a, -⟩ | ⟨a, -⟩
    · exact a
    · exact absurd a hty
  unfold heuristically at h
  obtain ⟨⟨t1, sc1⟩, h1, h⟩ := bind_ok.1 h
  dsimp only at h
  obtain ⟨a1, a2, a3, a4, -, a5, a6, a7, ks, a8, a9⟩ := runHeuristics_good (l := t :: as) (fun r hr pl h => heuristics_good hr h) h1
  rw [show t.children = [] from ho.1, List.nil_append] at a8
  have hkept : ∀ t2 : Node, t2.expr = t1.expr → t2.var = t1.var → t2.tr = t1.tr → t2.filler = t1.filler → Kept t t2 := by
    intro t2 h1 h2 h3 h4
    exact ⟨⟨h1.trans a1, h2.trans a2, h3.trans a3, h4.trans a6, fun h => by rw [hfil] at h; cases h⟩,
      (fun h => by rw [hfil] at h; cases h), (fun h => by rw [hfil] at h; cases h)⟩
  have hty1 : t1.type ≠ .solution := by
    rcases a4 with a4 | a4 <;> rw [a4]
    · exact hty
    · simp
  have lab : ∀ t2 : Node, t2.sol = t1.sol → t2.filler = t1.filler → t2.type ≠ .solution → Labelled O n t2 := by
    intro t2 h1 h2 h3
    refine ⟨.inl ⟨h1.trans (a5.trans hsol), h3⟩, fun hf => ?_⟩
    rw [h2, a6, hfil] at hf; cases hf
  have fin : ∀ (t2 : Node), t2.expr = t1.expr → t2.var = t1.var → t2.tr = t1.tr → t2.filler = t1.filler → t2.sol = t1.sol →
      t2.type ≠ .solution → t2.children = t1.children → ¬t1.isSolved = true → (do
        let cs ← mapIdxR (fun i c => safely O n n (ν.child i) (t2 :: as) c) 0 t2.children
        return (t2.withChildren cs, sc1)) = Except.ok (t', sc) → Grown O n ν (oldsOf (t :: as)) t' ∧ Kept t t' ∧ GoodScale (t :: as) sc := by
    intro t2 e1 e2 e3 e4 e5 e6 e7 hns h
    obtain ⟨cs, h3, h⟩ := bind_ok.1 h
    have h := pure_ok.1 h
    simp only [Prod.mk.injEq] at h
    obtain ⟨rfl, rfl⟩ := h
    obtain ⟨w1, w2, w3, w4, w5, w6, w7⟩ := withChildren_shape cs t2
    obtain ⟨hlen, hget⟩ := mapIdxR_get h3
    have hraw : ∀ k ∈ ks, Raw k := by
      intro k hk
      rcases (a9 k hk).2.2 with h | ⟨h, h'⟩
      · exact h
      · exfalso
        apply hns
        have : k ∈ t1.children := by rw [a8]; exact hk
        cases t1 with
        | mk e v tr ty s f cs1 =>
          simp only [Node.type] at h
          subst h
          simp only [Node.children] at this
          simp only [isSolved, Bool.and_eq_true, Bool.not_eq_true']
          refine ⟨?_, anySolved_iff.2 ⟨k, this, h'⟩⟩
          cases cs1 with
          | nil => simp at this
          | cons _ _ => rfl
    have hk : ∀ (j : Nat) (c' : Node), cs[j]? = some c' → ∃ c, Made O n ν (oldsOf (t :: as)) t.expr t.var (isByParts t.tr) c' ∧
        Grown O n (ν.child j) (oldOf c (oldsOf (t :: as))) c' ∧ SafeKept c c' := by
      intro j c' hc'
      obtain ⟨c, hc, hs⟩ := hget j c' hc'
      rw [Nat.zero_add] at hs
      rw [e7, a8] at hc
      obtain ⟨q1, q2, -⟩ := a9 c (List.mem_of_getElem? hc)
      have hr := hraw c (List.mem_of_getElem? hc)
      obtain ⟨s1, s2⟩ := safely_grown hr (q2 j) hs
      refine ⟨c, q1.safeKept (q2 j).labelled (fun h => ?_) s2, s1, s2⟩
      cases hr with
      | mk q1 _ => exact (q1 h).2
    refine ⟨.mk (lab _ (w5.trans e5) (w6.trans e4) (by rw [w4]; exact e6)) (fun i c hc => ?_) (fun i c hc => ?_),
      hkept _ (w1.trans e1) (w2.trans e2) (w3.trans e3) (w6.trans e4), a7⟩
    · rw [w7] at hc
      obtain ⟨c0, q1, -, -⟩ := hk i c hc
      rw [w1, e1, a1, w2, e2, a2, w3, e3, a3]
      exact q1
    · rw [w7] at hc
      obtain ⟨c0, -, q2, q3⟩ := hk i c hc
      rw [oldOf_kept q3.toKept1]
      exact q2
  have whole : ∀ t2 : Node, t2.expr = t1.expr → t2.var = t1.var → t2.tr = t1.tr → t2.filler = t1.filler → t2.sol = t1.sol →
      t2.type ≠ .solution → t2.children = t1.children → Grown O n ν (oldsOf (t :: as)) t2 := by
    intro t2 e1 e2 e3 e4 e5 e6 e7
    refine .mk (lab _ e5 e4 e6) (fun i c hc => ?_) (fun i c hc => ?_)
    · rw [e7, a8] at hc
      rw [e1, a1, e2, a2, e3, a3]
      exact (a9 c (List.mem_of_getElem? hc)).1
    · rw [e7, a8] at hc
      exact (a9 c (List.mem_of_getElem? hc)).2.1 i
  split_ifs at h with h2 h3 h4
  · have h := pure_ok.1 h
    simp only [Prod.mk.injEq] at h
    obtain ⟨rfl, rfl⟩ := h
    exact ⟨whole _ rfl rfl rfl rfl rfl hty1 rfl, hkept _ rfl rfl rfl rfl, a7⟩
  · have h := pure_ok.1 h
    simp only [Prod.mk.injEq] at h
    obtain ⟨rfl, rfl⟩ := h
    obtain ⟨s1, s2, s3, s4, s5, s6, s7⟩ := setType_shape .failure t1
    exact ⟨whole _ s1 s2 s3 s6 s5 (by rw [s4]; simp) s7, hkept _ s1 s2 s3 s6, a7⟩
  · obtain ⟨s1, s2, s3, s4, s5, s6, s7⟩ := setType_shape .or t1
    exact fin _ s1 s2 s3 s6 s5 (by rw [s4]; simp) s7 h2 h
  · exact fin _ rfl rfl rfl rfl rfl hty1 rfl h2 h

/-! ## Paths -/

/-- The integrands of the integrations by parts on the way to a node. -/
def oldAt : List Nat → Node → List Expr → List Expr
  | [], _, old => old
  | i :: p, t, old => match t.children[i]? with
    | some c => oldAt p c (oldOf c old)
    | none => old

theorem grown_at : ∀ {p : List Nat} {t c : Node} {ν : Supply} {old : List Expr}, Grown O n ν old t → at? p t = some c →
    Grown O n (ν.at p) (oldAt p t old) c
  | [], _, _, _, _, hg, h => by cases h; exact hg
  | i :: p, t, c, ν, old, hg, h => by
    simp only [at?] at h
    obtain ⟨d, hd, h⟩ := Option.bind_eq_some_iff.1 h
    have := grown_at (hg.kid hd) h
    simpa [Supply.at, oldAt, hd] using this

theorem oldAt_lineage : ∀ {p : List Nat} {t l : Node} {as bs : List Node}, lineage as p t = some (l, bs) →
    oldAt p t (oldsOf (t :: as)) = oldsOf (l :: bs)
  | [], _, _, _, _, h => by cases h; rfl
  | i :: p, t, l, as, bs, h => by
    simp only [lineage] at h
    obtain ⟨d, hd, h⟩ := Option.bind_eq_some_iff.1 h
    have := oldAt_lineage h
    rw [← this, oldAt, hd]
    simp only
    congr 1
    cases hb : isByParts d.tr <;> simp [oldOf, oldsOf, hb]

theorem replaceAt_grown : ∀ {p : List Nat} {t c c' : Node} {ν : Supply} {old : List Expr}, Grown O n ν old t → at? p t = some c →
    Grown O n (ν.at p) (oldAt p t old) c' → Kept c c' → Grown O n ν old (replaceAt c' p t) ∧ Kept t (replaceAt c' p t)
  | [], _, _, _, _, _, _, h, hg, hk => by cases h; exact ⟨hg, hk⟩
  | i :: p, mk e v tr ty s f cs, c, c', ν, old, hg, h, hg', hk => by
    simp only [at?, Node.children] at h
    obtain ⟨d, hd, h⟩ := Option.bind_eq_some_iff.1 h
    have hlt := (List.getElem?_eq_some_iff.1 hd).1
    have hd' : (mk e v tr ty s f cs).children[i]? = some d := hd
    simp only [Supply.at, oldAt, hd'] at hg'
    obtain ⟨g1, k1⟩ := replaceAt_grown (hg.kid hd') h hg' hk
    simp only [replaceAt, hd]
    have hget : ∀ (j : Nat) (b : Node), (cs.set i (replaceAt c' p d))[j]? = some b → j = i ∧ b = replaceAt c' p d ∨ j ≠ i ∧ cs[j]? = some b := by
      intro j b hb
      rw [List.getElem?_set] at hb
      split_ifs at hb with h1
      · cases hb
        exact .inl ⟨h1.symm, rfl⟩
      · exact .inr ⟨fun h => h1 h.symm, hb⟩
    refine ⟨.mk ⟨hg.labelled.1, fun hf => ⟨(hg.labelled.2 hf).1, fun h => (hg.labelled.2 hf).2 ?_⟩⟩ (fun j b hb => ?_) (fun j b hb => ?_),
      ⟨rfl, rfl, rfl, rfl, fun _ => rfl⟩, fun _ _ => rfl, fun _ => ?_⟩
    · simp only [Node.children, List.set_eq_nil_iff] at h
      exact h
    · rcases hget j b hb with ⟨rfl, rfl⟩ | ⟨-, hb⟩
      · exact (hg.made hd').kept k1
      · exact hg.made hb
    · rcases hget j b hb with ⟨rfl, rfl⟩ | ⟨-, hb⟩
      · rw [oldOf_kept k1.toKept1]; exact g1
      · exact hg.kid hb
    · refine forall₂_of_get (by simp [Node.children]) fun j b hb => ?_
      rcases hget j b hb with ⟨rfl, rfl⟩ | ⟨-, hb⟩
      · exact ⟨d, hd, k1.toKept1⟩
      · exact ⟨b, hb, .refl b⟩

theorem made_at : ∀ {p : List Nat} {i : Nat} {t c : Node} {ν : Supply} {old : List Expr}, Grown O n ν old t → at? (p ++ [i]) t = some c →
    ∃ N : Node, at? p t = some N ∧ N.children[i]? = some c ∧
      Made O n (ν.at p) (oldAt p t old) N.expr N.var (isByParts N.tr) c := by
  intro p i t c ν old hg h
  rw [at_append] at h
  obtain ⟨N, hN, h⟩ := Option.bind_eq_some_iff.1 h
  simp only [at?] at h
  obtain ⟨d, hd, h⟩ := Option.bind_eq_some_iff.1 h
  cases h
  exact ⟨N, hN, hd, (grown_at hg hN).made hd⟩

/-- The first child of a filler node of ByParts. -/
theorem first_child {p : List Nat} {t P c : Node} {ν : Supply} {old : List Expr} (hg : Grown O n ν old t) (hr : t.tr = none)
    (hP : at? p t = some P) (hPt : P.tr = some .byParts) (hc : P.children[0]? = some c) : c.filler = true ∧ c.type = .solution ∧
      c.tr = some .additivity := by
  rcases List.eq_nil_or_concat p with rfl | ⟨q, i, rfl⟩
  · cases hP
    rw [hr] at hPt; cases hPt
  · rw [List.concat_eq_append] at hP
    obtain ⟨N, -, -, tr, htr, hm⟩ := made_at hg hP
    rw [hPt] at htr
    cases htr
    obtain ⟨-, -, -, a, g, f, -, hf⟩ := hm
    rcases hf with ⟨-, h, -⟩ | ⟨-, -, -, b, rest, h, -, -, h7, h8, h9, -⟩
    · rw [h] at hc; simp at hc
    · rw [h] at hc
      simp only [List.getElem?_cons_zero, Option.some.injEq] at hc
      subst hc
      exact ⟨h8, h9, h7⟩

theorem lineage_get : ∀ {p : List Nat} {as bs : List Node} {t l : Node}, lineage as p t = some (l, bs) →
    (l :: bs).length = p.length + (t :: as).length ∧
    (∀ i P, (l :: bs)[i]? = some P → i ≤ p.length → at? (p.take (p.length - i)) t = some P) ∧
    ∀ i, (l :: bs)[p.length + i]? = (t :: as)[i]?
  | [], as, bs, t, l, h => by
    cases h
    refine ⟨by simp, fun i P h hi => ?_, fun i => by simp⟩
    obtain rfl : i = 0 := by simpa using hi
    simpa [at?] using h
  | j :: p, as, bs, t, l, h => by
    simp only [lineage] at h
    obtain ⟨d, hd, h⟩ := Option.bind_eq_some_iff.1 h
    obtain ⟨h1, h2, h3⟩ := lineage_get h
    refine ⟨by simp only [List.length_cons] at h1 ⊢; omega, fun i P hP hi => ?_, fun i => ?_⟩
    · simp only [List.length_cons] at hi ⊢
      by_cases hi' : i ≤ p.length
      · rw [show p.length + 1 - i = (p.length - i) + 1 by omega, List.take_succ_cons, at?, hd]
        exact h2 i P hP hi'
      · obtain rfl : i = p.length + 1 := by omega
        have := h3 1
        rw [hP] at this
        simp only [List.getElem?_cons_succ, List.getElem?_cons_zero, Option.some.injEq] at this
        subst this
        simp [at?]
    · have := h3 (i + 1)
      rw [List.length_cons, show p.length + 1 + i = p.length + (i + 1) by omega, this, List.getElem?_cons_succ]

theorem at_replaceAt_prefix : ∀ {q r : List Nat} {t P c c' : Node}, at? q t = some P → at? (q ++ r) t = some c → c'.tr = c.tr →
    ∃ P', at? q (replaceAt c' (q ++ r) t) = some P' ∧ P'.tr = P.tr
  | [], r, t, P, c, c', hP, hc, htr => by
    cases hP
    refine ⟨_, rfl, ?_⟩
    cases r with
    | nil => cases hc; exact htr
    | cons i r =>
      cases t
      simp only [List.nil_append, replaceAt]
      split <;> rfl
  | i :: q, r, mk e v tr ty s f cs, P, c, c', hP, hc, htr => by
    simp only [at?, Node.children] at hP
    obtain ⟨d, hd, hP⟩ := Option.bind_eq_some_iff.1 hP
    simp only [List.cons_append, at?, Node.children, hd, Option.bind_some] at hc
    obtain ⟨P', h1, h2⟩ := at_replaceAt_prefix hP hc htr
    refine ⟨P', ?_, h2⟩
    simp only [List.cons_append, replaceAt, hd, at?, Node.children]
    rw [List.getElem?_set_self (List.getElem?_eq_some_iff.1 hd).1]
    exact h1

/-! ## Cycles -/

theorem rescale_grown {ν : Supply} {old : List Expr} {p : List Nat} {sc : Option (Nat × Expr)} {t t' : Node} (hg : Grown O n ν old t)
    (hr : t.tr = none) (hs : ∀ j f, sc = some (j, f) → ∃ P, at? (p.take (p.length - j)) t = some P ∧ P.tr = some .byParts)
    (h : rescale O n p sc t = .ok t') : Grown O n ν old t' ∧ Kept t t' := by
  unfold rescale at h
  split at h
  · cases h; exact ⟨hg, .refl _⟩
  · next j f =>
    obtain ⟨P, hP, hPt⟩ := hs j f rfl
    split at h
    · cases h
    · next a ha =>
      split at h
      · cases h
      · next s hsol =>
        obtain ⟨r, -, h⟩ := bind_ok.1 h
        cases pure_ok.1 h
        have ha' := ha
        rw [at_append, hP] at ha'
        simp only [Option.bind_some, at?] at ha'
        obtain ⟨d, hd, ha'⟩ := Option.bind_eq_some_iff.1 ha'
        cases ha'
        obtain ⟨f1, f2, f3⟩ := first_child hg hr hP hPt hd
        have hga := grown_at hg ha
        refine replaceAt_grown hg ha ?_ ?_
        · obtain ⟨hl, hm, hk⟩ := hga
          cases a with
          | mk e v tr ty s f cs =>
            refine .mk ⟨.inr ⟨f2, r, rfl, fun h => ?_⟩, hl.2⟩ hm hk
            simp only [Node.filler] at f1
            simp only [setTypeSol, Node.filler, f1] at h
            cases h
        · cases a with
          | mk e v tr ty s f cs =>
            simp only [Node.tr] at f3
            exact ⟨⟨rfl, rfl, rfl, rfl, fun _ => rfl⟩, (fun _ h => by simp only [Node.tr] at h; rw [f3] at h; cases h), fun _ => forall₂_refl .refl _⟩

theorem cycle_grown {ν : Supply} {bf : Bool} {t t' : Node} {p : List Nat} {nx : Next} (hg : Grown O n ν [] t) (hr : t.tr = none)
    (h : cycle O n ν bf t p = .ok (t', nx)) : Grown O n ν [] t' ∧ Kept t t' := by
  unfold cycle at h
  split at h
  · cases h
  next t0 ht0 =>
  obtain ⟨t1, h1, h⟩ := bind_ok.1 h
  dsimp only at h
  obtain ⟨g1, k1⟩ := tableAll_grown (grown_at hg ht0) h1
  obtain ⟨g2, k2⟩ := replaceAt_grown hg ht0 g1 k1
  split at h
  · have h := pure_ok.1 h
    simp only [Prod.mk.injEq] at h
    obtain ⟨rfl, -⟩ := h
    exact ⟨g2, k2⟩
  next q _ hq =>
  split at h
  · cases h
  next l as hl =>
  obtain ⟨⟨l', sc⟩, h3, h⟩ := bind_ok.1 h
  obtain ⟨root2, h4, h⟩ := bind_ok.1 h
  obtain ⟨nx', -, h⟩ := bind_ok.1 h
  have h := pure_ok.1 h
  simp only [Prod.mk.injEq] at h
  obtain ⟨rfl, -⟩ := h
  have hr2 : (replaceAt t1 p t).tr = none := k2.tr.trans hr
  have hat := lineage_at hl
  have hopen : Open l := by
    have := (mem_unfinishedPaths t1 q).1 (by rw [hq]; simp)
    rw [at_append, at_replaceAt _ ht0, Option.bind_some, this.1] at hat
    cases hat
    exact this.2
  have hgl := grown_at g2 hat
  have hold := oldAt_lineage hl
  have hnil : oldsOf [replaceAt t1 p t] = [] := by
    simp [oldsOf, List.filter, hr2, isByParts]
  rw [hnil] at hold
  rw [hold] at hgl
  obtain ⟨g3, k3, s3⟩ := heuristically_grown hgl hopen h3
  rw [← hold] at g3
  obtain ⟨g4, k4⟩ := replaceAt_grown g2 hat g3 k3
  have hr4 := k4.tr.trans hr2
  obtain ⟨g5, k5⟩ := rescale_grown g4 hr4 (fun j f hj => by
    obtain ⟨P, hP, hPt⟩ := s3 j f hj
    obtain ⟨l1, l2, -⟩ := lineage_get hl
    have hj' : j ≤ (p ++ q.1).length := by
      have := (List.getElem?_eq_some_iff.1 hP).1
      rw [l1] at this
      simp only [List.length_cons, List.length_nil] at this
      omega
    have hat' := l2 j P hP hj'
    have hsplit := List.take_append_drop ((p ++ q.1).length - j) (p ++ q.1)
    obtain ⟨P', h5, h6⟩ := at_replaceAt_prefix (c' := l') hat' (by rw [hsplit]; exact hat) k3.tr
    rw [hsplit] at h5
    exact ⟨P', h5, h6.trans hPt⟩) h4
  refine ⟨g5, ?_⟩
  refine ⟨⟨?_, ?_, ?_, ?_, ?_⟩, ?_, ?_⟩
  · exact k5.expr.trans (k4.expr.trans k2.expr)
  · exact k5.var.trans (k4.var.trans k2.var)
  · exact k5.tr.trans (k4.tr.trans k2.tr)
  · exact k5.filler.trans (k4.filler.trans k2.filler)
  · intro hf
    rw [k5.type (by rw [k4.filler, k2.filler]; exact hf), k4.type (by rw [k2.filler]; exact hf), k2.type hf]
  · intro hf htr
    rw [hr] at htr; cases htr
  · intro hf
    have c1 := k2.kids hf
    have c2 := k4.kids (by rw [k2.filler]; exact hf)
    have c3 := k5.kids (by rw [k4.filler, k2.filler]; exact hf)
    have tr : ∀ {a b c : Node}, Kept1 a b → Kept1 b c → Kept1 a c := fun h1 h2 =>
      ⟨h2.expr.trans h1.expr, h2.var.trans h1.var, h2.tr.trans h1.tr, h2.filler.trans h1.filler, fun h => by
        rw [h2.type (by rw [h1.filler]; exact h), h1.type h]⟩
    have trl : ∀ {l1 l2 l3 : List Node}, List.Forall₂ Kept1 l1 l2 → List.Forall₂ Kept1 l2 l3 → List.Forall₂ Kept1 l1 l3 := by
      intro l1 l2 l3 h
      induction h generalizing l3 with
      | nil => intro h; cases h; exact .nil
      | cons h _ ih => intro h'; cases h' with | cons h2 h3 => exact .cons (tr h h2) (ih h3)
    exact trl (trl c1 c2) c3

theorem searchLoop_grown {ν : Supply} {bf : Bool} : ∀ {k : Nat} {t T : Node} {p : List Nat}, Grown O n ν [] t → t.tr = none →
    searchLoop O n ν bf k t p = .ok T → Grown O n ν [] T ∧ T.tr = none ∧ T.expr = t.expr ∧ T.var = t.var ∧ T.filler = t.filler
  | 0, t, T, p, hg, hr, h => by
    rw [searchLoop.eq_def] at h
    simp only at h
    obtain ⟨⟨t', nx⟩, h1, h⟩ := bind_ok.1 h
    cases pure_ok.1 h
    obtain ⟨a, b⟩ := cycle_grown hg hr h1
    exact ⟨a, b.tr.trans hr, b.expr, b.var, b.filler⟩
  | k + 1, t, T, p, hg, hr, h => by
    rw [searchLoop] at h
    obtain ⟨⟨t', nx⟩, h1, h⟩ := bind_ok.1 h
    obtain ⟨a, b⟩ := cycle_grown hg hr h1
    have step : ∀ q, searchLoop O n ν bf k t' q = .ok T → Grown O n ν [] T ∧ T.tr = none ∧ T.expr = t.expr ∧ T.var = t.var ∧ T.filler = t.filler := by
      intro q h
      obtain ⟨c1, c2, c3, c4, c5⟩ := searchLoop_grown a (b.tr.trans hr) h
      exact ⟨c1, c2, c3.trans b.expr, c4.trans b.var, c5.trans b.filler⟩
    dsimp only at h
    split_ifs at h
    · cases pure_ok.1 h
      exact ⟨a, b.tr.trans hr, b.expr, b.var, b.filler⟩
    · cases nx with
      | none => cases h
      | node q => exact step q h
      | solved =>
        simp only at h
        obtain ⟨nx, -, h⟩ := bind_ok.1 h
        cases nx with
        | none => cases h
        | solved => cases h
        | node q => exact step q h

theorem raw_root (e : Expr) (v : Str) : Raw (mk e v none .unset none false []) :=
  .mk (fun h => by simp [Node.type] at h) (fun c h => by simp [Node.children] at h)

theorem grown_root (ν : Supply) (old : List Expr) (e : Expr) (v : Str) : Grown O n ν old (mk e v none .unset none false []) :=
  .mk ⟨.inl ⟨rfl, by simp [Node.type]⟩, fun h => by simp [Node.filler] at h⟩ (fun i c h => by simp [Node.children] at h)
    (fun i c h => by simp [Node.children] at h)

theorem search_grown {ν : Supply} {bf : Bool} {k : Nat} {v : Str} {e : Expr} {T : Node} (h : search O n ν bf k v e = .ok T) :
    ∃ s, simplifyE O n e = .ok s ∧ Grown O n ν [] T ∧ T.tr = none ∧ T.expr = s ∧ T.var = v := by
  unfold search startTree at h
  obtain ⟨t, h1, h⟩ := bind_ok.1 h
  obtain ⟨s, h2, h1⟩ := bind_ok.1 h1
  obtain ⟨a, b⟩ := safely_grown (raw_root s v) (grown_root ν [] s v) h1
  obtain ⟨c1, c2, c3, c4, -⟩ := searchLoop_grown a b.tr h
  exact ⟨s, h2, c1, c2, c3.trans b.expr, c4.trans b.var⟩

theorem search_filler {ν : Supply} {bf : Bool} {k : Nat} {v : Str} {e : Expr} {T : Node} (h : search O n ν bf k v e = .ok T) :
    T.filler = false := by
  unfold search startTree at h
  obtain ⟨t, h1, h⟩ := bind_ok.1 h
  obtain ⟨s, h2, h1⟩ := bind_ok.1 h1
  obtain ⟨a, b⟩ := safely_grown (raw_root s v) (grown_root ν [] s v) h1
  exact (searchLoop_grown a b.tr h).2.2.2.2.trans b.filler

end Node
end Simpy
