import Verif.Proofs.ScopeTree

/-! Which symbols occur in the tree and in the answer of a search. -/

namespace Simpy
open Expr
namespace Node

variable {O : Oracle} {n : Nat} {A : Str → Prop} {ν : Supply} {v : Str} {e : Expr} {t t' c c' : Node}

/-! ## Without heuristics -/

/-- No filler nodes of ByParts. -/
inductive NoParts : Node → Prop
  | mk {t : Node} : isByParts t.tr = false → (∀ c ∈ t.children, NoParts c) → NoParts t

theorem NoParts.at : ∀ {p : List Nat} {t N : Node}, NoParts t → at? p t = some N → NoParts N
  | [], _, _, h, hN => by cases hN; exact h
  | i :: p, t, N, h, hN => by
    simp only [at?] at hN
    obtain ⟨d, hd, hN⟩ := Option.bind_eq_some_iff.1 hN
    cases h with
    | mk _ h => exact NoParts.at (h d (List.mem_of_getElem? hd)) hN

theorem NoParts.apart (h : NoParts t) : PartsApart t := fun p N c hN hb _ => by
  cases h.at hN with
  | mk h _ => rw [h] at hb; cases hb

theorem safely_noParts : ∀ {k : Nat} {ν : Supply} {as : List Node} {t t' : Node}, NoParts t → safely O n k ν as t = .ok t' → NoParts t'
  | 0, _, _, _, _, _, h => by cases h
  | k + 1, ν, as, t, t', hg, h => by
    rw [safely] at h
    obtain ⟨pl, h1, h⟩ := bind_ok.1 h
    dsimp only at h
    obtain ⟨cs, h3, h⟩ := bind_ok.1 h
    cases pure_ok.1 h
    obtain ⟨t1, ht1, a1, a2, a3, a4, a5, a6, ks, a7, a8, -⟩ := apply_shape O as (pl.getD {}) t
    rw [ht1] at h3 ⊢
    obtain ⟨hb, hk⟩ := hg
    have hks : ∀ c ∈ t1.children, NoParts c := by
      intro c hc
      rw [a7] at hc
      rcases List.mem_append.1 hc with hc | hc
      · exact hk c hc
      · have hc := a8.subset hc
        have done : ∀ {e : Expr} {v : Str} {tr : Transf}, isByParts (some tr) = false → NoParts (leaf e v tr) := fun h =>
          .mk h (fun c h => by simp [leaf, Node.children] at h)
        cases pl with
        | none => simp at hc
        | some pl =>
          rcases safePlan_cases h1 with ⟨ts, h1, rfl⟩ | ⟨c, g, h1, rfl⟩ | ⟨g, h1, rfl⟩ | ⟨g, h1, rfl⟩ | ⟨g, h1, rfl⟩ | ⟨q, g, h1, rfl⟩
          · simp only [Option.getD_some, List.mem_map] at hc
            obtain ⟨e, -, rfl⟩ := hc
            exact done rfl
          all_goals
            simp only [Option.getD_some, List.mem_singleton] at hc
            subst hc
            exact done rfl
    obtain ⟨w1, w2, w3, w4, w5, w6, w7⟩ := withChildren_shape cs t1
    refine .mk (by rw [w3, a3]; exact hb) (fun c' hc' => ?_)
    rw [w7] at hc'
    obtain ⟨i, hi⟩ := List.mem_iff_getElem?.1 hc'
    obtain ⟨c, hc, hsafe⟩ := (mapIdxR_get h3).2 i c' hi
    exact safely_noParts (hks c (List.mem_of_getElem? hc)) hsafe

theorem tableAll_noParts {fail : Bool} : ∀ {t t' : Node}, NoParts t → tableAll O n fail t = .ok t' → NoParts t'
  | mk e v tr ty s f [], t', hg, h => by
    have lf : ∀ {ty' : NType} {s' : Option Expr}, NoParts (mk e v tr ty' s' f []) := by
      intro ty' s'
      cases hg with
      | mk h1 _ => exact .mk h1 (fun c h => by simp [Node.children] at h)
    have core : (match checkTable O n v e with
        | .error er => .error er
        | .ok (some r) => .ok (mk e v tr .solution (some r) f [])
        | .ok none => .ok (mk e v tr (if fail then .failure else ty) s f []) : R Node) = .ok t' → NoParts t' := by
      clear h
      intro h
      split at h
      · cases h
      · cases h; exact lf
      · cases h; exact lf
    cases ty with
    | solution => simp only [tableAll] at h; cases h; exact hg
    | failure => simp only [tableAll] at h; cases h; exact hg
    | and => simp only [tableAll] at h; exact core h
    | or => simp only [tableAll] at h; exact core h
    | unset => simp only [tableAll] at h; exact core h
  | mk e v tr ty s f (c :: cs), t', hg, h => by
    rw [tableAll] at h
    split at h
    · cases h
    · next cs' h1 =>
      cases h
      cases hg with
      | mk g1 g2 =>
      refine .mk g1 (fun c' hc' => ?_)
      obtain ⟨i, hi⟩ := List.mem_iff_getElem?.1 hc'
      obtain ⟨d, hd, h2⟩ := tableAllL_get h1 i c' hi
      have : d ∈ c :: cs := List.mem_of_getElem? hd
      exact tableAll_noParts (g2 d this) h2
termination_by t => sizeOf t
decreasing_by
  have := List.sizeOf_lt_of_mem this
  simp only [Node.mk.sizeOf_spec, gt_iff_lt]
  omega

theorem withoutHeuristics_in {S : Expr} (hf : Fresh A ν) (hv : A v) (he : In A e) (h : withoutHeuristics O n ν v e = .ok (some S)) :
    In A S := by
  unfold withoutHeuristics at h
  obtain ⟨t, h1, h⟩ := bind_ok.1 h
  obtain ⟨t', h2, h⟩ := bind_ok.1 h
  split at h
  · cases pure_ok.1 h
  · obtain ⟨⟨S', l⟩, h3, h⟩ := bind_ok.1 h
    cases pure_ok.1 h
    obtain ⟨s1, -, -⟩ := safely_sc (calm_leaf _ _ _ _ _ _) (sc_leaf hf hv he (fun S h => by cases h) (fun k h => by cases h)) h1
    obtain ⟨s2, -, -⟩ := tableAll_sc s1 h2
    exact goBackwards_sc s2 (tableAll_noParts (safely_noParts (.mk rfl (fun c h => by simp [Node.children] at h)) h1) h2).apart h3

/-! ## Heuristics -/

theorem in_child {d : Expr} (he : In A e) (h : d ∈ Expr.children e) : In A d := by
  intro s hs
  apply he
  cases e <;> simp only [Expr.children, List.mem_cons, List.not_mem_nil, or_false] at h
  case sum ts => simp only [syms]; exact symsL_mem.2 ⟨d, h, hs⟩
  case prod ts => simp only [syms]; exact symsL_mem.2 ⟨d, h, hs⟩
  all_goals
    simp only [syms]
    first
    | (rcases h with rfl | rfl <;> simp [hs])
    | (subst h; exact hs)


/-- What a heuristic may do. -/
def ScPlan (ν : Supply) (A : Str → Prop) (pl : Plan) : Prop :=
  ∀ k ∈ pl.kids, Edge A k ∧ (∀ i, Sc (ν.child i) (scopeOf A k) k) ∧ Calm k ∧ k.tr ≠ some .additivity

theorem scPlan_empty : ScPlan ν A {} := fun k hk => by simp at hk

theorem scPlan_leaf {e' : Expr} {v' : Str} {tr : Transf} (hf : Fresh A ν) (hv : A v) (he : In A e)
    (h : MadeBy O n ν [] e v false (leaf e' v' tr) tr) (ht : tr ≠ .additivity) : ScPlan ν A { kids := [leaf e' v' tr] } := by
  intro k hk
  simp only [List.mem_singleton] at hk
  subst hk
  obtain ⟨b1, b2, b3, b4, b5⟩ := madeBy_scope h rfl hf hv he
  exact ⟨b1, fun i => sc_leaf (b4 i) b2 b3 (fun S h => by cases h) b5, calm_leaf _ _ _ _ _ _, fun h => ht (Option.some.inj h)⟩

theorem scPlan_opt {α : Type} {f : α → Node} {r : R (Option α)} {pl : HPlan}
    (hf : ∀ a, r = .ok (some a) → ScPlan ν A { kids := [f a] }) (h : planR (r.map (planOpt f)) = .ok pl) :
    ScPlan ν A pl.plan ∧ pl.scale = none := by
  cases r with
  | error er => cases h
  | ok o =>
    cases o with
    | none => cases h; exact ⟨scPlan_empty, rfl⟩
    | some a => cases h; exact ⟨hf a rfl, rfl⟩

theorem edge_plain {tr : Transf} (h : c.tr = some tr) (hu : usubOf tr = none) : Edge A c ∧ scopeOf A c = A := by
  refine ⟨fun q hq => ?_, by simp [scopeOf, isUSub, h, hu]⟩
  rw [h] at hq; simp [hu] at hq

theorem scPlan_filler {r : Expr} {ty : Option NType} (hf : Fresh A ν) (hv : A t.var) (he : In A t.expr) (hr : In A r) :
    ScPlan ν A { ty := ty, kids := [solvedFiller t r] } := by
  intro k hk
  simp only [List.mem_singleton] at hk
  subst hk
  obtain ⟨h1, h2⟩ := edge_plain (A := A) (c := solvedFiller t r) (tr := .byParts) rfl rfl
  rw [h2]
  exact ⟨h1, fun i => sc_leaf (hf.child i) hv he (fun S h => by cases h; exact hr) (fun k h => by cases h), calm_leaf _ _ _ _ _ _,
    by simp [solvedFiller, Node.tr]⟩

theorem scPlan_funky {as : List Node} {a g : Expr} (hf : Fresh A ν) (hv : A t.var) (he : In A t.expr) (ha : In A a) (hg : In A g) :
    ScPlan ν A { kids := [funky O as t a g] } := by
  intro k hk
  simp only [List.mem_singleton] at hk
  subst hk
  obtain ⟨rest, hrest, h⟩ := funky_shape O as t a g
  rw [h]
  obtain ⟨h1, h2⟩ := edge_plain (A := A) (c := mk t.expr t.var (some .byParts) .and none true
    (mk t.expr t.var (some .additivity) .solution (some a) true [] :: rest)) (tr := .byParts) rfl rfl
  rw [h2]
  have hd : ∀ d ∈ (mk t.expr t.var (some .additivity) .solution (some a) true [] :: rest), d.tr = some .additivity ∧ Calm d ∧
      ∀ (ν : Supply), Fresh A ν → Sc ν A d := by
    intro d hd
    rcases List.mem_cons.1 hd with rfl | hd
    · exact ⟨rfl, calm_leaf _ _ _ _ _ _, fun ν hf => sc_leaf hf hv he (fun S h => by cases h; exact ha) (fun k h => by cases h)⟩
    · rcases hrest with rfl | rfl
      · simp at hd
      · simp only [List.mem_singleton] at hd
        subst hd
        exact ⟨rfl, calm_leaf _ _ _ _ _ _, fun ν hf => sc_leaf hf hv hg (fun S h => by cases h) (fun k h => by cases h)⟩
  refine ⟨h1, fun i => .mk (hf.child i) hv he (fun S h => by cases h) (fun k h => by cases h) (fun h => by cases h) (fun j d hj => ?_)
    (fun j d hj => ?_), .mk (fun h => by cases h) (fun d hj => (hd d hj).2.1), by simp [Node.tr]⟩
  · exact (edge_plain (hd d (List.mem_of_getElem? hj)).1 rfl).1
  · rw [(edge_plain (A := A) (hd d (List.mem_of_getElem? hj)).1 rfl).2]
    exact (hd d (List.mem_of_getElem? hj)).2.2 _ ((hf.child i).child j)

/-- The factor by which a plan divides is in scope. -/
def ScScale (A : Str → Prop) (sc : Option (Nat × Expr)) : Prop := ∀ j f, sc = some (j, f) → In A f

theorem byPartsPlan_sc {as : List Node} {p : List Nat} {pl : HPlan} (hf : Fresh A ν) (hv : A t.var) (he : In A t.expr)
    (hk : ∀ k, t.tr = some (.pullConstant k) → In A k) (hP : ∀ j P, lastByParts 0 (t :: as) = some (j, P) → In A P.expr)
    (h : byPartsPlan O n (ν.own 3) as p t = .ok pl) : ScPlan ν A pl.plan ∧ ScScale A pl.scale ∧
      ∀ j f, pl.scale = some (j, f) → ∃ P, lastByParts 0 (t :: as) = some (j, P) := by
  have nos : ScScale A none := fun j f h => by cases h
  unfold byPartsPlan at h
  dsimp only at h
  obtain ⟨k, h1, h⟩ := bind_ok.1 h
  cases k with
  | none => cases pure_ok.1 h; exact ⟨scPlan_empty, nos, fun j f h => by cases h⟩
  | some k =>
    obtain ⟨u, du, w⟩ := k
    simp only at h
    obtain ⟨⟨c, g, f⟩, h2, h⟩ := bind_ok.1 h
    have hin : ∀ dv w, dv ∈ Expr.children t.expr → withoutHeuristics O n (ν.own 3) t.var dv = .ok (some w) → In A w := by
      intro dv w hdv hw
      exact withoutHeuristics_in (hf.own 3) hv (in_child he hdv) hw
    obtain ⟨i1, i2, i3⟩ := byPartsCheck_in hv he hin h1
    obtain ⟨j1, j2, j3⟩ := byPartsParts_in he i1 i2 i3 h2
    dsimp only at h
    cases hfc : f.contains t.var with
    | false =>
      simp only [hfc, Bool.not_false, if_true] at h
      obtain ⟨r, h3, h⟩ := bind_ok.1 h
      cases pure_ok.1 h
      exact ⟨scPlan_filler hf hv he (byPartsSolution_in j1 j3 h3), nos, fun j f h => by cases h⟩
    | true =>
      simp only [hfc, Bool.not_true, Bool.false_eq_true, if_false] at h
      obtain ⟨o, h3, h⟩ := bind_ok.1 h
      cases o with
      | none =>
        cases pure_ok.1 h
        exact ⟨scPlan_funky hf hv he j1 j2, nos, fun j f h => by cases h⟩
      | some pl' =>
        cases pure_ok.1 h
        cases hl : lastByParts 0 (t :: as) with
        | none => rw [hl] at h3; simp [byPartsTwice] at h3
        | some jP =>
          obtain ⟨j, P⟩ := jP
          rw [hl] at h3
          have hPe := hP j P hl
          simp only [byPartsTwice] at h3
          obtain ⟨s, h4, h3⟩ := bind_ok.1 h3
          split at h3
          · cases pure_ok.1 h3
          · obtain ⟨k, h5, h3⟩ := bind_ok.1 h3
            obtain ⟨f', h6, h3⟩ := bind_ok.1 h3
            obtain ⟨r, h7, h3⟩ := bind_ok.1 h3
            split at h3
            swap
            · cases h3
            cases pure_ok.1 h3
            have hk' : In A k := by
              unfold firstFactor at h5
              split at h5
              · cases h5
              · split at h5
                · cases h5; exact in_rat 1
                · split at h5
                  · next c' hc' =>
                    split at h5
                    · cases h5
                      exact hk _ hc'
                    · cases h5
                  · cases h5
            have hf' : In A f' := in_mul hk' (in_div j2 hPe h4) h6
            refine ⟨scPlan_filler hf hv he (byPartsSolution_in j1 hf' h7), fun j f h => ?_, fun j f h => ?_⟩
            · simp only [Option.some.injEq, Prod.mk.injEq] at h
              obtain ⟨-, rfl⟩ := h
              exact hf'
            · simp only [Option.some.injEq, Prod.mk.injEq] at h
              obtain ⟨rfl, -⟩ := h
              exact ⟨P, rfl⟩

theorem rewriteTrigPlan_sc {as : List Node} {pl : Plan} (hf : Fresh A ν) (hv : A t.var) (he : In A t.expr)
    (h : rewriteTrigPlan O n as t = .ok pl) : ScPlan ν A pl := by
  unfold rewriteTrigPlan at h
  split_ifs at h
  · cases h; exact scPlan_empty
  · obtain ⟨gs, h1, h⟩ := bind_ok.1 h
    cases pure_ok.1 h
    intro k hk
    simp only [List.mem_map] at hk
    obtain ⟨g, hg, rfl⟩ := hk
    exact scPlan_leaf (O := O) (n := n) (e := t.expr) (v := t.var) (e' := g) (v' := t.var) (tr := .rewriteTrig) hf hv he ⟨rfl, rfl, gs, h1, hg⟩ (by simp) _ (by simp)
  · cases h; exact scPlan_empty

theorem inversePlan_sc {as : List Node} {pl : Plan} (hf : Fresh A ν) (hv : A t.var) (he : In A t.expr)
    (h : inversePlan O n (ν.own 4 []) as t = .ok pl) : ScPlan ν A pl := by
  unfold inversePlan at h
  split_ifs at h
  · cases h; exact scPlan_empty
  · obtain ⟨k, h1, h⟩ := bind_ok.1 h
    cases k with
    | none => cases pure_ok.1 h; exact scPlan_empty
    | some k =>
      obtain ⟨q, g⟩ := k
      simp only at h
      obtain ⟨c, h2, h⟩ := bind_ok.1 h
      cases pure_ok.1 h
      unfold inverseNode at h2
      obtain ⟨s, h3, h2⟩ := bind_ok.1 h2
      have h2 := pure_ok.1 h2
      have hl := scPlan_leaf (O := O) (n := n) (e := t.expr) (v := t.var) (e' := g) (v' := ν.own 4 []) (tr := .inverseTrigUSub q)
        hf hv he ⟨rfl, rfl, h1⟩ (by simp)
      split_ifs at h2
      · subst h2
        obtain ⟨a1, a2, a3, a4, a5, a6, a7⟩ := addChild_shape O (t :: as) (leaf s (ν.own 4 []) .simplify) (leaf g (ν.own 4 []) (.inverseTrigUSub q))
        intro k hk
        simp only [List.mem_singleton] at hk
        subst hk
        obtain ⟨l1, l2, -, -⟩ := hl (leaf g (ν.own 4 []) (.inverseTrigUSub q)) (by simp)
        have hkid : ∀ d ∈ (addChild O (t :: as) (leaf s (ν.own 4 []) .simplify) (leaf g (ν.own 4 []) (.inverseTrigUSub q))).children,
            d = leaf s (ν.own 4 []) .simplify := by
          intro d hd
          rcases a7 with ⟨a7, -⟩ | a7 <;> rw [a7] at hd <;> simpa [leaf, Node.children] using hd
        have hsc := scopeOf_congr (A := A) a3 a2
        refine ⟨l1.congr a3 a2, fun i => ?_, .mk (fun _ d hd => by rw [hkid d hd]; rfl) (fun d hd => by
          rw [hkid d hd]; exact calm_leaf _ _ _ _ _ _), by rw [a3]; simp [leaf, Node.tr]⟩
        rw [hsc]
        have l3 := l2 i
        refine .mk l3.fresh (a2 ▸ l3.var) (a1 ▸ l3.expr) (a5 ▸ l3.sol) (a3 ▸ l3.con) (fun _ => ?_) (fun j d hd => ?_) (fun j d hd => ?_)
        · intro a ha b _ htr
          rw [hkid a ha] at htr
          simp [leaf, Node.tr] at htr
        · rw [hkid d (List.mem_of_getElem? hd)]
          exact (edge_plain (tr := .simplify) rfl rfl).1
        · rw [hkid d (List.mem_of_getElem? hd), (edge_plain (c := leaf s (ν.own 4 []) .simplify) (tr := .simplify) rfl rfl).2]
          exact sc_leaf (l3.fresh.child j) l3.var (pythagoreanSimplification_in l3.expr h3) (fun S h => by cases h) (fun k h => by cases h)
      · subst h2
        exact hl

theorem heuristics_sc {as : List Node} {p : List Nat} {r : R HPlan} {pl : HPlan} (hg : Sc ν A t)
    (hP : ∀ j P, lastByParts 0 (t :: as) = some (j, P) → In A P.expr) (hr : r ∈ heuristics O n ν as p t)
    (h : r = .ok pl) : ScPlan ν A pl.plan ∧ ScScale A pl.scale ∧
      ∀ j f, pl.scale = some (j, f) → ∃ P, lastByParts 0 (t :: as) = some (j, P) := by
  have hf := hg.fresh
  have hv := hg.var
  have he := hg.expr
  have nos : pl.scale = none → ScScale A pl.scale ∧ ∀ j f, pl.scale = some (j, f) → ∃ P, lastByParts 0 (t :: as) = some (j, P) :=
    fun hs => ⟨(fun j f h => by rw [hs] at h; cases h), (fun j f h => by rw [hs] at h; cases h)⟩
  have mapped : ∀ {a : R Plan}, (∀ pl, a = .ok pl → ScPlan ν A pl) →
      (a.map fun pl => ({ plan := pl } : HPlan)) = .ok pl → ScPlan ν A pl.plan ∧ ScScale A pl.scale ∧
      ∀ j f, pl.scale = some (j, f) → ∃ P, lastByParts 0 (t :: as) = some (j, P) := by
    intro a ha h
    cases a with
    | error er => cases h
    | ok pl' => cases h; exact ⟨ha pl' rfl, nos rfl⟩
  have opt : ∀ {α : Type} {f : α → Node} {r : R (Option α)}, (∀ a, r = .ok (some a) → ScPlan ν A { kids := [f a] }) →
      planR (r.map (planOpt f)) = .ok pl → ScPlan ν A pl.plan ∧ ScScale A pl.scale ∧
      ∀ j f, pl.scale = some (j, f) → ∃ P, lastByParts 0 (t :: as) = some (j, P) := by
    intro α f r hf h
    obtain ⟨a, b⟩ := scPlan_opt hf h
    exact ⟨a, nos b⟩
  subst h
  simp only [heuristics, List.mem_cons, List.not_mem_nil, or_false] at hr
  rcases hr with hr | hr | hr | hr | hr | hr | hr | hr | hr
  · exact opt (fun a ha => scPlan_leaf (O := O) (n := n) (tr := .polynomialUSub a.1) hf hv he ⟨rfl, rfl, ha⟩ (by simp)) hr.symm
  · exact opt (fun a ha => scPlan_leaf (O := O) (n := n) (tr := .productToSum) hf hv he ⟨rfl, rfl, ha⟩ (by simp)) hr.symm
  · split_ifs at hr
    · cases hr; exact ⟨scPlan_empty, nos rfl⟩
    · exact opt (fun a ha => scPlan_leaf (O := O) (n := n) (tr := .trigUSub2 a.1) hf hv he ⟨rfl, rfl, ha⟩ (by simp)) hr.symm
  · exact byPartsPlan_sc hf hv he hg.con hP hr.symm
  · exact mapped (fun pl h => rewriteTrigPlan_sc hf hv he h) hr.symm
  · exact opt (fun a ha => scPlan_leaf (O := O) (n := n) (tr := .rewritePythagorean) hf hv he ⟨rfl, rfl, ha⟩ (by simp)) hr.symm
  · exact mapped (fun pl h => inversePlan_sc hf hv he h) hr.symm
  · exact opt (fun a ha => scPlan_leaf (O := O) (n := n) (tr := .completeTheSquare) hf hv he ⟨rfl, rfl, ha⟩ (by simp)) hr.symm
  · exact opt (fun a ha => scPlan_leaf (O := O) (n := n) (tr := .genericUSub a.1) hf hv he ⟨rfl, rfl, ha⟩ (by simp)) hr.symm

theorem runHeuristics_sc {as : List Node} {L : Option (Nat × Node)} : ∀ {hs : List (R HPlan)} {t t' : Node}
    {sc : Option (Nat × Expr)}, (∀ r ∈ hs, ∀ pl, r = .ok pl → ScPlan ν A pl.plan ∧ ScScale A pl.scale ∧
      ∀ j f, pl.scale = some (j, f) → ∃ P, L = some (j, P)) →
    runHeuristics O as hs t = .ok (t', sc) → t'.expr = t.expr ∧ t'.var = t.var ∧ t'.tr = t.tr ∧ t'.sol = t.sol ∧
      (ScScale A sc ∧ ∀ j f, sc = some (j, f) → ∃ P, L = some (j, P)) ∧ ∃ ks : List Node, t'.children = t.children ++ ks ∧
        ∀ k ∈ ks, Edge A k ∧ (∀ i, Sc (ν.child i) (scopeOf A k) k) ∧ Calm k ∧ k.tr ≠ some .additivity
  | [], t, t', sc, _, h => by
    simp only [runHeuristics, Except.ok.injEq, Prod.mk.injEq] at h
    obtain ⟨rfl, rfl⟩ := h
    exact ⟨rfl, rfl, rfl, rfl, ⟨(fun j f h => by cases h), (fun j f h => by cases h)⟩, [], by simp, by simp⟩
  | r :: hs, t, t', sc, hg, h => by
    rw [runHeuristics] at h
    obtain ⟨pl, h1, h⟩ := bind_ok.1 h
    obtain ⟨⟨t2, sc2⟩, h2, h⟩ := bind_ok.1 h
    have h := pure_ok.1 h
    simp only [Prod.mk.injEq] at h
    obtain ⟨rfl, rfl⟩ := h
    obtain ⟨p1, p2, p3⟩ := hg r (by simp) pl h1
    obtain ⟨t1, ht1, a1, a2, a3, a4, a5, a6, ks1, a7, a8, -⟩ := apply_shape O as pl.plan t
    rw [ht1] at h2
    obtain ⟨b1, b2, b3, b5, ⟨b6, b7⟩, ks2, b8, b9⟩ := runHeuristics_sc (L := L) (fun r hr pl h => hg r (by simp [hr]) pl h) h2
    refine ⟨b1.trans a1, b2.trans a2, b3.trans a3, b5.trans a5, ⟨?_, ?_⟩, ks1 ++ ks2, by rw [b8, a7, List.append_assoc], fun k hk => ?_⟩
    · intro j f hj
      cases hs1 : pl.scale with
      | none => rw [hs1] at hj; exact b6 j f hj
      | some s => rw [hs1] at hj; exact p2 j f (by rw [hs1]; exact hj)
    · intro j f hj
      cases hs1 : pl.scale with
      | none => rw [hs1] at hj; exact b7 j f hj
      | some s => rw [hs1] at hj; exact p3 j f (by rw [hs1]; exact hj)
    · rcases List.mem_append.1 hk with hk | hk
      · exact p1 k (a8.subset hk)
      · exact b9 k hk

theorem heuristically_sc {as : List Node} {p : List Nat} {sc : Option (Nat × Expr)} (hg : Sc ν A t)
    (hP : ∀ j P, lastByParts 0 (t :: as) = some (j, P) → In A P.expr) (ho : t.children = [])
    (h : heuristically O n ν as p t = .ok (t', sc)) : (Sc ν A t' ∧ t'.tr = t.tr ∧ t'.var = t.var) ∧ ScScale A sc ∧
      ∀ j f, sc = some (j, f) → ∃ P, lastByParts 0 (t :: as) = some (j, P) := by
  unfold heuristically at h
  obtain ⟨⟨t1, sc1⟩, h1, h⟩ := bind_ok.1 h
  dsimp only at h
  obtain ⟨a1, a2, a3, a4, a5, ks, a6, a7⟩ := runHeuristics_sc (L := lastByParts 0 (t :: as)) (fun r hr pl h => heuristics_sc hg hP hr h) h1
  rw [ho, List.nil_append] at a6
  have whole : ∀ t2 : Node, t2.expr = t1.expr → t2.var = t1.var → t2.tr = t1.tr → t2.sol = t1.sol →
      t2.children = t1.children → Sc ν A t2 ∧ t2.tr = t.tr ∧ t2.var = t.var := by
    intro t2 e1 e2 e3 e4 e5
    refine ⟨.mk hg.fresh (by rw [e2, a2]; exact hg.var) (by rw [e1, a1]; exact hg.expr) (by rw [e4, a4]; exact hg.sol)
      (by rw [e3, a3]; exact hg.con) (fun _ => ?_) (fun i c hc => ?_) (fun i c hc => ?_), e3.trans a3, e2.trans a2⟩
    · rw [e5, a6]
      intro a ha b hb htr
      exact absurd htr (a7 a ha).2.2.2
    · rw [e5, a6] at hc
      exact (a7 c (List.mem_of_getElem? hc)).1
    · rw [e5, a6] at hc
      exact (a7 c (List.mem_of_getElem? hc)).2.1 i
  have fin : ∀ (t2 : Node), t2.expr = t1.expr → t2.var = t1.var → t2.tr = t1.tr → t2.sol = t1.sol →
      t2.children = t1.children → (do
        let cs ← mapIdxR (fun i c => safely O n n (ν.child i) (t2 :: as) c) 0 t2.children
        return (t2.withChildren cs, sc1)) = Except.ok (t', sc) → (Sc ν A t' ∧ t'.tr = t.tr ∧ t'.var = t.var) ∧ ScScale A sc ∧
      ∀ j f, sc = some (j, f) → ∃ P, lastByParts 0 (t :: as) = some (j, P) := by
    intro t2 e1 e2 e3 e4 e5 h
    obtain ⟨cs, h3, h⟩ := bind_ok.1 h
    have h := pure_ok.1 h
    simp only [Prod.mk.injEq] at h
    obtain ⟨rfl, rfl⟩ := h
    obtain ⟨s1, s2, s3⟩ := whole t2 e1 e2 e3 e4 e5
    obtain ⟨w1, w2, w3, w4, w5, w6, w7⟩ := withChildren_shape cs t2
    refine ⟨⟨s1.withKids w1 w2 w3 (w5 ▸ s1.sol) (fun i c' hc' => ?_), w3.trans s2, w2.trans s3⟩, a5⟩
    rw [w7] at hc'
    obtain ⟨c, hc, hs⟩ := (mapIdxR_get h3).2 i c' hc'
    rw [Nat.zero_add] at hs
    have hc0 := hc
    rw [e5, a6] at hc
    obtain ⟨q1, q2, q3, -⟩ := a7 c (List.mem_of_getElem? hc)
    obtain ⟨z1, z2, z3⟩ := safely_sc q3 (q2 i) hs
    exact ⟨c, hc0, z2, z3, z1⟩
  split_ifs at h with h2 h3 h4
  · have h := pure_ok.1 h
    simp only [Prod.mk.injEq] at h
    obtain ⟨rfl, rfl⟩ := h
    exact ⟨whole _ rfl rfl rfl rfl rfl, a5⟩
  · have h := pure_ok.1 h
    simp only [Prod.mk.injEq] at h
    obtain ⟨rfl, rfl⟩ := h
    obtain ⟨s1, s2, s3, s4, s5, s6, s7⟩ := setType_shape .failure t1
    exact ⟨whole _ s1 s2 s3 s5 s7, a5⟩
  · obtain ⟨s1, s2, s3, s4, s5, s6, s7⟩ := setType_shape .or t1
    exact fin _ s1 s2 s3 s5 s7 h
  · exact fin _ rfl rfl rfl rfl rfl h

/-! ## Cycles -/

theorem replaceAt_sc : ∀ {p : List Nat} {t c c' : Node} {ν : Supply} {A : Str → Prop}, Sc ν A t → at? p t = some c →
    Sc (ν.at p) (scopeAt p t A) c' → c'.tr = c.tr → c'.var = c.var → Sc ν A (replaceAt c' p t) ∧
      (replaceAt c' p t).tr = t.tr ∧ (replaceAt c' p t).var = t.var
  | [], _, _, _, _, _, _, h, hg, h1, h2 => by cases h; exact ⟨hg, h1, h2⟩
  | i :: p, mk e v tr ty s f cs, c, c', ν, A, hg, h, hg', h1, h2 => by
    simp only [at?, Node.children] at h
    obtain ⟨d, hd, h⟩ := Option.bind_eq_some_iff.1 h
    have hd' : (mk e v tr ty s f cs).children[i]? = some d := hd
    simp only [Supply.at, scopeAt, hd'] at hg'
    obtain ⟨g1, g2, g3⟩ := replaceAt_sc (hg.kid hd') h hg' h1 h2
    simp only [replaceAt, hd]
    refine ⟨hg.withKids (t' := mk e v tr ty s f (cs.set i (replaceAt c' p d))) rfl rfl rfl hg.sol (fun j b hb => ?_), rfl, rfl⟩
    simp only [Node.children] at hb
    rw [List.getElem?_set] at hb
    split_ifs at hb with h1
    · cases hb
      subst h1
      exact ⟨d, hd, g2, g3, g1⟩
    · exact ⟨b, hb, rfl, rfl, hg.kid hb⟩

theorem scopeAt_append : ∀ {p q : List Nat} {t N : Node} {A : Str → Prop}, at? p t = some N →
    scopeAt (p ++ q) t A = scopeAt q N (scopeAt p t A)
  | [], q, t, N, A, h => by cases h; rfl
  | j :: p, q, t, N, A, h => by
    simp only [at?] at h
    obtain ⟨d, hd, h⟩ := Option.bind_eq_some_iff.1 h
    simp only [List.cons_append, scopeAt, hd]
    exact scopeAt_append h

/-- Replacing a node by one with the same transform and variable does not change the scopes above it. -/
theorem scopeAt_replaceAt : ∀ {q r : List Nat} {t c c' : Node} {A : Str → Prop}, at? (q ++ r) t = some c → c'.tr = c.tr → c'.var = c.var →
    scopeAt q (replaceAt c' (q ++ r) t) A = scopeAt q t A
  | [], r, t, c, c', A, _, _, _ => rfl
  | i :: q, r, mk e v tr ty s f cs, c, c', A, hc, h1, h2 => by
    simp only [List.cons_append, at?, Node.children] at hc
    obtain ⟨d, hd, hc⟩ := Option.bind_eq_some_iff.1 hc
    have ih := fun A => scopeAt_replaceAt (A := A) hc h1 h2
    simp only [List.cons_append, replaceAt, hd, scopeAt, Node.children]
    rw [List.getElem?_set_self (List.getElem?_eq_some_iff.1 hd).1]
    simp only
    have e : scopeOf A (replaceAt c' (q ++ r) d) = scopeOf A d := by
      have : (replaceAt c' (q ++ r) d).tr = d.tr ∧ (replaceAt c' (q ++ r) d).var = d.var := by
        cases hqr : q ++ r with
        | nil => rw [hqr] at hc; cases hc; exact ⟨h1, h2⟩
        | cons j l =>
          cases d
          simp only [replaceAt]
          split <;> exact ⟨rfl, rfl⟩
      exact scopeOf_congr this.1 this.2
    rw [e]
    exact ih _

theorem lastByParts_scope : ∀ {j i : Nat} {P : Node} {l : List Node}, lastByParts i l = some (i + j, P) →
    ∀ m < j, ∃ N, l[m]? = some N ∧ N.isUSub = false
  | 0, _, _, _, _, m, hm => by omega
  | j + 1, i, P, [], h, m, hm => by simp [lastByParts] at h
  | j + 1, i, P, t :: as, h, m, hm => by
    rw [lastByParts] at h
    have go : t.isUSub = false → lastByParts (i + 1) as = some (i + (j + 1), P) → ∃ N, (t :: as)[m]? = some N ∧ N.isUSub = false := by
      intro hu h
      cases m with
      | zero => exact ⟨t, rfl, hu⟩
      | succ m =>
        rw [show i + (j + 1) = (i + 1) + j by omega] at h
        simpa using lastByParts_scope h m (by omega)
    split at h
    · next ht =>
      simp only [Option.some.injEq, Prod.mk.injEq] at h
      omega
    · next ht => exact go (by simp [isUSub, ht, usubOf]) h
    · next ht => exact go (by simp [isUSub, ht, usubOf]) h
    · cases h

/-- The scope of a node and that of an ancestor are the same if there is no u-substitution in between. -/
theorem scopeAt_up {p : List Nat} {t l : Node} {bs : List Node} (hl : lineage [] p t = some (l, bs)) : ∀ (j : Nat), j ≤ p.length →
    (∀ m < j, ∃ N, (l :: bs)[m]? = some N ∧ N.isUSub = false) → scopeAt p t A = scopeAt (p.take (p.length - j)) t A
  | 0, _, _ => by simp
  | j + 1, hj, h => by
    rw [scopeAt_up hl j (by omega) (fun m hm => h m (by omega))]
    obtain ⟨N, hN, hu⟩ := h j (by omega)
    obtain ⟨-, l2, -⟩ := lineage_get hl
    have hat := l2 j N hN (by omega)
    have e : p.take (p.length - j) = p.take (p.length - (j + 1)) ++ [p[p.length - (j + 1)]'(by omega)] := by
      rw [show p.length - j = (p.length - (j + 1)) + 1 by omega, List.take_succ_eq_append_getElem (by omega)]
    rw [e] at hat ⊢
    rw [at_append] at hat
    obtain ⟨M, hM, hat⟩ := Option.bind_eq_some_iff.1 hat
    simp only [at?] at hat
    obtain ⟨d, hd, hat⟩ := Option.bind_eq_some_iff.1 hat
    cases hat
    rw [scopeAt_snoc hM hd]
    simp [scopeOf, hu]

theorem rescale_sc {p : List Nat} {sc : Option (Nat × Expr)} (hg : Sc ν A t)
    (hs : ∀ j f, sc = some (j, f) → In (scopeAt (p.take (p.length - j)) t A) f)
    (h : rescale O n p sc t = .ok t') : Sc ν A t' ∧ t'.tr = t.tr ∧ t'.var = t.var := by
  unfold rescale at h
  split at h
  · cases h; exact ⟨hg, rfl, rfl⟩
  · next j f =>
    split at h
    · cases h
    · next a ha =>
      split at h
      · cases h
      · next s hsol =>
        obtain ⟨r, hr, h⟩ := bind_ok.1 h
        cases pure_ok.1 h
        have hf := hs j f rfl
        have hga := sc_at hg ha
        have ha' := ha
        rw [at_append] at ha'
        obtain ⟨P, hP, ha'⟩ := Option.bind_eq_some_iff.1 ha'
        simp only [at?] at ha'
        obtain ⟨d, hd, ha'⟩ := Option.bind_eq_some_iff.1 ha'
        cases ha'
        have hf' : In (scopeAt (p.take (p.length - j) ++ [0]) t A) f := by
          rw [scopeAt_snoc hP hd]
          exact fun s hs => scopeOf_mono (hf s hs)
        have hr' := byPartsSolution_in (hga.sol s hsol) hf' hr
        refine replaceAt_sc hg ha (hga.withKids (t' := setTypeSol a.type (some r) a) ?_ ?_ ?_ ?_ ?_) ?_ ?_
        all_goals cases a
        · rfl
        · rfl
        · rfl
        · intro S h; cases h; exact hr'
        · intro i c' hc'; exact ⟨c', hc', rfl, rfl, hga.kid hc'⟩
        · rfl
        · rfl

theorem cycle_sc {bf : Bool} {p : List Nat} {nx : Next} (hg : Sc ν A t) (h : cycle O n ν bf t p = .ok (t', nx)) :
    Sc ν A t' ∧ t'.tr = t.tr ∧ t'.var = t.var := by
  unfold cycle at h
  split at h
  · cases h
  next t0 ht0 =>
  obtain ⟨t1, h1, h⟩ := bind_ok.1 h
  dsimp only at h
  obtain ⟨g1, k1, k2⟩ := tableAll_sc (sc_at hg ht0) h1
  obtain ⟨g2, k3, k4⟩ := replaceAt_sc hg ht0 g1 k1 k2
  split at h
  · have h := pure_ok.1 h
    simp only [Prod.mk.injEq] at h
    obtain ⟨rfl, -⟩ := h
    exact ⟨g2, k3, k4⟩
  next q _ hq =>
  split at h
  · cases h
  next l as hl =>
  obtain ⟨⟨l', sc⟩, h3, h⟩ := bind_ok.1 h
  obtain ⟨root2, h4, h⟩ := bind_ok.1 h
  obtain ⟨nx', -, h⟩ := bind_ok.1 h
  have h := pure_ok.1 h
  simp only [Prod.mk.injEq] at h
  obtain ⟨rfl, -⟩ := h
  have hat := lineage_at hl
  have hopen : l.children = [] := by
    have := (mem_unfinishedPaths t1 q).1 (by rw [hq]; simp)
    rw [at_append, at_replaceAt _ ht0, Option.bind_some, this.1] at hat
    cases hat
    exact this.2.1
  have hgl := sc_at g2 hat
  have up : ∀ j P, lastByParts 0 (l :: as) = some (j, P) → j ≤ (p ++ q.1).length ∧
      at? ((p ++ q.1).take ((p ++ q.1).length - j)) (replaceAt t1 p t) = some P ∧
      scopeAt (p ++ q.1) (replaceAt t1 p t) A = scopeAt ((p ++ q.1).take ((p ++ q.1).length - j)) (replaceAt t1 p t) A := by
    intro j P hj
    obtain ⟨k, hk, hP, -⟩ := lastByParts_get hj
    rw [Nat.zero_add] at hk
    subst hk
    obtain ⟨l1, l2, -⟩ := lineage_get hl
    have hj' : j ≤ (p ++ q.1).length := by
      have := (List.getElem?_eq_some_iff.1 hP).1
      rw [l1] at this
      simp only [List.length_cons, List.length_nil] at this
      omega
    refine ⟨hj', l2 j P hP hj', scopeAt_up hl j hj' (lastByParts_scope (i := 0) (by rw [Nat.zero_add]; exact hj))⟩
  obtain ⟨⟨g3, k5, k6⟩, s3, s4⟩ := heuristically_sc hgl (fun j P hj => by
    obtain ⟨-, u2, u3⟩ := up j P hj
    rw [u3]
    exact (sc_at g2 u2).expr) hopen h3
  obtain ⟨g4, k7, k8⟩ := replaceAt_sc g2 hat g3 k5 k6
  obtain ⟨g5, k9, k10⟩ := rescale_sc g4 (fun j f hj => by
    obtain ⟨P, hP⟩ := s4 j f hj
    obtain ⟨u1, u2, u3⟩ := up j P hP
    have := s3 j f hj
    rw [u3] at this
    have hsplit := List.take_append_drop ((p ++ q.1).length - j) (p ++ q.1)
    have e := scopeAt_replaceAt (q := (p ++ q.1).take ((p ++ q.1).length - j)) (r := (p ++ q.1).drop ((p ++ q.1).length - j))
      (t := replaceAt t1 p t) (c := l) (c' := l') (A := A) (by rw [hsplit]; exact hat) k5 k6
    rw [hsplit] at e
    rw [e]
    exact this) h4
  exact ⟨g5, k9.trans (k7.trans k3), k10.trans (k8.trans k4)⟩

theorem searchLoop_sc {bf : Bool} : ∀ {k : Nat} {t T : Node} {p : List Nat}, Sc ν A t → searchLoop O n ν bf k t p = .ok T → Sc ν A T
  | 0, t, T, p, hg, h => by
    rw [searchLoop.eq_def] at h
    simp only at h
    obtain ⟨⟨t', nx⟩, h1, h⟩ := bind_ok.1 h
    cases pure_ok.1 h
    exact (cycle_sc hg h1).1
  | k + 1, t, T, p, hg, h => by
    rw [searchLoop] at h
    obtain ⟨⟨t', nx⟩, h1, h⟩ := bind_ok.1 h
    obtain ⟨a, -⟩ := cycle_sc hg h1
    dsimp only at h
    split_ifs at h
    · cases pure_ok.1 h
      exact a
    · cases nx with
      | none => cases h
      | node q => exact searchLoop_sc a h
      | solved =>
        simp only at h
        obtain ⟨nx, -, h⟩ := bind_ok.1 h
        cases nx with
        | none => cases h
        | solved => cases h
        | node q => exact searchLoop_sc a h

theorem search_sc {bf : Bool} {k : Nat} {T : Node} (hf : Fresh A ν) (hv : A v) (he : In A e) (h : search O n ν bf k v e = .ok T) :
    Sc ν A T := by
  unfold search startTree at h
  obtain ⟨t, h1, h⟩ := bind_ok.1 h
  obtain ⟨s, h2, h1⟩ := bind_ok.1 h1
  obtain ⟨a, -⟩ := safely_sc (calm_leaf _ _ _ _ _ _) (sc_leaf hf hv (simplify_in he h2) (fun S h => by cases h) (fun k h => by cases h)) h1
  exact searchLoop_sc a h

theorem integrate_in {bf fin : Bool} {k : Nat} {T : Node} {F : Expr} (hf : Fresh A ν) (hv : A v) (he : In A e)
    (hs : search O n ν bf k v e = .ok T) (ha : PartsApart T) (h : integrate O n ν bf k fin v e = .ok (some F)) : In A F := by
  unfold integrate at h
  rw [hs] at h
  obtain ⟨t, h1, h⟩ := bind_ok.1 h
  cases h1
  split at h
  · cases pure_ok.1 h
  · obtain ⟨⟨S, l⟩, h2, h⟩ := bind_ok.1 h
    have hS := goBackwards_sc (search_sc hf hv he hs) ha h2
    dsimp only at h
    split at h
    · obtain ⟨r, h3, h⟩ := bind_ok.1 h
      cases pure_ok.1 h
      exact simplify_in hS h3
    · cases pure_ok.1 h
      exact hS

end Node
end Simpy
