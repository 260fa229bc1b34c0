import Verif.Spec.Tree
import Verif.Proofs.Basic
import Verif.Proofs.Adm
import Mathlib.Data.List.Basic

/-! Integration trees. -/

namespace Simpy
namespace Node

theorem allSolved_iff : ∀ {cs : List Node}, allSolved cs = true ↔ ∀ c ∈ cs, c.isSolved = true
  | [] => by simp [allSolved]
  | c :: r => by simp [allSolved, allSolved_iff (cs := r)]
theorem anySolved_iff : ∀ {cs : List Node}, anySolved cs = true ↔ ∃ c ∈ cs, c.isSolved = true
  | [] => by simp [anySolved]
  | c :: r => by simp [anySolved, anySolved_iff (cs := r)]
theorem allFailed_iff : ∀ {cs : List Node}, allFailed cs = true ↔ ∀ c ∈ cs, c.isFailed = true
  | [] => by simp [allFailed]
  | c :: r => by simp [allFailed, allFailed_iff (cs := r)]
theorem anyFailed_iff : ∀ {cs : List Node}, anyFailed cs = true ↔ ∃ c ∈ cs, c.isFailed = true
  | [] => by simp [anyFailed]
  | c :: r => by simp [anyFailed, anyFailed_iff (cs := r)]

theorem isEmpty_false {cs : List Node} : (!cs.isEmpty) = true ↔ cs ≠ [] := by cases cs <;> simp

theorem settledL_iff : ∀ {cs : List Node}, SettledL cs ↔ ∀ c ∈ cs, Settled c
  | [] => by simp [SettledL]
  | c :: r => by simp [SettledL, settledL_iff (cs := r)]

mutual
theorem not_both : ∀ (t : Node), Settled t → ¬(t.isSolved = true ∧ t.isFailed = true)
  | mk _ _ _ ty _ _ cs => fun ⟨h1, h2⟩ => by
    have ih := not_bothL cs h2
    rintro ⟨hs, hf⟩
    cases ty with
    | solution => simp [isFailed, h1 (.inl rfl)] at hf
    | failure => simp [isSolved] at hs
    | and | unset =>
      simp only [isSolved, isFailed, Bool.and_eq_true, allSolved_iff, anyFailed_iff] at hs hf
      obtain ⟨c, hc, k⟩ := hf.2
      exact ih c hc ⟨hs.2 c hc, k⟩
    | or =>
      simp only [isSolved, isFailed, Bool.and_eq_true, anySolved_iff, allFailed_iff] at hs hf
      obtain ⟨c, hc, k⟩ := hs.2
      exact ih c hc ⟨k, hf.2 c hc⟩
theorem not_bothL : ∀ (cs : List Node), SettledL cs → ∀ c ∈ cs, ¬(c.isSolved = true ∧ c.isFailed = true)
  | [], _ => by simp
  | c :: r, h => by
    have a := not_both c h.1
    have b := not_bothL r h.2
    intro c' hc'
    rcases List.mem_cons.1 hc' with rfl | hc'
    · exact a
    · exact b c' hc'
end

theorem finished_false {t : Node} : t.isFinished = false ↔ t.isSolved = false ∧ t.isFailed = false := by
  simp [isFinished]

/-- An unfinished node with children has an unfinished child. -/
theorem exists_unfinished {e v tr ty s f cs} (h : (mk e v tr ty s f cs).isFinished = false) (hc : cs ≠ []) :
    ∃ c ∈ cs, c.isFinished = false := by
  obtain ⟨hs, hf⟩ := finished_false.1 h
  have he : cs.isEmpty = false := by cases cs <;> simp_all
  simp only [finished_false]
  cases ty with
  | solution => simp [isSolved] at hs
  | failure => simp [isFailed] at hf
  | and | unset =>
    simp only [isSolved, isFailed, he, Bool.not_false, Bool.true_and] at hs hf
    have h1 : ¬ ∀ c ∈ cs, c.isSolved = true := by rw [← allSolved_iff, hs]; simp
    have h2 : ¬ ∃ c ∈ cs, c.isFailed = true := by rw [← anyFailed_iff, hf]; simp
    push Not at h1 h2
    obtain ⟨c, hc, k⟩ := h1
    exact ⟨c, hc, by simpa using k, by simpa using h2 c hc⟩
  | or =>
    simp only [isSolved, isFailed, he, Bool.not_false, Bool.true_and] at hs hf
    have h1 : ¬ ∃ c ∈ cs, c.isSolved = true := by rw [← anySolved_iff, hs]; simp
    have h2 : ¬ ∀ c ∈ cs, c.isFailed = true := by rw [← allFailed_iff, hf]; simp
    push Not at h1 h2
    obtain ⟨c, hc, k⟩ := h2
    exact ⟨c, hc, by simpa using h1 c hc, by simpa using k⟩

mutual
theorem mem_leaves : ∀ (t l : Node), l ∈ t.leaves ↔ IsLeafOf l t
  | mk e v tr ty s f [], l => by
    simp only [leaves, List.mem_singleton]
    constructor
    · rintro rfl; exact .here rfl
    · intro h
      cases h with
      | here => rfl
      | child hc => simp [children] at hc
  | mk e v tr ty s f (c :: r), l => by
    rw [leaves, mem_leavesL (c :: r) l]
    constructor
    · rintro ⟨c', hc', h⟩; exact .child hc' h
    · intro h
      cases h with
      | here h => simp [children] at h
      | child hc h => exact ⟨_, hc, h⟩
theorem mem_leavesL : ∀ (cs : List Node) (l : Node), l ∈ leavesL cs ↔ ∃ c ∈ cs, IsLeafOf l c
  | [], l => by simp [leavesL]
  | c :: r, l => by
    have a := mem_leaves c l
    have b := mem_leavesL r l
    simp [leavesL, a, b]
end

mutual
theorem unfinished_leaf : ∀ (t : Node), t.isFinished = false → ∃ l, IsLeafOf l t ∧ l.isFinished = false
  | mk e v tr ty s f cs, h => by
    have ih := unfinished_leafL cs
    by_cases hc : cs = []
    · exact ⟨_, .here (by simpa [children] using hc), h⟩
    · obtain ⟨c, hc, k⟩ := exists_unfinished h hc
      obtain ⟨l, hl, kl⟩ := ih c hc k
      exact ⟨l, .child hc hl, kl⟩
theorem unfinished_leafL : ∀ (cs : List Node), ∀ c ∈ cs, c.isFinished = false → ∃ l, IsLeafOf l c ∧ l.isFinished = false
  | [], c, hc, _ => by simp at hc
  | c :: r, c', hc', h => by
    have a := unfinished_leaf c
    have b := unfinished_leafL r
    rcases List.mem_cons.1 hc' with rfl | hc'
    · exact a h
    · exact b c' hc' h
end

/-! ## Later states -/

mutual
theorem later_stable : ∀ (t t' : Node), Later t t' →
    (t.isFailed = true → t'.isFailed = true) ∧ (t.isSolved = true → t'.isSolved = true)
  | mk e v tr ty s f cs, t', h => by
    cases h with
    | work hc hf => rw [finished_false] at hf; simp [hf]
    | @same _ _ _ _ _ _ e' v' tr' s' f' _ cs' hcs =>
      have ih := later_stableL cs cs' hcs
      have hn : cs = [] ↔ cs' = [] := by cases hcs <;> simp
      have hfail : ∀ c ∈ cs, c.isFailed = true → ∃ c' ∈ cs', c'.isFailed = true := fun c hc k => by
        obtain ⟨c', hc', k1, k2⟩ := ih.1 c hc
        exact ⟨c', hc', k1 k⟩
      have hsol : ∀ c ∈ cs, c.isSolved = true → ∃ c' ∈ cs', c'.isSolved = true := fun c hc k => by
        obtain ⟨c', hc', k1, k2⟩ := ih.1 c hc
        exact ⟨c', hc', k2 k⟩
      cases ty <;>
        simp only [isSolved, isFailed, Bool.and_eq_true, isEmpty_false, anySolved_iff, anyFailed_iff, allSolved_iff,
          allFailed_iff, ne_eq, hn, imp_self, and_self, true_and, and_true, false_and, and_false, Bool.false_eq_true] <;>
        (try refine ⟨?_, ?_⟩) <;> try exact And.imp_right (fun ⟨c, hc, k⟩ => by first | exact hfail c hc k | exact hsol c hc k)
      all_goals first
        | exact And.imp_right fun k c' hc' => by
            obtain ⟨c, hc, k1, k2⟩ := ih.2 c' hc'
            first | exact k1 (k c hc) | exact k2 (k c hc)
theorem later_stableL : ∀ (cs cs' : List Node), List.Forall₂ Later cs cs' →
    (∀ c ∈ cs, ∃ c' ∈ cs', (c.isFailed = true → c'.isFailed = true) ∧ (c.isSolved = true → c'.isSolved = true)) ∧
    (∀ c' ∈ cs', ∃ c ∈ cs, (c.isFailed = true → c'.isFailed = true) ∧ (c.isSolved = true → c'.isSolved = true))
  | [], _, h => by cases h; simp
  | c :: r, _, h => by
    cases h with
    | @cons _ c' _ r' h1 h2 =>
      have a := later_stable c c' h1
      have b := later_stableL r r' h2
      refine ⟨fun d hd => ?_, fun d hd => ?_⟩
      · rcases List.mem_cons.1 hd with rfl | hd
        · exact ⟨c', by simp, a⟩
        · obtain ⟨d', hd', k⟩ := b.1 d hd
          exact ⟨d', List.mem_cons_of_mem _ hd', k⟩
      · rcases List.mem_cons.1 hd with rfl | hd
        · exact ⟨c, by simp, a⟩
        · obtain ⟨d', hd', k⟩ := b.2 d hd
          exact ⟨d', List.mem_cons_of_mem _ hd', k⟩
end

/-! ## The best leaf -/

/-- The best of two numbers. -/
def better (mn : Bool) (a b : Nat) : Nat := if mn then min a b else max a b

instance (mn : Bool) : Std.Associative (better mn) := ⟨fun a b c => by
  cases mn <;> simp [better, Nat.max_assoc, Nat.min_assoc]⟩

theorem better_eq (mn : Bool) : (if mn then min else max : Nat → Nat → Nat) = better mn := by
  cases mn <;> rfl

theorem foldl_better_mem (mn : Bool) : ∀ (r : List Nat) (a : Nat), r.foldl (better mn) a ∈ a :: r
  | [], a => by simp
  | b :: r, a => by
    have := foldl_better_mem mn r (better mn a b)
    have hb : better mn a b = a ∨ better mn a b = b := by
      cases mn <;> simp only [better] <;> simp only [Bool.false_eq_true, if_false, if_true] <;> omega
    rw [List.foldl_cons]
    rcases List.mem_cons.1 this with h | h
    · rw [h]; rcases hb with hb | hb <;> simp [hb]
    · exact List.mem_cons_of_mem _ (List.mem_cons_of_mem _ h)

variable {nest : Expr → Str → R Nat} {m : Expr → Str → Nat}

theorem mapR_total {α β : Type} {f : α → R β} {g : α → β} (h : ∀ a, f a = .ok (g a)) :
    ∀ l : List α, mapR f l = .ok (l.map g)
  | [] => rfl
  | a :: r => by
    simp only [mapR, h, mapR_total h r, List.map_cons]

theorem bestNesting_V (hn : ∀ e v, nest e v = .ok (m e v)) (mn : Bool) {c : Node} {r : List Node} :
    ∃ t : Node, t ∈ c :: r ∧ bestNesting nest mn (c :: r) = .ok t ∧
      m t.expr t.var = (r.map fun t : Node => m t.expr t.var).foldl (better mn) (m c.expr c.var) := by
  have h1 : mapR (fun t : Node => nest t.expr t.var) (c :: r) = .ok ((c :: r).map fun t : Node => m t.expr t.var) :=
    mapR_total (fun t : Node => hn t.expr t.var) _
  have hmem := foldl_better_mem mn (r.map fun t : Node => m t.expr t.var) (m c.expr c.var)
  obtain ⟨b, hb⟩ : ∃ b, (r.map fun t : Node => m t.expr t.var).foldl (better mn) (m c.expr c.var) = b := ⟨_, rfl⟩
  rw [hb] at hmem
  have hmem' : b ∈ (c :: r).map fun t : Node => m t.expr t.var := hmem
  have hlt : ((c :: r).map fun t : Node => m t.expr t.var).idxOf b < ((c :: r).map fun t : Node => m t.expr t.var).length :=
    List.idxOf_lt_length_of_mem hmem'
  have hlt' : ((c :: r).map fun t : Node => m t.expr t.var).idxOf b < (c :: r).length := by simpa using hlt
  refine ⟨(c :: r)[((c :: r).map fun t : Node => m t.expr t.var).idxOf b]'hlt', List.getElem_mem _, ?_, ?_⟩
  · unfold bestNesting
    rw [h1]
    have hb' : bestOf mn ((c :: r).map fun t : Node => m t.expr t.var) = .ok b := by
      simp only [List.map_cons, bestOf, better_eq, hb]
    change (do let b ← bestOf mn ((c :: r).map fun t : Node => m t.expr t.var); _) = _
    rw [hb']
    change (match (c :: r)[((c :: r).map fun t : Node => m t.expr t.var).idxOf b]? with
      | some t => (pure t : R Node) | none => .error .value) = _
    rw [List.getElem?_eq_getElem hlt']
    rfl
  · rw [hb]
    have := List.getElem_idxOf hlt
    rw [List.getElem_map] at this
    exact this

theorem forall₂_right {α β : Type} {P : α → β → Prop} : ∀ {l : List α} {r : List β}, List.Forall₂ P l r →
    ∀ b ∈ r, ∃ a ∈ l, P a b
  | _, _, .nil, b, hb => by simp at hb
  | _, _, .cons h1 h2, b, hb => by
    rcases List.mem_cons.1 hb with rfl | hb
    · exact ⟨_, by simp, h1⟩
    · obtain ⟨a, ha, k⟩ := forall₂_right h2 b hb
      exact ⟨a, List.mem_cons_of_mem _ ha, k⟩

/-- What is proved about the best leaf `l` of `t`. -/
def Best (nest : Expr → Str → R Nat) (m : Expr → Str → Nat) (t l : Node) : Prop :=
  bestLeaf nest t = .ok l ∧ IsLeafOf l t ∧ l.isFinished = false ∧ minimax m t = some (m l.expr l.var)

theorem minimaxL_fold (mn : Bool) : ∀ (cs : List Node), (∀ c ∈ cs, c.isFinished = true → minimax m c = none) →
    ∀ {ls : List Node}, List.Forall₂ (fun c l => minimax m c = some (m l.expr l.var)) (cs.filter fun c => !c.isFinished) ls →
    minimaxL m mn cs = match ls with
      | [] => none
      | l :: r => some ((r.map fun t : Node => m t.expr t.var).foldl (better mn) (m l.expr l.var))
  | [], _, _, h => by cases h; rfl
  | c :: r, hfin, ls, h => by
    have ih := @minimaxL_fold mn r (fun c hc => hfin c (List.mem_cons_of_mem _ hc))
    by_cases hc : c.isFinished = true
    · simp only [List.filter_cons, hc, Bool.not_true, Bool.false_eq_true, if_false] at h
      rw [minimaxL, hfin c (by simp) hc]
      exact ih h
    · have hc' : c.isFinished = false := by simpa using hc
      simp only [List.filter_cons, hc', Bool.not_false, if_true] at h
      cases h with
      | @cons _ l _ ls h1 h2 =>
        rw [minimaxL, h1, ih h2]
        cases ls with
        | nil => rfl
        | cons l' ls =>
          simp only [List.map_cons, List.foldl_cons]
          rw [List.foldl_assoc]
          rfl

theorem minimax_finished {t : Node} (h : t.isFinished = true) : minimax m t = none := by
  cases t; simp [minimax, h]

mutual
theorem bestLeaf_V (hn : ∀ e v, nest e v = .ok (m e v)) : ∀ (t : Node), t.isFinished = false → ∃ l, Best nest m t l
  | mk e v tr ty s f cs, h => by
    obtain ⟨ls, hls, hB⟩ := bestLeafs_V hn cs
    by_cases hc : cs = []
    · subst hc
      refine ⟨mk e v tr ty s f [], ?_, .here rfl, h, ?_⟩
      · simp [bestLeaf]
      · simp [minimax, h, expr, var]
    · have hmm := @minimaxL_fold m (ty == .or) cs (fun c _ => minimax_finished) ls (hB.imp fun c l h => h.2.2.2)
      have hm : minimax m (mk e v tr ty s f cs) = minimaxL m (ty == .or) cs := by
        simp [minimax, h, hc]
      obtain ⟨c0, hc0, hu0⟩ := exists_unfinished h hc
      have hmem : ∀ c ∈ cs.filter (fun c => !c.isFinished), c ∈ cs ∧ c.isFinished = false := fun c hc => by
        simpa using List.mem_filter.1 hc
      unfold Best
      rw [hm, hmm]
      rw [bestLeaf]
      generalize hu : cs.filter (fun c => !c.isFinished) = u at hB hmem
      have hl : ∀ c l, c ∈ u → Best nest m c l → IsLeafOf l (mk e v tr ty s f cs) := fun c l hc hb =>
        .child (hmem c hc).1 hb.2.1
      cases hB with
      | nil =>
        have : c0 ∈ cs.filter (fun c => !c.isFinished) := by simp [hc0, hu0]
        rw [hu] at this; simp at this
      | @cons a b u ls' h1 hB =>
        cases hB with
        | nil =>
          refine ⟨b, ?_, hl a b (by simp) h1, h1.2.2.1, rfl⟩
          change (do let l ← bestLeafs nest cs; _) = _
          rw [hls]; rfl
        | @cons a2 b2 u ls' h2 hB =>
          simp only
          split
          · next hall =>
            -- children without unfinished children are leaves, so their best leaves are themselves
            have hself : List.Forall₂ (fun c l => c = l) (a :: a2 :: u) (b :: b2 :: ls') := by
              refine forall₂_of_mem (List.Forall₂.cons h1 (.cons h2 hB)) fun c hc l hb => ?_
              have hcu : c.isFinished = false := (hmem c hc).2
              have hemp : c.unfinishedChildren.isEmpty = true := List.all_eq_true.1 hall c hc
              cases c with
              | mk e' v' tr' ty' s' f' cs' =>
                have h0 : cs' = [] := by
                  by_contra hne
                  obtain ⟨d, hd, hdu⟩ := exists_unfinished hcu hne
                  have : d ∈ (mk e' v' tr' ty' s' f' cs').unfinishedChildren := by
                    simp [unfinishedChildren, children, hd, hdu]
                  rw [List.isEmpty_iff.1 hemp] at this
                  simp at this
                subst h0
                have := hb.1
                simp [bestLeaf] at this
                exact this
            have heq : a :: a2 :: u = b :: b2 :: ls' := List.forall₂_eq_eq_eq ▸ hself
            obtain ⟨t, ht, hb, hv⟩ := bestNesting_V (c := b) (r := b2 :: ls') hn (ty == .or)
            rw [heq]
            refine ⟨t, hb, ?_, ?_, by rw [hv]⟩
            · obtain ⟨c, hc, k⟩ := forall₂_right (List.Forall₂.cons h1 (.cons h2 hB)) t ht
              exact hl c t hc k
            · obtain ⟨c, hc, k⟩ := forall₂_right (List.Forall₂.cons h1 (.cons h2 hB)) t ht
              exact k.2.2.1
          · obtain ⟨t, ht, hb, hv⟩ := bestNesting_V (c := b) (r := b2 :: ls') hn (ty == .or)
            rw [hls]
            refine ⟨t, hb, ?_, ?_, by rw [hv]⟩
            · obtain ⟨c, hc, k⟩ := forall₂_right (List.Forall₂.cons h1 (.cons h2 hB)) t ht
              exact hl c t hc k
            · obtain ⟨c, hc, k⟩ := forall₂_right (List.Forall₂.cons h1 (.cons h2 hB)) t ht
              exact k.2.2.1
theorem bestLeafs_V (hn : ∀ e v, nest e v = .ok (m e v)) : ∀ (cs : List Node),
    ∃ ls, bestLeafs nest cs = .ok ls ∧ List.Forall₂ (Best nest m) (cs.filter fun c => !c.isFinished) ls
  | [] => ⟨[], rfl, .nil⟩
  | c :: r => by
    obtain ⟨ls, h1, h2⟩ := bestLeafs_V hn r
    have ih := bestLeaf_V hn c
    by_cases hc : c.isFinished = true
    · refine ⟨ls, ?_, ?_⟩
      · rw [bestLeafs, if_pos hc, h1]
      · simpa [List.filter_cons, hc] using h2
    · have hc' : c.isFinished = false := by simpa using hc
      obtain ⟨l, hl⟩ := ih hc'
      refine ⟨l :: ls, ?_, ?_⟩
      · rw [bestLeafs, if_neg hc, h1, hl.1]; rfl
      · simp only [List.filter_cons, hc', Bool.not_false, if_true]
        exact .cons hl h2
end

/-! ## No repeats -/

theorem noRepeatL_iff {O : Oracle} {as : List (Expr × Str)} : ∀ {cs : List Node},
    NoRepeatL O as cs ↔ ∀ c ∈ cs, NoRepeat O as c
  | [] => by simp [NoRepeatL]
  | c :: r => by simp [NoRepeatL, noRepeatL_iff (cs := r)]

/-- The problem of a node. -/
def problem (t : Node) : Expr × Str := (t.expr, t.var)

mutual
theorem modifyAt_problem {g : List Node → Node → Node} (hg : ∀ as t, (g as t).problem = t.problem ∧ (g as t).filler = t.filler) :
    ∀ (as : List Node) (p : List Nat) (t : Node),
      (modifyAt g as p t).problem = t.problem ∧ (modifyAt g as p t).filler = t.filler
  | as, [], t => by rw [modifyAt]; exact hg as t
  | as, i :: p, mk e v tr ty s f cs => by rw [modifyAt]; exact ⟨rfl, rfl⟩
end

mutual
theorem modifyAt_noRepeat {O : Oracle} {g : List Node → Node → Node}
    (hg : ∀ as t, NoRepeat O (as.map problem) t → NoRepeat O (as.map problem) (g as t)) :
    ∀ (as : List Node) (p : List Nat) (t : Node), NoRepeat O (as.map problem) t →
      NoRepeat O (as.map problem) (modifyAt g as p t)
  | as, [], t, h => by rw [modifyAt]; exact hg as t h
  | as, i :: p, mk e v tr ty s f cs, h => by
    rw [modifyAt]
    exact ⟨h.1, modifyChild_noRepeat hg (mk e v tr ty s f cs :: as) i p cs h.2⟩
theorem modifyChild_noRepeat {O : Oracle} {g : List Node → Node → Node}
    (hg : ∀ as t, NoRepeat O (as.map problem) t → NoRepeat O (as.map problem) (g as t)) :
    ∀ (as : List Node) (i : Nat) (p : List Nat) (cs : List Node), NoRepeatL O (as.map problem) cs →
      NoRepeatL O (as.map problem) (modifyChild g as i p cs)
  | _, _, _, [], _ => by simp [modifyChild, NoRepeatL]
  | as, 0, p, c :: r, h => by
    rw [modifyChild]; exact ⟨modifyAt_noRepeat hg as p c h.1, h.2⟩
  | as, i + 1, p, c :: r, h => by
    rw [modifyChild]; exact ⟨h.1, modifyChild_noRepeat hg as i p r h.2⟩
end

theorem addChild_noRepeat {O : Oracle} {c : Node} (hc : c.children = []) (as : List Node) (t : Node)
    (h : NoRepeat O (as.map problem) t) : NoRepeat O (as.map problem) (addChild O as c t) := by
  cases t with
  | mk e v tr ty s f cs =>
    rw [addChild]
    split
    · exact h
    · next hr =>
      refine ⟨h.1, ?_⟩
      rw [noRepeatL_iff]
      intro d hd
      rcases List.mem_append.1 hd with hd | hd
      · exact noRepeatL_iff.1 h.2 d hd
      · obtain rfl := List.mem_singleton.1 hd
        cases d with
        | mk e' v' tr' ty' s' f' cs' =>
          simp only [children] at hc
          subst hc
          refine ⟨fun hf p hp => ?_, trivial⟩
          subst hf
          simp only [refused, filler, Bool.not_false, Bool.true_and, Bool.not_eq_true, List.any_eq_false] at hr
          have hp' : p ∈ (mk e v tr ty s f cs :: as).map problem := hp
          obtain ⟨q, hq, rfl⟩ := List.mem_map.1 hp'
          simpa [problem, var, expr] using hr q hq

theorem setTypeSol_noRepeat {O : Oracle} {ty : NType} {s : Option Expr} (as : List (Expr × Str)) (t : Node)
    (h : NoRepeat O as t) : NoRepeat O as (setTypeSol ty s t) := by
  cases t; exact h

theorem noRepeat_within {O : Oracle} {n t : Node} (h : Within n t) : ∀ {as : List (Expr × Str)}, NoRepeat O as t →
    ∃ as', (∀ p ∈ as, p ∈ as') ∧ NoRepeat O as' n := by
  induction h with
  | here => exact fun h => ⟨_, fun _ hp => hp, h⟩
  | @child t c n hc _ ih =>
    intro as h
    cases t with
    | mk e v tr ty s f cs =>
      obtain ⟨as', h1, h2⟩ := ih (noRepeatL_iff.1 h.2 c hc)
      exact ⟨as', fun p hp => h1 p (List.mem_cons_of_mem _ hp), h2⟩

theorem noRepeat_descends {O : Oracle} {n p : Node} {as : List (Expr × Str)} (h : NoRepeat O as p) (hd : Descends n p)
    (hf : n.filler = false) : eqWithVar O p.var n.var p.expr n.expr = false := by
  obtain ⟨c, hc, hw⟩ := hd
  cases p with
  | mk e v tr ty s f cs =>
    obtain ⟨as', h1, h2⟩ := noRepeat_within hw (noRepeatL_iff.1 h.2 c hc)
    cases n with
    | mk e' v' tr' ty' s' f' cs' => exact h2.1 hf (e, v) (h1 _ (by simp))

theorem mut_noRepeat {O : Oracle} {μ : Mut} (hμ : μ.fresh) {t : Node} (h : NoRepeat O [] t) :
    NoRepeat O [] (μ.apply O t) := by
  cases μ with
  | add p c => exact modifyAt_noRepeat (fun as t => addChild_noRepeat hμ as t) [] p t h
  | set p ty s => exact modifyAt_noRepeat (fun as t => setTypeSol_noRepeat _ t) [] p t h

theorem muts_noRepeat {O : Oracle} : ∀ (μs : List Mut), (∀ μ ∈ μs, μ.fresh) → ∀ {t : Node}, NoRepeat O [] t →
    NoRepeat O [] (μs.foldl (fun t μ => μ.apply O t) t)
  | [], _, _, h => h
  | μ :: r, hf, t, h => muts_noRepeat r (fun μ hμ => hf μ (List.mem_cons_of_mem _ hμ)) (mut_noRepeat (hf μ (by simp)) h)

end Node
end Simpy
