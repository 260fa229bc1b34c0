import Verif.Model.Engine
import Verif.Spec.Tree
import Verif.Proofs.TreeSound
import Verif.Proofs.Nesting
import Verif.Proofs.Basic

/-! # The search works on unfinished leaves -/

namespace Simpy
open Expr
namespace Node

/-! ## Paths -/

theorem mapIdxR_length {f : Nat → Node → R Node} : ∀ {cs cs' : List Node} {i : Nat}, mapIdxR f i cs = .ok cs' →
    cs'.length = cs.length
  | [], _, _, h => by cases h; rfl
  | c :: r, cs', i, h => by
    rw [mapIdxR] at h
    obtain ⟨c', h1, h⟩ := bind_ok.1 h
    obtain ⟨r', h2, h⟩ := bind_ok.1 h
    cases pure_ok.1 h
    simp [mapIdxR_length h2]

theorem at_append : ∀ (p q : List Nat) (t : Node), at? (p ++ q) t = (at? p t).bind (at? q)
  | [], q, t => rfl
  | i :: p, q, t => by
    simp only [List.cons_append, at?]
    cases h : t.children[i]? with
    | none => rfl
    | some c => simp [at_append p q c]

theorem at_replaceAt : ∀ {p : List Nat} {t c : Node} (t' : Node), at? p t = some c → at? p (replaceAt t' p t) = some t'
  | [], _, _, _, _ => rfl
  | i :: p, mk e v tr ty s f cs, c, t', h => by
    simp only [at?, Node.children] at h
    obtain ⟨d, hd, h⟩ := Option.bind_eq_some_iff.1 h
    simp only [replaceAt, hd, at?, Node.children]
    rw [List.getElem?_set_self (List.getElem?_eq_some_iff.1 hd).1]
    simpa using at_replaceAt t' h

theorem lineage_at : ∀ {p : List Nat} {as as' : List Node} {t l : Node}, lineage as p t = some (l, as') → at? p t = some l
  | [], _, _, _, _, h => by cases h; rfl
  | i :: p, as, as', t, l, h => by
    simp only [lineage] at h
    obtain ⟨d, hd, h⟩ := Option.bind_eq_some_iff.1 h
    simp [at?, hd, lineage_at h]

theorem at_lineage : ∀ {p : List Nat} {as : List Node} {t l : Node}, at? p t = some l → ∃ as', lineage as p t = some (l, as')
  | [], _, _, _, h => by cases h; exact ⟨_, rfl⟩
  | i :: p, as, t, l, h => by
    simp only [at?] at h
    obtain ⟨d, hd, h⟩ := Option.bind_eq_some_iff.1 h
    obtain ⟨as', h'⟩ := at_lineage (as := t :: as) h
    exact ⟨as', by simp [lineage, hd, h']⟩

/-! ## `Later` -/

mutual
theorem later_refl : ∀ t : Node, Later t t
  | mk _ _ _ _ _ _ cs => .same (later_reflL cs)
theorem later_reflL : ∀ cs : List Node, List.Forall₂ Later cs cs
  | [] => .nil
  | c :: r => .cons (later_refl c) (later_reflL r)
end

theorem finished_congr {e v tr ty s f e' v' tr' s' f'} :
    (mk e v tr ty s f []).isFinished = (mk e' v' tr' ty s' f' []).isFinished := by
  cases ty <;> rfl

mutual
theorem later_trans : ∀ {a b c : Node}, Later a b → Later b c → Later a c
  | mk e v tr ty s f cs, b, c, h1, h2 => by
    cases h1 with
    | work h h' => exact .work h h'
    | same h1 =>
      cases h2 with
      | work h h' =>
        have hb : _ = [] := h
        subst hb
        cases h1
        exact .work rfl (by rw [← h']; exact finished_congr)
      | same h2 => exact .same (later_transL h1 h2)
theorem later_transL : ∀ {as bs cs : List Node}, List.Forall₂ Later as bs → List.Forall₂ Later bs cs → List.Forall₂ Later as cs
  | [], _, _, h1, h2 => by cases h1; exact h2
  | a :: r, _, _, h1, h2 => by
    cases h1 with
    | cons a1 b1 =>
      cases h2 with
      | cons a2 b2 => exact .cons (later_trans a1 a2) (later_transL b1 b2)
end

theorem forall₂_set {α : Type} {P : α → α → Prop} (hr : ∀ a, P a a) : ∀ {l : List α} {i : Nat} {a b : α}, l[i]? = some a → P a b →
    List.Forall₂ P l (l.set i b)
  | [], _, _, _, h, _ => by simp at h
  | c :: r, 0, a, b, h, hp => by
    simp at h; subst h
    exact .cons hp (List.forall₂_same.2 fun _ _ => hr _)
  | c :: r, i + 1, a, b, h, hp => .cons (hr _) (forall₂_set hr (by simpa using h) hp)

theorem later_at : ∀ {p : List Nat} {t c c' : Node}, at? p t = some c → Later c c' → Later t (replaceAt c' p t)
  | [], _, _, _, h, hl => by cases h; exact hl
  | i :: p, mk e v tr ty s f cs, c, c', h, hl => by
    simp only [at?, Node.children] at h
    obtain ⟨d, hd, h⟩ := Option.bind_eq_some_iff.1 h
    simp only [replaceAt, hd]
    exact .same (forall₂_set later_refl hd (later_at h hl))

mutual
theorem tableAll_later {O : Oracle} {n : Nat} {fail : Bool} : ∀ {t t' : Node}, tableAll O n fail t = .ok t' → Later t t'
  | mk e v tr ty s f [], t', h => by
    cases ty with
    | solution => rw [tableAll] at h; cases h; exact later_refl _
    | failure => rw [tableAll] at h; cases h; exact later_refl _
    | _ => exact .work rfl rfl
  | mk e v tr ty s f (c :: cs), t', h => by
    rw [tableAll] at h
    split at h
    · cases h
    · next cs' h1 => cases h; exact .same (tableAllL_later h1)
theorem tableAllL_later {O : Oracle} {n : Nat} {fail : Bool} : ∀ {cs cs' : List Node}, tableAllL O n fail cs = .ok cs' →
    List.Forall₂ Later cs cs'
  | [], _, h => by cases h; exact .nil
  | c :: cs, _, h => by
    rw [tableAllL] at h
    split at h
    · cases h
    · next c' h1 =>
      split at h
      · cases h
      · next cs' h2 => cases h; exact .cons (tableAll_later h1) (tableAllL_later h2)
end

/-! ## Unfinished leaves -/

/-- `l` is an unfinished leaf. -/
def Open (l : Node) : Prop := l.children = [] ∧ l.isFinished = false

mutual
theorem mem_unfinishedPaths : ∀ (t : Node) (q : List Nat × Node), q ∈ unfinishedPaths t ↔ at? q.1 t = some q.2 ∧ Open q.2
  | mk e v tr ty s f [], (p, l) => by
    rw [unfinishedPaths]
    constructor
    · intro h
      split at h
      · simp at h
      · next hf =>
        simp only [List.mem_singleton, Prod.mk.injEq] at h
        obtain ⟨rfl, rfl⟩ := h
        exact ⟨rfl, rfl, by simpa using hf⟩
    · rintro ⟨h1, h2, h3⟩
      cases p with
      | nil => cases h1; simp at h3; simp [h3]
      | cons i p => simp [at?, Node.children] at h1
  | mk e v tr ty s f (c :: r), (p, l) => by
    rw [unfinishedPaths, mem_unfinishedPathsL 0 (c :: r) (p, l)]
    constructor
    · rintro ⟨i, p', d, rfl, hd, h1, h2⟩
      simp only [Nat.zero_add] at *
      exact ⟨by simp [at?, Node.children, hd, h1], h2⟩
    · rintro ⟨h1, h2⟩
      cases p with
      | nil => cases h1; cases h2.1
      | cons i p =>
        simp only [at?, Node.children] at h1
        obtain ⟨d, hd, h1⟩ := Option.bind_eq_some_iff.1 h1
        exact ⟨i, p, d, by simp, hd, h1, h2⟩
theorem mem_unfinishedPathsL : ∀ (k : Nat) (cs : List Node) (q : List Nat × Node), q ∈ unfinishedPathsL k cs ↔
    ∃ i p d, q.1 = (k + i) :: p ∧ cs[i]? = some d ∧ at? p d = some q.2 ∧ Open q.2
  | k, [], q => by simp [unfinishedPathsL]
  | k, c :: r, (p, l) => by
    have a := mem_unfinishedPaths c
    have b := mem_unfinishedPathsL (k + 1) r (p, l)
    simp only [unfinishedPathsL, List.mem_append, List.mem_map, b]
    constructor
    · rintro (⟨q, hq, he⟩ | ⟨i, p', d, h1, h2, h3, h4⟩)
      · obtain ⟨h1, h2⟩ := (a q).1 hq
        simp only [Prod.mk.injEq] at he
        obtain ⟨rfl, rfl⟩ := he
        exact ⟨0, q.1, c, rfl, rfl, h1, h2⟩
      · exact ⟨i + 1, p', d, by rw [h1]; congr 1; omega, by simpa using h2, h3, h4⟩
    · rintro ⟨i, p', d, h1, h2, h3, h4⟩
      cases i with
      | zero =>
        simp at h1 h2; subst h1 h2
        exact .inl ⟨(p', l), (a (p', l)).2 ⟨h3, h4⟩, rfl⟩
      | succ i => exact .inr ⟨i, p', d, by rw [h1]; congr 1; omega, by simpa using h2, h3, h4⟩
end

theorem leaf_path {l t : Node} (h : IsLeafOf l t) : ∃ p, at? p t = some l ∧ l.children = [] := by
  induction h with
  | here h => exact ⟨[], rfl, h⟩
  | @child t c l hc _ ih =>
    obtain ⟨p, h1, h2⟩ := ih
    obtain ⟨i, hi⟩ := List.mem_iff_getElem?.1 hc
    exact ⟨i :: p, by simp [at?, hi, h1], h2⟩

theorem unfinishedPaths_ne {t : Node} (h : t.isFinished = false) : unfinishedPaths t ≠ [] := by
  obtain ⟨l, h1, h2⟩ := unfinished_leaf t h
  obtain ⟨p, h3, h4⟩ := leaf_path h1
  have := (mem_unfinishedPaths t (p, l)).2 ⟨h3, h4, h2⟩
  intro hn
  rw [hn] at this
  simp at this

/-! ## Best leaf -/

theorem bestNestingP_mem {nest : Expr → Str → R Nat} {mn : Bool} {ns : List (List Nat × Node)} {b : List Nat × Node}
    (h : bestNestingP nest mn ns = .ok b) : b ∈ ns := by
  unfold bestNestingP at h
  obtain ⟨rs, -, h⟩ := bind_ok.1 h
  obtain ⟨k, -, h⟩ := bind_ok.1 h
  split at h
  · next t ht => cases pure_ok.1 h; exact List.mem_of_getElem? ht
  · cases h

theorem bestNestingP_map {nest : Expr → Str → R Nat} {mn : Bool} {ns : List (List Nat × Node)} :
    (bestNestingP nest mn ns).map (·.2) = bestNesting nest mn (ns.map (·.2)) := by
  unfold bestNestingP bestNesting
  have h : mapR (fun t : Node => nest t.expr t.var) (ns.map (·.2)) = mapR (fun t : List Nat × Node => nest t.2.expr t.2.var) ns := by
    induction ns with
    | nil => rfl
    | cons a r ih => simp only [List.map_cons, mapR, ih]
  rw [h]
  cases mapR (fun t : List Nat × Node => nest t.2.expr t.2.var) ns with
  | error e => rfl
  | ok rs =>
    show (bestOf mn rs >>= _).map _ = (bestOf mn rs >>= _)
    cases bestOf mn rs with
    | error e => rfl
    | ok k =>
      simp only [bind, Except.bind, List.getElem?_map]
      cases ns[rs.idxOf k]? <;> rfl

theorem unfinishedKids_map : ∀ (i : Nat) (cs : List Node), (unfinishedKids i cs).map (·.2) = cs.filter fun c => !c.isFinished
  | _, [] => rfl
  | i, c :: r => by
    have := unfinishedKids_map (i + 1) r
    cases hf : c.isFinished <;> simp [unfinishedKids, hf, this]

theorem unfinishedKids_mem : ∀ {i : Nat} {cs : List Node} {q : List Nat × Node}, q ∈ unfinishedKids i cs →
    ∃ j, q.1 = [i + j] ∧ cs[j]? = some q.2
  | _, [], _, h => by simp [unfinishedKids] at h
  | i, c :: r, q, h => by
    rw [unfinishedKids] at h
    split_ifs at h with hf
    · obtain ⟨j, h1, h2⟩ := unfinishedKids_mem h
      exact ⟨j + 1, by rw [h1]; congr 1; omega, by simpa using h2⟩
    · rcases List.mem_cons.1 h with rfl | h
      · exact ⟨0, rfl, rfl⟩
      · obtain ⟨j, h1, h2⟩ := unfinishedKids_mem h
        exact ⟨j + 1, by rw [h1]; congr 1; omega, by simpa using h2⟩

mutual
theorem bestLeafP_map {nest : Expr → Str → R Nat} : ∀ t : Node, (bestLeafP nest t).map (·.2) = bestLeaf nest t
  | mk e v tr ty s f cs => by
    have ih := bestLeafsP_map (nest := nest) 0 cs
    rw [bestLeafP, bestLeaf]
    have hk := unfinishedKids_map 0 cs
    generalize cs.filter (fun c => !c.isFinished) = u at hk ⊢
    rcases u with _ | ⟨a, _ | ⟨b, r⟩⟩
    · rfl
    · rw [← ih]
      cases bestLeafsP nest 0 cs with
      | error e => rfl
      | ok l => cases l <;> rfl
    · by_cases hc : ((a :: b :: r).all fun c => c.unfinishedChildren.isEmpty) = true
      · simp only [hc, if_true]
        rw [← hk]; exact bestNestingP_map
      · simp only [hc, if_false, Bool.false_eq_true]
        rw [← ih]
        cases bestLeafsP nest 0 cs with
        | error e => rfl
        | ok l => exact bestNestingP_map
theorem bestLeafsP_map {nest : Expr → Str → R Nat} : ∀ (i : Nat) (cs : List Node),
    (bestLeafsP nest i cs).map (fun l => l.map (·.2)) = bestLeafs nest cs
  | _, [] => rfl
  | i, c :: r => by
    have h1 := bestLeafP_map (nest := nest) c
    have h2 := bestLeafsP_map (nest := nest) (i + 1) r
    rw [bestLeafsP, bestLeafs]
    split_ifs
    · exact h2
    · rw [← h1, ← h2]
      cases bestLeafP nest c with
      | error e => rfl
      | ok b =>
        cases bestLeafsP nest (i + 1) r with
        | error e => rfl
        | ok l => rfl
end

mutual
theorem bestLeafP_at {nest : Expr → Str → R Nat} : ∀ {t : Node} {b : List Nat × Node}, bestLeafP nest t = .ok b → at? b.1 t = some b.2
  | mk e v tr ty s f cs, b, h => by
    have ih := @bestLeafsP_at nest 0 cs
    rw [bestLeafP] at h
    have key : ∀ l, bestLeafsP nest 0 cs = .ok l → b ∈ l → at? b.1 (mk e v tr ty s f cs) = some b.2 := by
      intro l hl hb
      obtain ⟨j, p, d, h1, h2, h3⟩ := ih hl b hb
      rw [h1]
      simp [at?, Node.children, h2, h3]
    split at h
    · cases h; rfl
    · obtain ⟨l, h1, h⟩ := bind_ok.1 h
      split at h
      · cases pure_ok.1 h; exact key _ h1 (by simp)
      · cases h
    · split_ifs at h
      · obtain ⟨j, h1, h2⟩ := unfinishedKids_mem (bestNestingP_mem h)
        rw [h1]
        simp [at?, Node.children, h2]
      · obtain ⟨l, h1, h⟩ := bind_ok.1 h
        exact key l h1 (bestNestingP_mem h)
theorem bestLeafsP_at {nest : Expr → Str → R Nat} : ∀ {i : Nat} {cs : List Node} {l : List (List Nat × Node)},
    bestLeafsP nest i cs = .ok l → ∀ b ∈ l, ∃ j p d, b.1 = (i + j) :: p ∧ cs[j]? = some d ∧ at? p d = some b.2
  | _, [], _, h => by cases h; simp
  | i, c :: r, l, h => by
    have ih1 := @bestLeafP_at nest c
    have ih2 := @bestLeafsP_at nest (i + 1) r
    rw [bestLeafsP] at h
    have key : ∀ l, bestLeafsP nest (i + 1) r = .ok l → ∀ b ∈ l, ∃ j p d, b.1 = (i + j) :: p ∧ (c :: r)[j]? = some d ∧ at? p d = some b.2 := by
      intro l hl b hb
      obtain ⟨j, p, d, h1, h2, h3⟩ := ih2 hl b hb
      exact ⟨j + 1, p, d, by rw [h1]; congr 1; omega, by simpa using h2, h3⟩
    split_ifs at h
    · exact key _ h
    · obtain ⟨b, h1, h⟩ := bind_ok.1 h
      obtain ⟨l', h2, h⟩ := bind_ok.1 h
      cases pure_ok.1 h
      intro b' hb'
      rcases List.mem_cons.1 hb' with rfl | hb'
      · exact ⟨0, b.1, c, rfl, rfl, ih1 h1⟩
      · exact key _ h2 b' hb'
end

theorem nest_total (O : Oracle) : ∃ m : Expr → Str → Nat, ∀ e v, nesting O (some v) e = .ok (m e v) := by
  have hk : ∀ e v, ∃ m, nesting O (some v) e = .ok m := fun e v => by
    obtain ⟨m, k, h⟩ := nest_ok (O := O) v e
    exact ⟨m, h.plain⟩
  choose k hk using hk
  exact ⟨k, hk⟩

/-- On an unfinished tree the breadth-first choice is an unfinished leaf. -/
theorem bfNext_open {O : Oracle} {root : Node} (h : root.isFinished = false) :
    ∃ q l, bfNext O root = .ok (.node q) ∧ at? q root = some l ∧ Open l := by
  unfold bfNext
  split
  · next q hq =>
    have := (mem_unfinishedPaths root q).1 (by rw [hq]; simp)
    exact ⟨q.1, q.2, rfl, this⟩
  · obtain ⟨m, hm⟩ := nest_total O
    obtain ⟨l, h1, h2, h3, -⟩ := bestLeaf_V (nest := fun e v => nesting O (some v) e) hm root h
    rw [← bestLeafP_map] at h1
    cases hb : bestLeafP (fun e v => nesting O (some v) e) root with
    | error e => rw [hb] at h1; cases h1
    | ok b =>
      rw [hb] at h1
      cases h1
      obtain ⟨p, -, hp⟩ := leaf_path h2
      exact ⟨b.1, b.2, rfl, bestLeafP_at hb, hp, h3⟩

theorem dfPick_open {O : Oracle} {root t : Node} {q : List Nat} {l : List (List Nat × Node)} {nx : Next}
    (hf : root.isFinished = false) (hq : at? q root = some t) (hl : ∀ b ∈ l, at? b.1 t = some b.2 ∧ Open b.2)
    (h : dfPick O root q l = .ok nx) : ∃ q' l', nx = .node q' ∧ at? q' root = some l' ∧ Open l' := by
  unfold dfPick at h
  obtain ⟨b, h1, h⟩ := bind_ok.1 h
  obtain ⟨hb1, hb2⟩ := hl b (bestNestingP_mem h1)
  split at h
  · cases h
  · obtain ⟨bad, -, h⟩ := bind_ok.1 h
    split_ifs at h
    · obtain ⟨q', l', h2, h3⟩ := bfNext_open (O := O) hf
      rw [h2] at h
      cases h
      exact ⟨q', l', rfl, h3⟩
    · cases pure_ok.1 h
      exact ⟨q ++ b.1, b.2, rfl, by simp [at_append, hq, hb1], hb2⟩

/-- A node with a failed child that the loop passes on its way up is failed. -/
theorem passUp_failed {t c : Node} {i : Nat} (hc : t.children[i]? = some c) (hf : c.isFailed = true) (hp : passUp t = true) :
    t.isFailed = true := by
  cases t with
  | mk e v tr ty s f cs =>
    have hc : cs[i]? = some c := hc
    have hm := List.mem_of_getElem? hc
    have hne : cs ≠ [] := by rintro rfl; simp at hm
    simp only [passUp, Node.children, type, Bool.or_eq_true, beq_iff_eq] at hp
    have hex : ∃ c ∈ cs, c.isFailed = true := ⟨c, hm, hf⟩
    have hall : cs.length = 1 → ∀ c ∈ cs, c.isFailed = true := by
      intro hl c' hc'
      obtain ⟨d, rfl⟩ := List.length_eq_one_iff.1 hl
      simp only [List.mem_singleton] at hm hc'
      rw [hc', ← hm]; exact hf
    cases ty with
    | failure => simp [isFailed]
    | or =>
      have : cs.length = 1 := by simpa using hp
      simp only [isFailed, Bool.and_eq_true, isEmpty_false, allFailed_iff]
      exact ⟨hne, hall this⟩
    | _ =>
      simp only [isFailed, Bool.and_eq_true, isEmpty_false, anyFailed_iff]
      exact ⟨hne, hex⟩

/-- On an unfinished tree the depth-first choice is "SOLVED" or an unfinished leaf. -/
theorem dfNext_open {O : Oracle} {root : Node} (hf : root.isFinished = false) : ∀ (r : List Nat) {up : Bool} {nx : Next},
    (up = true → ∀ t, at? r.reverse root = some t → ∃ (i : Nat) (c : Node), t.children[i]? = some c ∧ c.isFailed = true) →
    dfNext O root up r = .ok nx → nx = .solved ∨ ∃ q l, nx = .node q ∧ at? q root = some l ∧ Open l
  | r, up, nx, hup, h => by
    rw [dfNext.eq_def] at h
    dsimp only at h
    cases ht : at? r.reverse root with
    | none => rw [ht] at h; cases h
    | some t =>
      rw [ht] at h
      simp only at h
      have climb : t.isFailed = true → ∀ i r', r = i :: r' → ∀ t', at? r'.reverse root = some t' →
          ∃ (i : Nat) (c : Node), t'.children[i]? = some c ∧ c.isFailed = true := by
        rintro hfl i r' rfl t' ht'
        rw [List.reverse_cons, at_append, ht'] at ht
        simp only [Option.bind_some, at?] at ht
        obtain ⟨d, hd, ht⟩ := Option.bind_eq_some_iff.1 ht
        cases ht
        exact ⟨i, _, hd, hfl⟩
      have stop : t.isFailed = true → r ≠ [] := by
        rintro hfl rfl
        cases ht
        rw [finished_false] at hf
        rw [hf.2] at hfl; cases hfl
      split at h
      · next hc =>
        rw [Bool.and_eq_true] at hc
        obtain ⟨i, c, h1, h2⟩ := hup hc.1 t ht
        have hfl := passUp_failed h1 h2 hc.2
        cases r with
        | nil => exact absurd rfl (stop hfl)
        | cons i r' => exact dfNext_open hf r' (fun _ => climb hfl i r' rfl) h
      · split at h
        · split_ifs at h with hfl
          · cases r with
            | nil => exact absurd rfl (stop hfl)
            | cons i r' => exact dfNext_open hf r' (fun _ => climb hfl i r' rfl) h
          · cases h; exact .inl rfl
        · obtain ⟨q', l', h1, h2⟩ := dfPick_open hf ht (fun b hb => (mem_unfinishedPaths t b).1 hb) h
          exact .inr ⟨q', l', h1, h2⟩
termination_by r => r.length

/-! ## One cycle -/

theorem replaceAt_same {t t' : Node} (h1 : t'.type = t.type) (h2 : t'.children = t.children) : ∀ {w : List Nat} {root : Node},
    at? w root = some t → ∀ q l, at? q root = some l → ∃ l', at? q (replaceAt t' w root) = some l' ∧ l'.type = l.type ∧
      l'.children.length = l.children.length
  | [], root, ht => by
    cases ht
    intro q l hl
    cases q with
    | nil => cases hl; exact ⟨t', rfl, h1, by rw [h2]⟩
    | cons i q => exact ⟨l, by simp only [replaceAt, at?, h2]; exact hl, rfl, rfl⟩
  | i :: w, mk e v tr ty s f cs, ht => by
    simp only [at?, Node.children] at ht
    obtain ⟨d, hd, ht⟩ := Option.bind_eq_some_iff.1 ht
    intro q l hl
    simp only [replaceAt, hd]
    cases q with
    | nil => cases hl; exact ⟨_, rfl, rfl, by simp [Node.children]⟩
    | cons k q =>
      simp only [at?, Node.children] at hl ⊢
      obtain ⟨d', hd', hl⟩ := Option.bind_eq_some_iff.1 hl
      by_cases hk : i = k
      · subst hk
        rw [hd] at hd'
        cases hd'
        rw [List.getElem?_set_self (List.getElem?_eq_some_iff.1 hd).1]
        exact replaceAt_same h1 h2 ht q l hl
      · rw [List.getElem?_set_ne hk, hd']
        exact ⟨l, hl, rfl, rfl⟩

theorem rescale_later {O : Oracle} {n : Nat} {p : List Nat} {sc : Option (Nat × Expr)} {root root' : Node}
    (h : rescale O n p sc root = .ok root') : Later root root' ∧ (∀ q l, at? q root = some l → ∃ l', at? q root' = some l' ∧
      l'.type = l.type ∧ l'.children.length = l.children.length) := by
  cases sc with
  | none => cases h; exact ⟨later_refl _, fun q l hl => ⟨l, hl, rfl, rfl⟩⟩
  | some jf =>
    obtain ⟨j, f⟩ := jf
    simp only [rescale] at h
    split at h
    · cases h
    · next t ht =>
      split at h
      · cases h
      · next s hs =>
        obtain ⟨r, -, h⟩ := bind_ok.1 h
        cases pure_ok.1 h
        refine ⟨later_at ht ?_, replaceAt_same ?_ ?_ ht⟩
        all_goals cases t
        · exact .same (later_reflL _)
        · rfl
        · rfl

/-- What a cycle does to the leaf it works on, if the table did not solve everything. -/
theorem heuristically_works {O : Oracle} {n : Nat} {ν : Supply} {as : List Node} {p : List Nat} {t t' : Node}
    {sc : Option (Nat × Expr)} (h : heuristically O n ν as p t = .ok (t', sc)) : t'.isFinished = true ∨ t'.children ≠ [] := by
  unfold heuristically at h
  obtain ⟨⟨t1, sc1⟩, -, h⟩ := bind_ok.1 h
  dsimp only at h
  have key : ∀ (t2 : Node) (g : Nat → Node → R Node), ¬t1.children.isEmpty = true → t2.children = t1.children →
      (do let cs ← mapIdxR g 0 t2.children
          return (t2.withChildren cs, sc1)) = Except.ok (t', sc) → t'.children ≠ [] := by
    intro t2 g h2 ht h
    obtain ⟨cs, h3, h⟩ := bind_ok.1 h
    cases pure_ok.1 h
    have := mapIdxR_length h3
    cases t2
    simp only [withChildren, Node.children] at this ht ⊢
    rw [ht] at this
    intro hcs
    rw [hcs] at this
    rw [List.isEmpty_iff] at h2
    exact h2 (List.length_eq_zero_iff.1 this.symm)
  split_ifs at h with h1 h2
  · cases pure_ok.1 h; left; simp [isFinished, h1]
  · cases pure_ok.1 h; left
    cases t1
    simp [setType, isFinished, isFailed]
  · exact .inr (key _ _ h2 (by cases t1; rfl) h)
  · exact .inr (key _ _ h2 rfl h)

/-- A leaf that the table does not leave unfinished, is finished. -/
theorem tableAll_open {O : Oracle} {n : Nat} : ∀ {t t' : Node}, tableAll O n false t = .ok t' → ∀ q l, at? q t = some l → Open l →
    ∃ l', at? q t' = some l' ∧ l'.children = [] ∧ (l' = l ∨ l'.isFinished = true)
  | mk e v tr ty s f [], t', h, q, l, hl, ho => by
    cases q with
    | cons i q => simp [at?, Node.children] at hl
    | nil =>
      cases hl
      have key : (match checkTable O n v e with
          | .error er => .error er
          | .ok (some r) => .ok (mk e v tr .solution (some r) f [])
          | .ok none => .ok (mk e v tr (if false = true then .failure else ty) s f [])) = Except.ok t' := by
        obtain ⟨-, ho⟩ := ho
        cases ty <;> first | (simp [isFinished, isSolved, isFailed] at ho; done) | exact h
      split at key
      · cases key
      · cases key; exact ⟨_, rfl, rfl, .inr (by simp [isFinished, isSolved])⟩
      · cases key; exact ⟨_, rfl, rfl, .inl (by simp)⟩
  | mk e v tr ty s f (c :: cs), t', h, q, l, hl, ho => by
    rw [tableAll] at h
    split at h
    · cases h
    · next cs' h1 =>
      cases h
      cases q with
      | nil => cases hl; cases ho.1
      | cons i q =>
        simp only [at?, Node.children] at hl ⊢
        obtain ⟨d, hd, hl⟩ := Option.bind_eq_some_iff.1 hl
        obtain ⟨d', h2, h3⟩ := tableAllL_get h1 hd
        rw [h2]
        exact tableAll_open h3 q l hl ho
where
  tableAllL_get {O : Oracle} {n : Nat} : ∀ {cs cs' : List Node} {i : Nat} {d : Node}, tableAllL O n false cs = .ok cs' →
      cs[i]? = some d → ∃ d', cs'[i]? = some d' ∧ tableAll O n false d = .ok d'
    | [], _, _, _, _, hd => by simp at hd
    | c :: cs, _, i, d, h, hd => by
      rw [tableAllL] at h
      split at h
      · cases h
      · next c' h1 =>
        split at h
        · cases h
        · next cs' h2 =>
          cases h
          cases i with
          | zero => simp at hd; subst hd; exact ⟨c', rfl, h1⟩
          | succ i =>
            obtain ⟨d', a, b⟩ := tableAllL_get (i := i) h2 (by simpa using hd)
            exact ⟨d', by simpa using a, b⟩

/-- The node a cycle is called on has an unfinished leaf. -/
def Workable (root : Node) (p : List Nat) : Prop := ∃ t, at? p root = some t ∧ unfinishedPaths t ≠ []

theorem cycle_effect {O : Oracle} {n : Nat} {ν : Supply} {bf : Bool} {root root' : Node} {p : List Nat} {nx : Next}
    (h : cycle O n ν bf root p = .ok (root', nx)) :
    Later root root' ∧ (root'.isFinished = false → nx = .solved ∨ ∃ q l, nx = .node q ∧ at? q root' = some l ∧ Open l) := by
  unfold cycle at h
  split at h
  · cases h
  · next t ht =>
    obtain ⟨t1, h1, h⟩ := bind_ok.1 h
    have L1 : Later root (replaceAt t1 p root) := later_at ht (tableAll_later h1)
    split at h
    · cases pure_ok.1 h
      exact ⟨L1, fun _ => .inl rfl⟩
    · next q rest hq =>
      have hqo := (mem_unfinishedPaths t1 q).1 (by rw [hq]; simp)
      dsimp only at h
      split at h
      · cases h
      · next l as hl =>
        obtain ⟨⟨l', sc⟩, h2, h⟩ := bind_ok.1 h
        obtain ⟨root2, h3, h⟩ := bind_ok.1 h
        obtain ⟨nx', h4, h⟩ := bind_ok.1 h
        cases pure_ok.1 h
        have hla := lineage_at hl
        have hle : l = q.2 := by
          rw [at_append, at_replaceAt t1 ht] at hla
          simp only [Option.bind_some] at hla
          exact Option.some.inj (hla.symm.trans hqo.1)
        subst hle
        have L2 := later_at hla (.work hqo.2.1 hqo.2.2 : Later q.2 l')
        refine ⟨later_trans L1 (later_trans L2 (rescale_later h3).1), fun hf => ?_⟩
        unfold nextNode at h4
        split_ifs at h4
        · obtain ⟨q', l2, h5, h6⟩ := bfNext_open (O := O) hf
          rw [h5] at h4; cases h4
          exact .inr ⟨q', l2, rfl, h6⟩
        · exact dfNext_open hf _ (by simp) h4

/-- A cycle makes progress: an unfinished leaf at or below the node it is called on is finished afterwards or has children. -/
theorem cycle_progress {O : Oracle} {n : Nat} {ν : Supply} {bf : Bool} {root root' : Node} {p : List Nat} {nx : Next}
    (hw : Workable root p) (h : cycle O n ν bf root p = .ok (root', nx)) :
    ∃ q l l', p <+: q ∧ at? q root = some l ∧ Open l ∧ at? q root' = some l' ∧ (l'.isFinished = true ∨ l'.children ≠ []) := by
  obtain ⟨t, ht, hne⟩ := hw
  unfold cycle at h
  rw [ht] at h
  obtain ⟨t1, h1, h⟩ := bind_ok.1 h
  split at h
  · next hu =>
    cases pure_ok.1 h
    obtain ⟨b, hb⟩ := List.exists_mem_of_ne_nil _ hne
    obtain ⟨hb1, hb2⟩ := (mem_unfinishedPaths t b).1 hb
    obtain ⟨l', h2, h3, h4⟩ := tableAll_open h1 _ _ hb1 hb2
    refine ⟨p ++ b.1, b.2, l', List.prefix_append _ _, by simp [at_append, ht, hb1], hb2,
      by simp [at_append, at_replaceAt t1 ht, h2], .inl ?_⟩
    rcases h4 with rfl | h4
    · have := (mem_unfinishedPaths t1 (b.1, b.2)).2 ⟨h2, hb2⟩
      rw [hu] at this
      simp at this
    · exact h4
  · next q rest hq =>
    have hqo := (mem_unfinishedPaths t1 q).1 (by rw [hq]; simp)
    dsimp only at h
    split at h
    · cases h
    · next l as hl =>
      obtain ⟨⟨l', sc⟩, h2, h⟩ := bind_ok.1 h
      obtain ⟨root2, h3, h⟩ := bind_ok.1 h
      obtain ⟨nx', h4, h⟩ := bind_ok.1 h
      cases pure_ok.1 h
      have hla := lineage_at hl
      obtain ⟨l2, h5, h6, h7⟩ := (rescale_later h3).2 _ _ (at_replaceAt l' hla)
      have hold : ∃ l0, at? q.1 t = some l0 ∧ Open l0 := by
        exact tableAll_back h1 _ _ hqo.1 hqo.2
      obtain ⟨l0, h8, h9⟩ := hold
      refine ⟨p ++ q.1, l0, l2, List.prefix_append _ _, by simp [at_append, ht, h8], h9, h5, ?_⟩
      rcases heuristically_works h2 with hw | hw
      · by_cases hc : l2.children = []
        · left
          rw [hc] at h7
          have hc' : l'.children = [] := List.length_eq_zero_iff.1 h7.symm
          cases l2; cases l'
          simp only [Node.children, type] at hc hc' h6
          subst hc hc' h6
          rw [← hw]; exact finished_congr
        · exact .inr hc
      · right
        intro hc
        rw [hc] at h7
        exact hw (List.length_eq_zero_iff.1 h7.symm)
where
  tableAll_back {O : Oracle} {n : Nat} : ∀ {t t' : Node}, tableAll O n false t = .ok t' → ∀ q l, at? q t' = some l → Open l →
      ∃ l', at? q t = some l' ∧ Open l'
    | mk e v tr ty s f [], t', h, q, l, hl, ho => by
      have hc : t'.children = [] ∧ (Open t' → Open (mk e v tr ty s f [])) := by
        have key : (t' = mk e v tr ty s f []) ∨ t'.children = [] ∧ t'.isFinished = true := by
          have gen : (match checkTable O n v e with
              | .error er => .error er
              | .ok (some r) => .ok (mk e v tr .solution (some r) f [])
              | .ok none => .ok (mk e v tr (if false = true then .failure else ty) s f [])) = Except.ok t' →
              (t' = mk e v tr ty s f []) ∨ t'.children = [] ∧ t'.isFinished = true := by
            intro key
            split at key
            · cases key
            · cases key; exact .inr ⟨rfl, by simp [isFinished, isSolved]⟩
            · cases key; exact .inl (by simp)
          cases ty with
          | solution => rw [tableAll] at h; cases h; exact .inl rfl
          | failure => rw [tableAll] at h; cases h; exact .inl rfl
          | _ => exact gen h
        rcases key with rfl | ⟨a, b⟩
        · exact ⟨rfl, id⟩
        · exact ⟨a, fun ho => by rw [ho.2] at b; cases b⟩
      cases q with
      | nil => cases hl; exact ⟨_, rfl, hc.2 ho⟩
      | cons i q => simp [at?, hc.1] at hl
    | mk e v tr ty s f (c :: cs), t', h, q, l, hl, ho => by
      rw [tableAll] at h
      split at h
      · cases h
      · next cs' h1 =>
        cases h
        cases q with
        | nil =>
          cases hl
          have := (tableAllL_later h1).length_eq
          rw [show cs' = [] from ho.1] at this
          simp at this
        | cons i q =>
          simp only [at?, Node.children] at hl ⊢
          obtain ⟨d', hd', hl⟩ := Option.bind_eq_some_iff.1 hl
          have hi : i < (c :: cs).length := by
            rw [(tableAllL_later h1).length_eq]; exact (List.getElem?_eq_some_iff.1 hd').1
          obtain ⟨d2, h2, h3⟩ := tableAll_open.tableAllL_get h1 (List.getElem?_eq_getElem hi)
          rw [hd'] at h2
          cases h2
          rw [List.getElem?_eq_getElem hi]
          have := tableAll_back h3 q l hl ho
          simpa using this

end Node
end Simpy

namespace Simpy
open Expr
namespace Node

/-! ## The start -/

mutual
/-- No SOLUTION or FAILURE in the tree. -/
def fresh : Node → Bool
  | mk _ _ _ ty _ _ cs => (ty != .solution && ty != .failure) && freshL cs
def freshL : List Node → Bool
  | [] => true
  | c :: r => fresh c && freshL r
end

theorem freshL_iff : ∀ {cs : List Node}, freshL cs = true ↔ ∀ c ∈ cs, fresh c = true
  | [] => by simp [freshL]
  | c :: r => by simp [freshL, freshL_iff (cs := r)]

mutual
theorem fresh_open : ∀ (t : Node), fresh t = true → t.isSolved = false ∧ t.isFailed = false
  | mk e v tr ty s f cs, h => by
    rw [fresh, Bool.and_eq_true, Bool.and_eq_true] at h
    have ih := fresh_openL cs h.2
    have hs : allSolved cs = true → cs.isEmpty = true := by
      intro ha
      cases cs with
      | nil => rfl
      | cons c r => have := (ih c (by simp)).1; rw [allSolved_iff] at ha; rw [ha c (by simp)] at this; cases this
    have h1 : anySolved cs = false := by
      by_contra hne
      obtain ⟨c, hc, h'⟩ := anySolved_iff.1 (by simpa using hne)
      rw [(ih c hc).1] at h'; cases h'
    have h2 : anyFailed cs = false := by
      by_contra hne
      obtain ⟨c, hc, h'⟩ := anyFailed_iff.1 (by simpa using hne)
      rw [(ih c hc).2] at h'; cases h'
    have h3 : allFailed cs = true → cs.isEmpty = true := by
      intro ha
      cases cs with
      | nil => rfl
      | cons c r => have := (ih c (by simp)).2; rw [allFailed_iff] at ha; rw [ha c (by simp)] at this; cases this
    have h4 : (!cs.isEmpty && allSolved cs) = false := by
      cases hc : cs.isEmpty <;> cases ha : allSolved cs <;> simp_all
    have h5 : (!cs.isEmpty && allFailed cs) = false := by
      cases hc : cs.isEmpty <;> cases ha : allFailed cs <;> simp_all
    cases ty <;> simp_all [isSolved, isFailed]
theorem fresh_openL : ∀ (cs : List Node), freshL cs = true → ∀ c ∈ cs, c.isSolved = false ∧ c.isFailed = false
  | [], _, c, hc => by simp at hc
  | d :: r, h, c, hc => by
    rw [freshL, Bool.and_eq_true] at h
    have a := fresh_open d h.1
    have b := fresh_openL r h.2
    rcases List.mem_cons.1 hc with rfl | hc
    · exact a
    · exact b c hc
end

theorem fresh_leaf (e : Expr) (v : Str) (tr : Transf) : fresh (leaf e v tr) = true := rfl

theorem addChild_fresh {O : Oracle} {as : List Node} {c t : Node} (hc : fresh c = true) (ht : fresh t = true) :
    fresh (addChild O as c t) = true := by
  cases t
  rw [addChild]
  split_ifs
  · exact ht
  · rw [fresh, Bool.and_eq_true, freshL_iff] at ht ⊢
    refine ⟨ht.1, fun d hd => ?_⟩
    rcases List.mem_append.1 hd with h | h
    · exact ht.2 d h
    · simp at h; subst h; exact hc

theorem addChildren_fresh {O : Oracle} {as : List Node} : ∀ {cs : List Node} {t : Node}, (∀ c ∈ cs, fresh c = true) →
    fresh t = true → fresh (addChildren O as cs t) = true
  | [], _, _, h => h
  | c :: r, t, hc, h => by
    rw [addChildren]
    exact addChildren_fresh (fun d hd => hc d (by simp [hd])) (addChild_fresh (hc c (by simp)) h)

theorem orElseR_cases {a b : R (Option Plan)} {pl : Plan} (h : orElseR a b = .ok (some pl)) : a = .ok (some pl) ∨ b = .ok (some pl) := by
  unfold orElseR at h
  split at h
  · exact .inr h
  · exact .inl h

theorem planOpt_some {α : Type} {f : α → Node} {r : R (Option α)} {pl : Plan} (h : r.map (planOpt f) = .ok (some pl)) :
    ∃ a, r = .ok (some a) ∧ pl = { kids := [f a] } := by
  cases r with
  | error e => cases h
  | ok o =>
    cases o with
    | none => cases h
    | some a => cases h; exact ⟨a, rfl, rfl⟩

/-- What a safe transform does: Additivity, or one child. -/
theorem safePlan_cases {O : Oracle} {n : Nat} {ν : Supply} {as : List Node} {t : Node} {pl : Plan}
    (h : safePlan O n ν as t = .ok (some pl)) :
    (∃ ts, t.expr = sum ts ∧ pl = { ty := some .and, kids := ts.map fun e => leaf e t.var .additivity }) ∨
    (∃ c g, pullConstant O n t.var t.expr = .ok (some (c, g)) ∧ pl = { kids := [leaf g t.var (.pullConstant c)] }) ∨
    (∃ g, partialFractions O n t.var t.expr = .ok (some g) ∧ pl = { kids := [leaf g t.var .partialFractions] }) ∨
    (∃ g, polyDiv O n n t.var t.expr = .ok (some g) ∧ pl = { kids := [leaf g t.var .polynomialDivision] }) ∨
    (∃ g, expandT O n t.expr = .ok (some g) ∧ pl = { kids := [leaf g t.var .expand] }) ∨
    (∃ q g, linearUSub O n t.var (ν.own 0 []) t.expr = .ok (some (q, g)) ∧ pl = { kids := [leaf g (ν.own 0 []) (.linearUSub q)] }) := by
  unfold safePlan at h
  simp only at h
  rcases orElseR_cases h with h | h
  · left
    unfold additivityPlan at h
    split at h
    · next ts hts => cases h; exact ⟨ts, hts, rfl⟩
    · cases h
  right
  rcases orElseR_cases h with h | h
  · obtain ⟨⟨c, g⟩, h1, h2⟩ := planOpt_some h
    exact .inl ⟨c, g, h1, h2⟩
  right
  rcases orElseR_cases h with h | h
  · obtain ⟨g, h1, h2⟩ := planOpt_some h
    exact .inl ⟨g, h1, h2⟩
  right
  rcases orElseR_cases h with h | h
  · obtain ⟨g, h1, h2⟩ := planOpt_some h
    exact .inl ⟨g, h1, h2⟩
  right
  rcases orElseR_cases h with h | h
  · split_ifs at h
    · cases h
    · obtain ⟨g, h1, h2⟩ := planOpt_some h
      exact .inl ⟨g, h1, h2⟩
  right
  obtain ⟨⟨q, g⟩, h1, h2⟩ := planOpt_some h
  exact ⟨q, g, h1, h2⟩

theorem mapIdxR_mem {f : Nat → Node → R Node} : ∀ {cs cs' : List Node} {i : Nat}, mapIdxR f i cs = .ok cs' →
    ∀ c' ∈ cs', ∃ j c, c ∈ cs ∧ f j c = .ok c'
  | [], _, _, h => by cases h; simp
  | c :: r, cs', i, h => by
    rw [mapIdxR] at h
    obtain ⟨c', h1, h⟩ := bind_ok.1 h
    obtain ⟨r', h2, h⟩ := bind_ok.1 h
    cases pure_ok.1 h
    intro d hd
    rcases List.mem_cons.1 hd with rfl | hd
    · exact ⟨i, c, by simp, h1⟩
    · obtain ⟨j, c0, h3, h4⟩ := mapIdxR_mem h2 d hd
      exact ⟨j, c0, by simp [h3], h4⟩

theorem safePlan_kids {O : Oracle} {n : Nat} {ν : Supply} {as : List Node} {t : Node} {pl : Plan}
    (h : safePlan O n ν as t = .ok (some pl)) : (∀ c ∈ pl.kids, fresh c = true) ∧ (pl.ty = none ∨ pl.ty = some .and) := by
  rcases safePlan_cases h with ⟨ts, -, rfl⟩ | ⟨c, g, -, rfl⟩ | ⟨g, -, rfl⟩ | ⟨g, -, rfl⟩ | ⟨g, -, rfl⟩ | ⟨q, g, -, rfl⟩ <;>
    simp [fresh_leaf]

theorem safely_fresh {O : Oracle} {n : Nat} : ∀ {k : Nat} {ν : Supply} {as : List Node} {t t' : Node}, fresh t = true →
    safely O n k ν as t = .ok t' → fresh t' = true
  | 0, _, _, _, _, _, h => by cases h
  | k + 1, ν, as, t, t', hf, h => by
    rw [safely] at h
    obtain ⟨pl, h1, h⟩ := bind_ok.1 h
    dsimp only at h
    have h2 : fresh ((pl.getD {}).apply O as t) = true := by
      cases pl with
      | none => exact hf
      | some pl =>
        obtain ⟨a, b⟩ := safePlan_kids h1
        refine addChildren_fresh a ?_
        simp only [Option.getD_some]
        rcases b with b | b <;> rw [b]
        · exact hf
        · cases t
          rw [fresh, Bool.and_eq_true] at hf
          simpa [setType, fresh] using hf.2
    generalize (pl.getD {}).apply O as t = t1 at h h2
    obtain ⟨cs, h3, h⟩ := bind_ok.1 h
    cases pure_ok.1 h
    cases t1
    rw [fresh, Bool.and_eq_true] at h2
    simp only [withChildren, fresh, Bool.and_eq_true, freshL_iff]
    refine ⟨by simpa [fresh] using h2.1, fun c hc => ?_⟩
    obtain ⟨j, c0, h4, h5⟩ := mapIdxR_mem h3 c hc
    exact safely_fresh (freshL_iff.1 h2.2 c0 h4) h5

theorem startTree_open {O : Oracle} {n : Nat} {ν : Supply} {v : Str} {e : Expr} {t : Node} (h : startTree O n ν v e = .ok t) :
    t.isFinished = false := by
  unfold startTree at h
  obtain ⟨s, -, h⟩ := bind_ok.1 h
  have := safely_fresh (t := mk s v none .unset none false []) rfl h
  obtain ⟨a, b⟩ := fresh_open t this
  simp [isFinished, a, b]

end Node
end Simpy
