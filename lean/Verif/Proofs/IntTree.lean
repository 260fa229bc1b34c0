import Verif.Proofs.TotalTree

/-! # Lemmas: trees of Additivity, PullConstant and Expand, and the way back through them -/

namespace Simpy
open Expr
namespace Node

variable {O : Oracle} {v : Str} {e F G : Expr} {n : Nat} {tr : Option Transf} {s : Option Expr}

/-- Transforms with one child whose way back does not need the siblings or a substitution. -/
def plain : Transf → Bool
  | .pullConstant _ | .expand => true
  | _ => false

/-- A tree before the table is looked up, with the solution that it will have. -/
inductive Ready (O : Oracle) (n : Nat) (v : Str) : Node → Expr → Prop
  | leaf {e F : Expr} {tr : Option Transf} : checkTable O n v e = .ok (some F) → Ready O n v (mk e v tr .unset none false []) F
  | one {e F G : Expr} {tr : Option Transf} {c : Node} {t : Transf} : Ready O n v c F → c.tr = some t → plain t = true →
      backStep O n t v F = .ok G → Ready O n v (mk e v tr .unset none false [c]) G
  | sum {e G : Expr} {tr : Option Transf} (xs : List (Node × Expr)) : xs ≠ [] → (∀ x ∈ xs, Ready O n v x.1 x.2) →
      (∀ x ∈ xs, x.1.tr = some .additivity) → (ctors O n).sum (xs.map Prod.snd) = .ok G →
      Ready O n v (mk e v tr .and none false (xs.map Prod.fst)) G

/-- A tree after the table was looked up. -/
inductive Solved (O : Oracle) (n : Nat) (v : Str) : Node → Expr → Prop
  | leaf {e F : Expr} {tr : Option Transf} : Solved O n v (mk e v tr .solution (some F) false []) F
  | one {e F G : Expr} {tr : Option Transf} {c : Node} {t : Transf} : Solved O n v c F → c.tr = some t → plain t = true →
      backStep O n t v F = .ok G → Solved O n v (mk e v tr .unset none false [c]) G
  | sum {e G : Expr} {tr : Option Transf} (xs : List (Node × Expr)) : xs ≠ [] → (∀ x ∈ xs, Solved O n v x.1 x.2) →
      (∀ x ∈ xs, x.1.tr = some .additivity) → (ctors O n).sum (xs.map Prod.snd) = .ok G →
      Solved O n v (mk e v tr .and none false (xs.map Prod.fst)) G

theorem Ready.table {t : Node} (h : Ready O n v t F) (b : Bool) : ∃ d, tableAll O n b t = .ok d ∧ Solved O n v d F ∧ d.tr = t.tr := by
  induction h with
  | @leaf e F tr h => exact ⟨mk e v tr .solution (some F) false [], by simp only [tableAll, h], .leaf, rfl⟩
  | @one e F G tr c t _ ht hp hb ih =>
    obtain ⟨d, h1, h2, h3⟩ := ih
    exact ⟨mk e v tr .unset none false [d], by simp only [tableAll, tableAllL, h1], .one h2 (h3.trans ht) hp hb, rfl⟩
  | @sum e G tr xs hne _ ht hs ih =>
    have : ∀ l : List (Node × Expr), (∀ x ∈ l, x ∈ xs) → ∃ ys : List (Node × Expr), tableAllL O n b (l.map Prod.fst) = .ok (ys.map Prod.fst) ∧
        ys.map Prod.snd = l.map Prod.snd ∧ (∀ y ∈ ys, Solved O n v y.1 y.2) ∧ ∀ y ∈ ys, y.1.tr = some .additivity := by
      intro l
      induction l with
      | nil => exact fun _ => ⟨[], rfl, rfl, by simp, by simp⟩
      | cons x r ihr =>
        intro hl
        obtain ⟨d, h1, h2, h3⟩ := ih x (hl x (by simp))
        obtain ⟨ys, k1, k2, k3, k4⟩ := ihr fun y hy => hl y (by simp [hy])
        refine ⟨(d, x.2) :: ys, by simp only [List.map_cons, tableAllL, h1, k1], by simp [k2], ?_, ?_⟩
        · intro y hy
          rcases List.mem_cons.1 hy with rfl | hy
          · exact h2
          · exact k3 y hy
        · intro y hy
          rcases List.mem_cons.1 hy with rfl | hy
          · exact h3.trans (ht x (hl x (by simp)))
          · exact k4 y hy
    obtain ⟨ys, k1, k2, k3, k4⟩ := this xs fun _ h => h
    have hy : ys ≠ [] := by
      rintro rfl
      simp at k2
      exact hne k2
    refine ⟨mk e v tr .and none false (ys.map Prod.fst), ?_, .sum ys hy k3 k4 (by rw [k2]; exact hs), rfl⟩
    obtain ⟨x, r, rfl⟩ := List.exists_cons_of_ne_nil hne
    simp only [List.map_cons] at k1 ⊢
    simp only [tableAll, k1]

theorem Solved.facts {d : Node} (h : Solved O n v d F) : d.isSolved = true ∧ d.isFailed = false ∧ unfinishedPaths d = [] ∧
    (d.sol = none ∨ d.sol = some F) ∧ solvedLeaves d ≠ [] := by
  induction h with
  | leaf => simp [isSolved, isFailed, unfinishedPaths, isFinished, Node.sol, solvedLeaves]
  | @one e F G tr c t _ ht hp hb ih =>
    obtain ⟨h1, h2, h3, -, h5⟩ := ih
    refine ⟨by simp [isSolved, allSolved, h1], by simp [isFailed, anyFailed, h2], by simp [unfinishedPaths, unfinishedPathsL, h3], .inl rfl, ?_⟩
    simpa [solvedLeaves, solvedLeavesL] using h5
  | @sum e G tr xs hne _ ht hs ih =>
    have a1 : ∀ l : List (Node × Expr), (∀ x ∈ l, x ∈ xs) → allSolved (l.map Prod.fst) = true ∧ anyFailed (l.map Prod.fst) = false ∧
        ∀ i, unfinishedPathsL i (l.map Prod.fst) = [] := by
      intro l
      induction l with
      | nil => exact fun _ => ⟨rfl, rfl, fun _ => rfl⟩
      | cons x r ihr =>
        intro hl
        obtain ⟨h1, h2, h3, -⟩ := ih x (hl x (by simp))
        obtain ⟨k1, k2, k3⟩ := ihr fun y hy => hl y (by simp [hy])
        exact ⟨by simp [allSolved, h1, k1], by simp [anyFailed, h2, k2], fun i => by simp [unfinishedPathsL, h3, k3]⟩
    obtain ⟨k1, k2, k3⟩ := a1 xs fun _ h => h
    obtain ⟨x, r, rfl⟩ := List.exists_cons_of_ne_nil hne
    simp only [List.map_cons] at k1 k2 k3 ⊢
    refine ⟨by simp [isSolved, k1], by simp [isFailed, k2], by simp [unfinishedPaths, k3], .inl rfl, ?_⟩
    have := (ih x (by simp)).2.2.2.2
    simp [solvedLeaves, solvedLeavesL, this]

/-- The leaves `L` are walked through one by one; after the last one the node has the solution. -/
def Runs (O : Oracle) (n : Nat) (F : Expr) (tr : Option Transf) : List (List Nat) → Node → Prop
  | [], _ => True
  | p :: r, d => ∃ d' b, walk O n p d = .ok (d', b, []) ∧ (d'.sol = none ∨ d'.sol = some F) ∧ d'.tr = tr ∧
      (r = [] → b = true ∧ d'.sol = some F) ∧ Runs O n F tr r d'

theorem plain_backward {t : Transf} (hp : plain t = true) {c : Node} (ht : c.tr = some t) (cs : List Node) (v : Str) :
    backward O n c cs = (match c.sol with | none => .error .value | some s => backStep O n t v s) ∧ substOf c = [] := by
  cases t <;> simp [plain] at hp <;> constructor <;> simp only [backward, substOf, ht] <;> cases c.sol <;> simp [backStep]

theorem runs_one {t : Transf} (hp : plain t = true) (hb : backStep O n t v F = .ok G) : ∀ {L : List (List Nat)} {c : Node}
    {s : Option Expr}, Runs O n F (some t) L c → (s = none ∨ s = some G) →
    Runs O n G tr (L.map (0 :: ·)) (mk e v tr .unset s false [c])
  | [], _, _, _, _ => trivial
  | p :: r, c, s, h, hs => by
    obtain ⟨d', b, h1, h2, h3, h4, h5⟩ := h
    obtain ⟨pb, ps⟩ := plain_backward (O := O) (n := n) hp h3 [d'] v
    have key : ∃ s' b', walk O n (0 :: p) (mk e v tr .unset s false [c]) = .ok (mk e v tr .unset s' false [d'], b', []) ∧ (s' = none ∨ s' = some G) ∧
        (b = true → d'.sol = some F → b' = true ∧ s' = some G) := by
      cases b with
      | false => exact ⟨s, false, by simp [walk, h1], hs, by simp⟩
      | true =>
        rcases h2 with e1 | e1
        · exact ⟨s, false, by simp [walk, h1, pb, e1], hs, by simp [e1]⟩
        · exact ⟨some G, true, by simp [walk, h1, pb, e1, hb, ps], .inr rfl, by simp⟩
    obtain ⟨s', b', k1, k2, k3⟩ := key
    refine ⟨_, b', k1, k2, rfl, fun hr => ?_, runs_one hp hb h5 k2⟩
    have hr' : r = [] := by simpa using hr
    exact k3 (h4 hr').1 (h4 hr').2

theorem sols_known : ∀ (xs : List (Node × Expr)), (∀ x ∈ xs, x.1.sol = some x.2) → solutions (xs.map Prod.fst) = .ok (xs.map Prod.snd)
  | [], _ => rfl
  | x :: r, h => by simp only [List.map_cons, solutions, h x (by simp), sols_known r fun y hy => h y (by simp [hy])]

theorem sols_half : ∀ (xs : List (Node × Expr)), (∀ x ∈ xs, x.1.sol = none ∨ x.1.sol = some x.2) →
    solutions (xs.map Prod.fst) = .error .value ∨ solutions (xs.map Prod.fst) = .ok (xs.map Prod.snd)
  | [], _ => .inr rfl
  | x :: r, h => by
    simp only [List.map_cons, solutions]
    rcases h x (by simp) with e | e <;> rw [e]
    · exact .inl rfl
    · rcases sols_half r fun y hy => h y (by simp [hy]) with e | e <;> rw [e]
      · exact .inl rfl
      · exact .inr rfl

theorem runs_child {pre rest : List (Node × Expr)} {M : List (List Nat)} (hpre : ∀ x ∈ pre, x.1.sol = some x.2)
    (hrest : ∀ x ∈ rest, x.1.sol = none ∨ x.1.sol = some x.2) (hM : M = [] → rest = [])
    (hG : (ctors O n).sum (pre.map Prod.snd ++ F :: rest.map Prod.snd) = .ok G)
    (hK : ∀ (c' : Node) (s' : Option Expr), c'.sol = some F → c'.tr = some .additivity → (s' = none ∨ s' = some G) →
      Runs O n G tr M (mk e v tr .and s' false (pre.map Prod.fst ++ c' :: rest.map Prod.fst))) :
    ∀ {L : List (List Nat)} {c : Node} {s : Option Expr}, L ≠ [] → Runs O n F (some .additivity) L c → (s = none ∨ s = some G) →
    Runs O n G tr (L.map (pre.length :: ·) ++ M) (mk e v tr .and s false (pre.map Prod.fst ++ c :: rest.map Prod.fst))
  | [], _, _, hL, _, _ => absurd rfl hL
  | p :: r, c, s, _, h, hs => by
    obtain ⟨d', b, h1, h2, h3, h4, h5⟩ := h
    have hget : ∀ x : Node, (pre.map Prod.fst ++ x :: rest.map Prod.fst)[pre.length]? = some x := fun x => by
      rw [List.getElem?_append_right (by simp)]; simp
    have hset : (pre.map Prod.fst ++ c :: rest.map Prod.fst).set pre.length d' = pre.map Prod.fst ++ d' :: rest.map Prod.fst := by
      rw [List.set_append_right _ _ (by simp)]; simp
    have hsub : substOf d' = [] := by simp [substOf, h3]
    have hsol : d'.sol = some F → (solutions (pre.map Prod.fst ++ d' :: rest.map Prod.fst) = .error .value ∧ rest ≠ []) ∨
        solutions (pre.map Prod.fst ++ d' :: rest.map Prod.fst) = .ok (pre.map Prod.snd ++ F :: rest.map Prod.snd) := by
      intro hF
      rw [solutions_append (sols_known pre hpre)]
      simp only [solutions, hF]
      by_cases hr : rest = []
      · subst hr; right; rfl
      · rcases sols_half rest hrest with e | e <;> rw [e]
        · exact .inl ⟨rfl, hr⟩
        · exact .inr rfl
    have key : ∃ s' b', walk O n (pre.length :: p) (mk e v tr .and s false (pre.map Prod.fst ++ c :: rest.map Prod.fst)) =
        .ok (mk e v tr .and s' false (pre.map Prod.fst ++ d' :: rest.map Prod.fst), b', []) ∧ (s' = none ∨ s' = some G) ∧
        (b = true → d'.sol = some F → rest = [] → b' = true ∧ s' = some G) := by
      simp only [walk, hget, h1]
      cases b with
      | false => exact ⟨s, false, by simp only [hset], hs, by simp⟩
      | true =>
        rcases h2 with e1 | e1
        · exact ⟨s, false, by simp [hset, backward, e1], hs, by simp [e1]⟩
        · rcases hsol e1 with ⟨e2, e3⟩ | e2
          · exact ⟨s, false, by simp [hset, backward, e1, h3, e2], hs, fun _ _ h => absurd h e3⟩
          · exact ⟨some G, true, by simp [hset, backward, e1, h3, e2, hG, hsub], .inr rfl, by simp⟩
    obtain ⟨s', b', k1, k2, k3⟩ := key
    simp only [List.map_cons, List.cons_append]
    refine ⟨_, b', k1, k2, rfl, fun hr => ?_, ?_⟩
    · have hr' : r = [] ∧ M = [] := by simpa using hr
      exact k3 (h4 hr'.1).1 (h4 hr'.1).2 (hM hr'.2)
    · by_cases hr : r = []
      · subst hr
        exact hK d' s' (h4 rfl).2 h3 k2
      · exact runs_child hpre hrest hM hG hK hr h5 k2

theorem Solved.runs {d : Node} (h : Solved O n v d F) : Runs O n F d.tr (solvedLeaves d) d := by
  induction h with
  | leaf => exact ⟨_, true, rfl, .inr rfl, rfl, fun _ => ⟨rfl, rfl⟩, trivial⟩
  | @one e F G tr c t hc ht hp hb ih =>
    rw [ht] at ih
    have := runs_one (e := e) (tr := tr) hp hb ih (.inl rfl)
    simpa [solvedLeaves, solvedLeavesL, Node.tr] using this
  | @sum e G tr xs hne hc ht hs ih =>
    have key : ∀ (l pre : List (Node × Expr)) (s : Option Expr), (∀ x ∈ l, x ∈ xs) → (∀ x ∈ pre, x.1.sol = some x.2) →
        (ctors O n).sum ((pre ++ l).map Prod.snd) = .ok G → (s = none ∨ s = some G) →
        Runs O n G tr (solvedLeavesL pre.length (l.map Prod.fst)) (mk e v tr .and s false (pre.map Prod.fst ++ l.map Prod.fst)) := by
      intro l
      induction l with
      | nil => intro pre s _ _ _ _; exact trivial
      | cons x r ihr =>
        intro pre s hl hp hG hs'
        have hx := hl x (by simp)
        have f := (hc x hx).facts
        have i := ih x hx
        rw [ht x hx] at i
        simp only [List.map_cons, solvedLeavesL]
        refine runs_child (F := x.2) hp (fun y hy => (hc y (hl y (by simp [hy]))).facts.2.2.2.1) (fun hM => ?_) (by simpa using hG) (fun c' s' h1 h2 h3 => ?_)
          f.2.2.2.2 i hs'
        · cases r with
          | nil => rfl
          | cons y r =>
            have := (hc y (hl y (by simp))).facts.2.2.2.2
            simp [solvedLeavesL, this] at hM
        · have := ihr (pre ++ [(c', x.2)]) s' (fun y hy => hl y (by simp [hy])) (fun y hy => by
            rcases List.mem_append.1 hy with hy | hy
            · exact hp y hy
            · simp at hy; subst hy; exact h1) (by simpa using hG) h3
          simpa using this
    have := key xs [] none (fun _ h => h) (by simp) (by simpa using hs) (.inl rfl)
    obtain ⟨x, r, rfl⟩ := List.exists_cons_of_ne_nil hne
    simpa [solvedLeaves, Node.tr] using this

theorem Runs.all : ∀ {L : List (List Nat)} {d : Node}, L ≠ [] → Runs O n F tr L d → ∃ d', walkAll O n L d = .ok (d', []) ∧ d'.sol = some F
  | [], _, h, _ => absurd rfl h
  | p :: r, d, _, h => by
    obtain ⟨d', b, h1, h2, h3, h4, h5⟩ := h
    by_cases hr : r = []
    · subst hr
      exact ⟨d', by simp [walkAll, h1], (h4 rfl).2⟩
    · obtain ⟨d'', k1, k2⟩ := Runs.all hr h5
      exact ⟨d'', by simp [walkAll, h1, k1], k2⟩

/-- From the tree to the answer. -/
theorem Ready.answer {t : Node} (h : Ready O n v t F) (b : Bool) : ∃ d, tableAll O n b t = .ok d ∧ d.isSolved = true ∧ d.isFailed = false ∧
    unfinishedPaths d = [] ∧ goBackwards O n d = .ok (F, []) := by
  obtain ⟨d, h1, h2, -⟩ := h.table b
  obtain ⟨f1, f2, f3, -, f5⟩ := h2.facts
  obtain ⟨d', k1, k2⟩ := Runs.all f5 h2.runs
  exact ⟨d, h1, f1, f2, f3, by simp [goBackwards, f1, k1, k2]⟩

end Node
end Simpy
