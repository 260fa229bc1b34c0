import Verif.Spec.PrintTree
import Verif.Proofs.TreeSound
import Verif.Proofs.DebugText

/-!
# Lemmas: printing trees
-/

namespace Simpy
namespace Print
open Expr

theorem ok_bind {α β : Type} (a : α) (f : α → R β) : ((Except.ok a : R α) >>= f) = f a := rfl

/-- What the dictionary of names looks like. -/
inductive Inv : Names → Prop
  | nil : Inv []
  | new {d v} : Inv d → isNew v = true → d.lookup v = none → Inv ((v, ['u', '_'] ++ intStr (d.length + 1 : ℕ)) :: d)
  | old {d v} : Inv d → isNew v = false → d.lookup v = none → Inv ((v, v) :: d)

/-- The later dictionary answers as the earlier one. -/
def Ext (d d' : Names) : Prop := ∀ v w, d.lookup v = some w → d'.lookup v = some w

theorem Ext.refl (d : Names) : Ext d d := fun _ _ h => h
theorem Ext.trans {a b c : Names} (h : Ext a b) (k : Ext b c) : Ext a c := fun v w e => k v w (h v w e)

theorem ext_cons {d : Names} {v w : Str} (h : d.lookup v = none) : Ext d ((v, w) :: d) := by
  intro v' w' e
  rw [List.lookup_cons]
  by_cases c : v' = v
  · subst c; rw [h] at e; cases e
  · rw [beq_eq_false_iff_ne.2 c]; exact e

theorem nameOf_ok {d : Names} (v : Str) (h : Inv d) :
    Inv (nameOf d v).1 ∧ Ext d (nameOf d v).1 ∧ (nameOf d v).1.lookup v = some (nameOf d v).2 ∨
    isNew v = false ∧ Inv (nameOf d v).1 ∧ Ext d (nameOf d v).1 := by
  unfold nameOf
  by_cases c : isNew v = true
  · rw [if_pos c]
    left
    cases e : d.lookup v with
    | some w => exact ⟨h, .refl _, e⟩
    | none => exact ⟨.new h c e, ext_cons e, by simp⟩
  · rw [if_neg c]
    right
    have c' : isNew v = false := by simpa using c
    cases e : d.lookup v with
    | some w => exact ⟨c', h, .refl _⟩
    | none => exact ⟨c', .old h c' e, ext_cons e⟩

theorem nameOf_inv {d : Names} (v : Str) (h : Inv d) : Inv (nameOf d v).1 ∧ Ext d (nameOf d v).1 := by
  rcases nameOf_ok v h with ⟨a, b, _⟩ | ⟨_, a, b⟩ <;> exact ⟨a, b⟩

theorem nameOf_new {d : Names} {v : Str} (h : Inv d) (c : isNew v = true) : (nameOf d v).1.lookup v = some (nameOf d v).2 := by
  rcases nameOf_ok v h with ⟨_, _, k⟩ | ⟨c', _⟩
  · exact k
  · rw [c] at c'; cases c'

/-- The name of a made-up variable carries a number not above the size of the dictionary. -/
theorem inv_bound {d : Names} (h : Inv d) : ∀ {v w}, isNew v = true → d.lookup v = some w →
    ∃ i : ℕ, i ≤ d.length ∧ w = ['u', '_'] ++ intStr (i : ℤ) := by
  induction h with
  | nil => intro v w _ e; cases e
  | @new d v' hd c e0 ih =>
    intro v w cv e
    rw [List.lookup_cons] at e
    by_cases q : v = v'
    · subst q
      simp at e
      exact ⟨d.length + 1, by simp, by rw [← e]; simp⟩
    · rw [beq_eq_false_iff_ne.2 q] at e
      obtain ⟨i, hi, rfl⟩ := ih cv e
      exact ⟨i, by simp; omega, rfl⟩
  | @old d v' hd c e0 ih =>
    intro v w cv e
    rw [List.lookup_cons] at e
    by_cases q : v = v'
    · subst q; rw [c] at cv; cases cv
    · rw [beq_eq_false_iff_ne.2 q] at e
      obtain ⟨i, hi, rfl⟩ := ih cv e
      exact ⟨i, by simp; omega, rfl⟩

theorem inv_inj {d : Names} (h : Inv d) : ∀ {v v' w}, isNew v = true → isNew v' = true → d.lookup v = some w → d.lookup v' = some w →
    v = v' := by
  induction h with
  | nil => intro v v' w _ _ e; cases e
  | @new d u hd c e0 ih =>
    intro v v' w cv cv' e e'
    rw [List.lookup_cons] at e e'
    by_cases q : v = u <;> by_cases q' : v' = u
    · rw [q, q']
    · subst q
      rw [beq_eq_false_iff_ne.2 q'] at e'
      obtain ⟨i, hi, rfl⟩ := inv_bound hd cv' e'
      simp only [beq_self_eq_true] at e
      have := Dbg.intStr_inj (List.append_cancel_left (Option.some.inj e))
      omega
    · subst q'
      rw [beq_eq_false_iff_ne.2 q] at e
      obtain ⟨i, hi, rfl⟩ := inv_bound hd cv e
      simp only [beq_self_eq_true] at e'
      have := Dbg.intStr_inj (List.append_cancel_left (Option.some.inj e'))
      omega
    · rw [beq_eq_false_iff_ne.2 q] at e
      rw [beq_eq_false_iff_ne.2 q'] at e'
      exact ih cv cv' e e'
  | @old d u hd c e0 ih =>
    intro v v' w cv cv' e e'
    rw [List.lookup_cons] at e e'
    have q : v ≠ u := by rintro rfl; rw [c] at cv; cases cv
    have q' : v' ≠ u := by rintro rfl; rw [c] at cv'; cases cv'
    rw [beq_eq_false_iff_ne.2 q] at e
    rw [beq_eq_false_iff_ne.2 q'] at e'
    exact ih cv cv' e e'

/-- The shown names of the final dictionary. -/
def shownBy (d : Names) (v : Str) : Str := (d.lookup v).getD v

theorem shownBy_ext {d d' : Names} {v w : Str} (h : Ext d d') (e : d.lookup v = some w) : shownBy d' v = w := by
  simp [shownBy, h v w e]

/-- `exprify`: the dictionary grows, and the text is the one of the replaced expression. -/
theorem exprify_ok {O : Oracle} {n : Nat} {v : Str} {d d' : Names} {e e' : Expr} (h : Inv d) (k : exprify O n v d e = .ok (d', e')) :
    Inv d' ∧ Ext d d' ∧ (isNew v = true → ∃ w, d'.lookup v = some w ∧ replaceOld O n e (sym v) (sym w) = .ok e') ∧
      (isNew v = false → e' = e) := by
  unfold exprify at k
  by_cases c : isNew v = true
  · rw [if_pos c] at k
    cases r : replaceOld O n e (sym v) (sym (nameOf d v).2) with
    | error x => rw [r] at k; cases k
    | ok r' =>
      rw [r] at k
      cases k
      refine ⟨(nameOf_inv v h).1, (nameOf_inv v h).2, fun _ => ⟨_, nameOf_new h c, r⟩, fun c' => ?_⟩
      rw [c] at c'; cases c'
  · rw [if_neg c] at k
    cases k
    exact ⟨(nameOf_inv v h).1, (nameOf_inv v h).2, fun c' => absurd c' c, fun _ => rfl⟩

/-- `ShownAs` with the names of any later dictionary. -/
theorem shownAs_of {O : Oracle} {n : Nat} {v : Str} {d d' : Names} {e e' : Expr} {s : Str} (h : Inv d)
    (k : exprify O n v d e = .ok (d', e')) (hs : (ctors O n).repr e' = .ok s) : ∀ {d''}, Ext d' d'' → ShownAs O n (shownBy d'') v e s := by
  intro d'' x
  obtain ⟨_, _, a, b⟩ := exprify_ok h k
  unfold ShownAs
  by_cases c : isNew v = true
  · rw [if_pos c]
    obtain ⟨w, hw, hr⟩ := a c
    exact ⟨e', by rw [shownBy_ext x hw]; exact hr, hs⟩
  · rw [if_neg c]
    rw [← b (by simpa using c)]; exact hs

/-- A made-up variable that has a name in the dictionary. -/
def Named (d : Names) (v : Str) : Prop := isNew v = true → ∃ w, d.lookup v = some w

theorem Named.ext {d d' : Names} {v : Str} (h : Named d v) (x : Ext d d') : Named d' v := fun c => by
  obtain ⟨w, hw⟩ := h c
  exact ⟨w, x v w hw⟩

theorem exprText_ok {O : Oracle} {n : Nat} {t : Node} {d d' : Names} {s : Str} (h : Inv d) (k : exprText O n t d = .ok (d', s)) :
    Inv d' ∧ Ext d d' ∧ (t.filler = false → Named d' t.var) ∧
      ∀ {d''}, Ext d' d'' → if t.filler then s = "filler".toList else ShownAs O n (shownBy d'') t.var t.expr s := by
  unfold exprText at k
  by_cases c : t.filler = true
  · rw [if_pos c] at k
    cases k
    refine ⟨h, .refl _, fun c' => ?_, fun _ => by rw [if_pos c]⟩
    rw [c] at c'; cases c'
  · rw [if_neg c] at k
    cases r : exprify O n t.var d t.expr with
    | error x => rw [r] at k; cases k
    | ok p =>
      obtain ⟨d1, e1⟩ := p
      rw [r, ok_bind] at k
      cases q : (ctors O n).repr e1 with
      | error x => dsimp only at k; rw [q] at k; cases k
      | ok s1 =>
        dsimp only at k
        rw [q] at k
        cases k
        obtain ⟨a, b, c1, _⟩ := exprify_ok h r
        refine ⟨a, b, fun _ cn => ?_, fun x => ?_⟩
        · obtain ⟨w, hw, _⟩ := c1 cn; exact ⟨w, hw⟩
        · rw [if_neg c]; exact shownAs_of h r q x

theorem solText_ok {O : Oracle} {n : Nat} {sols : Bool} {t : Node} {d d' : Names} {s : Option Str} (h : Inv d)
    (k : solText O n sols t d = .ok (d', s)) : Inv d' ∧ Ext d d' ∧
      (sols = true → t.isSolved = true → ∀ e, t.sol = some e → ∃ txt, s = some txt ∧
        ∀ {d''}, Ext d' d'' → ShownAs O n (shownBy d'') t.var e txt) ∧
      ((sols && t.isSolved) = false → s = none) := by
  unfold solText at k
  by_cases c : (sols && t.isSolved) = true
  · rw [if_pos c] at k
    cases g : t.sol with
    | none =>
      rw [g] at k
      by_cases c' : isNew t.var = true
      · simp only [c', if_true] at k; cases k
      · simp only [c', if_false, Bool.false_eq_true] at k
        cases k
        refine ⟨(nameOf_inv _ h).1, (nameOf_inv _ h).2, (fun _ _ e he => nomatch he), fun c2 => ?_⟩
        rw [c] at c2; cases c2
    | some e =>
      rw [g] at k
      dsimp only at k
      cases r : exprify O n t.var d e with
      | error x => rw [r] at k; cases k
      | ok p =>
        obtain ⟨d1, e1⟩ := p
        rw [r, ok_bind] at k
        cases q : (ctors O n).repr e1 with
        | error x => dsimp only at k; rw [q] at k; cases k
        | ok s1 =>
          dsimp only at k
          rw [q] at k
          cases k
          obtain ⟨a, b, _, _⟩ := exprify_ok h r
          refine ⟨a, b, fun _ _ e' he => ?_, fun c2 => ?_⟩
          · cases he
            exact ⟨s1, rfl, fun x => shownAs_of h r q x⟩
          · rw [c] at c2; cases c2
  · rw [if_neg c] at k
    cases k
    refine ⟨h, .refl _, fun c1 c2 => ?_, fun _ => rfl⟩
    simp [c1, c2] at c

theorem remark_ok (as : List Node) (t : Node) : Remarks as t (remark (as.any Node.isFinished) t) := by
  unfold remark isStale
  by_cases hc : t.children = []
  · by_cases hs : t.isSolved = true
    · simp only [hc, hs, List.isEmpty_nil, Bool.true_or, Bool.and_self, if_true]
      exact .leaf hc (by simp [Node.isFinished, hs])
    · by_cases hf : t.isFailed = true
      · simp only [hc, hf, List.isEmpty_nil, Bool.or_true, Bool.and_self, if_true]
        exact .leaf hc (by simp [Node.isFinished, hf])
      · have hs' : t.isSolved = false := by simpa using hs
        have hf' : t.isFailed = false := by simpa using hf
        by_cases ha : as.any Node.isFinished = true
        · simp only [hc, hs', hf', ha, Node.isFinished, Bool.or_false, Bool.and_false, Bool.false_eq_true, if_false, Bool.not_false,
            Bool.and_self, if_true]
          exact .stale hs' hf' (by simpa using ha)
        · have ha' : as.any Node.isFinished = false := by simpa using ha
          simp only [hc, hs', hf', ha', Bool.or_false, Bool.and_false, Bool.false_eq_true, if_false]
          exact .open hs' hf' (by simpa using ha')
  · have hc' : t.children.isEmpty = false := by simpa using hc
    by_cases hs : t.isSolved = true
    · simp only [hc', hs, Bool.false_and, Bool.false_eq_true, if_false, if_true]
      exact .solved hs hc
    · have hs' : t.isSolved = false := by simpa using hs
      by_cases hf : t.isFailed = true
      · simp only [hc', hs', hf, Bool.false_and, Bool.false_eq_true, if_false, if_true]
        exact .failed hs' hf hc
      · have hf' : t.isFailed = false := by simpa using hf
        by_cases ha : as.any Node.isFinished = true
        · simp only [hc', hs', hf', ha, Node.isFinished, Bool.false_and, Bool.or_false, Bool.false_eq_true, if_false, Bool.not_false,
            Bool.and_self, if_true]
          exact .stale hs' hf' (by simpa using ha)
        · have ha' : as.any Node.isFinished = false := by simpa using ha
          simp only [hc', hs', hf', ha', Bool.false_and, Bool.and_false, Bool.false_eq_true, if_false]
          exact .open hs' hf' (by simpa using ha')

theorem row_ok {O : Oracle} {n : Nat} {sols : Bool} {as : List Node} {t : Node} {d d' : Names} {r : Row} (h : Inv d)
    (k : row O n sols (as.any Node.isFinished) as.length t d = .ok (d', r)) : Inv d' ∧ Ext d d' ∧ (t.filler = false → Named d' t.var) ∧
      (∀ {d''}, Ext d' d'' → Describes O n (shownBy d'') (as, t) r ∧
        (sols = true → t.isSolved = true → Solves O n (shownBy d'') (as, t) r)) ∧
      ((sols && t.isSolved) = false → r.sol = none) := by
  unfold row at k
  cases q1 : exprText O n t d with
  | error x => rw [q1] at k; cases k
  | ok p1 =>
    obtain ⟨d1, text⟩ := p1
    rw [q1, ok_bind] at k
    dsimp only at k
    cases q2 : nesting O none t.expr with
    | error x => rw [q2] at k; cases k
    | ok m =>
      rw [q2, ok_bind] at k
      cases q3 : solText O n sols t d1 with
      | error x => rw [q3] at k; cases k
      | ok p3 =>
        obtain ⟨d3, s⟩ := p3
        rw [q3] at k
        cases k
        obtain ⟨a1, a2, a3, a4⟩ := exprText_ok h q1
        obtain ⟨b1, b2, b3, b4⟩ := solText_ok a1 q3
        refine ⟨b1, a2.trans b2, fun c => (a3 c).ext b2, fun x => ⟨?_, fun c1 c2 e he => ?_⟩, b4⟩
        · refine ⟨rfl, q2, a4 (b2.trans x), rfl, remark_ok as t, ?_⟩
          cases hc : t.children <;> simp [hc]
        · obtain ⟨txt, h1, h2⟩ := b3 c1 c2 e he
          exact ⟨txt, h1, h2 x⟩

mutual
/-- The nodes that are printed. -/
def shown (stale fails : Bool) (as : List Node) : Node → List (List Node × Node)
  | .mk e v tr ty s f cs =>
    if !stale && isStale (as.any Node.isFinished) (.mk e v tr ty s f cs) then []
    else if !fails && (Node.mk e v tr ty s f cs).isFailed then []
    else (as, .mk e v tr ty s f cs) :: shownL stale fails (.mk e v tr ty s f cs :: as) cs
def shownL (stale fails : Bool) (as : List Node) : List Node → List (List Node × Node)
  | [] => []
  | c :: r => shown stale fails as c ++ shownL stale fails as r
end

/-- What a call of `print_tree` leaves behind. -/
structure Prints (O : Oracle) (n : Nat) (sols : Bool) (ts : List (List Node × Node)) (d d' : Names) (ls : List Line) : Prop where
  inv : Inv d'
  ext : Ext d d'
  named : ∀ p ∈ ts, p.2.filler = false → Named d' p.2.var
  rows : ∀ {d''}, Ext d' d'' → List.Forall₂ (fun p r => Describes O n (shownBy d'') p r ∧
    (sols = true → p.2.isSolved = true → Solves O n (shownBy d'') p r)) ts (rows ls)
  none : (∀ p ∈ ts, (sols && p.2.isSolved) = false) → ∀ r ∈ Print.rows ls, r.sol = none
  blank : ls.count .blank = (ts.filter fun p => p.2.children.isEmpty).length

theorem Prints.nil {O : Oracle} {n : Nat} {sols : Bool} {d : Names} (h : Inv d) : Prints O n sols [] d d [] :=
  ⟨h, .refl _, by simp, fun _ => .nil, by simp [Print.rows], by simp⟩

theorem Prints.append {O : Oracle} {n : Nat} {sols : Bool} {d d' d'' : Names} {ts us ls ms} (h : Prints O n sols ts d d' ls)
    (k : Prints O n sols us d' d'' ms) : Prints O n sols (ts ++ us) d d'' (ls ++ ms) := by
  refine ⟨k.inv, h.ext.trans k.ext, fun p hp c => ?_, fun x => ?_, fun hs r hr => ?_, ?_⟩
  · rcases List.mem_append.1 hp with hp | hp
    · exact (h.named p hp c).ext k.ext
    · exact k.named p hp c
  · simp only [Print.rows, List.filterMap_append]
    exact List.rel_append (h.rows (k.ext.trans x)) (k.rows x)
  · simp only [Print.rows, List.filterMap_append, List.mem_append] at hr
    rcases hr with hr | hr
    · exact h.none (fun p hp => hs p (List.mem_append_left _ hp)) r hr
    · exact k.none (fun p hp => hs p (List.mem_append_right _ hp)) r hr
  · simp [List.count_append, h.blank, k.blank]

theorem Prints.one {O : Oracle} {n : Nat} {sols : Bool} {as : List Node} {t : Node} {d d' : Names} {r : Row} (h : Inv d)
    (k : row O n sols (as.any Node.isFinished) as.length t d = .ok (d', r)) (b : List Line)
    (hb : b = if t.children.isEmpty then [.blank] else []) : Prints O n sols [(as, t)] d d' (.row r :: b) := by
  obtain ⟨a1, a2, a3, a4, a5⟩ := row_ok h k
  have e : Print.rows (.row r :: b) = [r] := by
    subst hb
    by_cases c : t.children.isEmpty = true
    · simp [Print.rows, c]
    · simp [Print.rows, c]
  refine ⟨a1, a2, ?_, fun x => ?_, ?_, ?_⟩
  · intro p hp c
    simp only [List.mem_singleton] at hp
    subst hp
    exact a3 c
  · rw [e]
    exact .cons (a4 x) .nil
  · intro hs r' hr'
    rw [e] at hr'
    simp only [List.mem_singleton] at hr'
    subst hr'
    exact a5 (hs (as, t) (by simp))
  · subst hb
    by_cases c : t.children.isEmpty = true
    · simp [c]
    · simp [c]

mutual
theorem printTree_ok {O : Oracle} {n : Nat} {stale fails sols : Bool} : ∀ (as : List Node) (t : Node) {d d' : Names} {ls : List Line},
    Inv d → printTree O n stale fails sols (as.any Node.isFinished) as.length t d = .ok (d', ls) →
    Prints O n sols (shown stale fails as t) d d' ls
  | as, .mk e v tr ty s f cs, d, d', ls => by
    intro h k
    rw [printTree] at k
    rw [shown]
    by_cases c1 : (!stale && isStale (as.any Node.isFinished) (Node.mk e v tr ty s f cs)) = true
    · rw [if_pos c1] at k
      cases k
      rw [if_pos c1]
      exact .nil h
    · rw [if_neg c1] at k ⊢
      by_cases c2 : (!fails && (Node.mk e v tr ty s f cs).isFailed) = true
      · rw [if_pos c2] at k
        cases k
        rw [if_pos c2]
        exact .nil h
      · rw [if_neg c2] at k ⊢
        cases q : row O n sols (as.any Node.isFinished) as.length (.mk e v tr ty s f cs) d with
        | error x => rw [q] at k; cases k
        | ok p =>
          obtain ⟨d1, r⟩ := p
          rw [q] at k
          dsimp only at k
          by_cases c3 : cs.isEmpty = true
          · rw [if_pos c3] at k
            cases k
            have : cs = [] := by simpa using c3
            subst this
            rw [shownL]
            exact .one h q _ (by simp [Node.children])
          · rw [if_neg c3] at k
            cases q2 : printTreeL O n stale fails sols (as.any Node.isFinished || (Node.mk e v tr ty s f cs).isFinished) (as.length + 1) cs d1 with
            | error x => rw [q2] at k; cases k
            | ok p2 =>
              obtain ⟨d2, ms⟩ := p2
              rw [q2] at k
              cases k
              have one := Prints.one h q [] (by simp [Node.children, c3])
              have q3 : printTreeL O n stale fails sols ((Node.mk e v tr ty s f cs :: as).any Node.isFinished)
                  (Node.mk e v tr ty s f cs :: as).length cs d1 = .ok (d', ms) := by
                rw [List.any_cons, Bool.or_comm, List.length_cons]; exact q2
              exact one.append (printTreeL_ok (Node.mk e v tr ty s f cs :: as) cs one.inv q3)
theorem printTreeL_ok {O : Oracle} {n : Nat} {stale fails sols : Bool} : ∀ (as : List Node) (cs : List Node) {d d' : Names} {ls : List Line},
    Inv d → printTreeL O n stale fails sols (as.any Node.isFinished) as.length cs d = .ok (d', ls) →
    Prints O n sols (shownL stale fails as cs) d d' ls
  | as, [], d, d', ls => by
    intro h k
    rw [printTreeL] at k
    cases k
    rw [shownL]
    exact .nil h
  | as, t :: r, d, d', ls => by
    intro h k
    rw [printTreeL] at k
    rw [shownL]
    cases q : printTree O n stale fails sols (as.any Node.isFinished) as.length t d with
    | error x => rw [q] at k; cases k
    | ok p =>
      obtain ⟨d1, l1⟩ := p
      rw [q] at k
      dsimp only at k
      cases q2 : printTreeL O n stale fails sols (as.any Node.isFinished) as.length r d1 with
      | error x => rw [q2] at k; cases k
      | ok p2 =>
        obtain ⟨d2, l2⟩ := p2
        rw [q2] at k
        cases k
        have a := printTree_ok as t h q
        exact a.append (printTreeL_ok as r a.inv q2)
end

mutual
theorem shown_all (as : List Node) : ∀ t, shown true true as t = walk as t
  | .mk e v tr ty s f cs => by rw [shown, walk]; simp [shownL_all _ cs]
theorem shownL_all (as : List Node) : ∀ cs, shownL true true as cs = walkL as cs
  | [] => by rw [shownL, walkL]
  | c :: r => by rw [shownL, walkL, shown_all as c, shownL_all as r]
end

/-- Solved, with all ancestors. -/
abbrev keep (p : List Node × Node) : Bool := p.2.isSolved && p.1.all Node.isSolved

mutual
theorem walk_unsolved {as : List Node} (h : as.all Node.isSolved = false) : ∀ t, (walk as t).filter keep = []
  | .mk e v tr ty s f cs => by
    rw [walk, List.filter_cons]
    simp only [keep, h, Bool.and_false, Bool.false_eq_true, if_false]
    exact walkL_unsolved (by simp [h]) cs
theorem walkL_unsolved {as : List Node} (h : as.all Node.isSolved = false) : ∀ cs, (walkL as cs).filter keep = []
  | [] => by simp [walkL]
  | c :: r => by rw [walkL, List.filter_append, walk_unsolved h c, walkL_unsolved h r]; rfl
end

mutual
theorem shown_solved {as : List Node} (h : as.all Node.isSolved = true) : ∀ t, t.Settled → (as ≠ [] ∨ t.isSolved = true) →
    shown false false as t = (walk as t).filter keep
  | .mk e v tr ty s f cs => fun hs hn => by
    by_cases c : (Node.mk e v tr ty s f cs).isSolved = true
    · have nf : (Node.mk e v tr ty s f cs).isFailed = false := by
        have := Node.not_both _ hs
        simpa [c] using this
      rw [shown, walk, List.filter_cons]
      have k : keep (as, Node.mk e v tr ty s f cs) = true := by simp [keep, c, h]
      rw [k, nf]
      simp only [isStale, Node.isFinished, c, Bool.true_or, Bool.not_true, Bool.false_and, Bool.and_false, Bool.false_eq_true, if_false, if_true]
      rw [shownL_solved (by simp only [List.all_cons, c, h, Bool.and_self]) cs hs.2 (by simp)]
    · have c' : (Node.mk e v tr ty s f cs).isSolved = false := by simpa using c
      have e1 : shown false false as (.mk e v tr ty s f cs) = [] := by
        rw [shown]
        cases hf : (Node.mk e v tr ty s f cs).isFailed with
        | true => simp
        | false =>
          have : as.any Node.isFinished = true := by
            rcases hn with hn | hn
            · obtain ⟨a, r, rfl⟩ := List.exists_cons_of_ne_nil hn
              simp only [List.all_cons, Bool.and_eq_true] at h
              simp [Node.isFinished, h.1]
            · exact absurd hn c
          simp [isStale, Node.isFinished, c', hf, this]
      rw [e1, walk, List.filter_cons]
      simp only [keep, c', Bool.false_and, Bool.false_eq_true, if_false]
      exact (walkL_unsolved (by simp [c']) cs).symm
theorem shownL_solved {as : List Node} (h : as.all Node.isSolved = true) : ∀ cs, Node.SettledL cs → as ≠ [] →
    shownL false false as cs = (walkL as cs).filter keep
  | [] => fun _ _ => by simp [shownL, walkL]
  | c :: r => fun hs hn => by
    rw [shownL, walkL, List.filter_append, shown_solved h c hs.1 (.inl hn), shownL_solved h r hs.2 hn]
end

theorem distinct_of {O : Oracle} {n : Nat} {sols : Bool} {ts d d' ls} (h : Prints O n sols ts d d' ls) : Distinct (shownBy d') ts := by
  intro p hp q hq fp fq np nq e
  obtain ⟨w, hw⟩ := h.named p hp fp np
  obtain ⟨w', hw'⟩ := h.named q hq fq nq
  rw [shownBy_ext (.refl _) hw, shownBy_ext (.refl _) hw'] at e
  subst e
  exact inv_inj h.inv np nq hw hw'

theorem forall₂_left {α β : Type} {P : α → Prop} {R S : α → β → Prop} {as : List α} {bs : List β} (h : ∀ a ∈ as, P a)
    (k : List.Forall₂ R as bs) (f : ∀ a b, P a → R a b → S a b) : List.Forall₂ S as bs := by
  induction k with
  | nil => exact .nil
  | cons r _ ih => exact .cons (f _ _ (h _ (by simp)) r) (ih fun a ha => h a (by simp [ha]))

mutual
/-- The walk goes on to the children. -/
theorem walk_child {as : List Node} : ∀ (t : Node) {p : List Node × Node}, p ∈ walk as t → ∀ c ∈ p.2.children, (p.2 :: p.1, c) ∈ walk as t
  | .mk e v tr ty s f cs, p, hp, c, hc => by
    rw [walk] at hp ⊢
    rcases List.mem_cons.1 hp with rfl | hp
    · refine List.mem_cons_of_mem _ ?_
      simp only [Node.children] at hc
      exact walkL_mem cs c hc
    · exact List.mem_cons_of_mem _ (walkL_child cs hp c hc)
theorem walkL_child {as : List Node} : ∀ (cs : List Node) {p : List Node × Node}, p ∈ walkL as cs → ∀ c ∈ p.2.children, (p.2 :: p.1, c) ∈ walkL as cs
  | [], p, hp, _, _ => by simp [walkL] at hp
  | t :: r, p, hp, c, hc => by
    rw [walkL, List.mem_append] at hp ⊢
    rcases hp with hp | hp
    · exact .inl (walk_child t hp c hc)
    · exact .inr (walkL_child r hp c hc)
theorem walkL_mem {as : List Node} : ∀ (cs : List Node) (c : Node), c ∈ cs → (as, c) ∈ walkL as cs
  | [], _, h => by cases h
  | t :: r, c, h => by
    rw [walkL, List.mem_append]
    rcases List.mem_cons.1 h with rfl | h
    · left; cases c; rw [walk]; exact List.mem_cons_self
    · exact .inr (walkL_mem r c h)
end

end Print
end Simpy
