import Verif.Model.Ctors
import Verif.Spec.Order
import Verif.Proofs.Sort
import Mathlib.Data.List.Lex
import Mathlib.Data.Char

/-! The sort returns a sorted list if the comparison is a total preorder. -/

namespace Simpy

variable {α : Type}

/-- The comparison never contradicts the preorder `le`: whenever it does not raise, `lt a b` being true implies `a ≤ b`
and being false implies `b ≤ a`. -/
structure Agrees (lt : α → α → R Bool) (le : α → α → Prop) : Prop where
  true_le : ∀ a b, lt a b = .ok true → le a b
  false_le : ∀ a b, lt a b = .ok false → le b a
  trans : ∀ a b c, le a b → le b c → le a c

section
variable {lt : α → α → R Bool} {le : α → α → Prop} (hl : Agrees lt le)
include hl

theorem runTail_sorted {d : Bool} : ∀ {l : List α} {prev : α} {run rest : List α},
    runTail lt d prev l = .ok (run, rest) → (prev :: run).Pairwise (fun a b => if d then le b a else le a b)
  | [], _, run, rest, h => by
    simp only [runTail, Except.ok.injEq, Prod.mk.injEq] at h; simp [← h.1]
  | x :: r, prev, run, rest, h => by
    simp only [runTail, bind_ok] at h
    obtain ⟨b, hb, h⟩ := h
    split at h
    · next hbd =>
      obtain ⟨⟨run', rest'⟩, h1, h2⟩ := bind_ok.1 h
      simp only [pure_ok, Prod.mk.injEq] at h2
      have ih := runTail_sorted h1
      rw [← h2.1]
      have hbd : b = d := by simpa using hbd
      subst hbd
      have hpx : if b then le x prev else le prev x := by
        cases b
        · exact hl.false_le _ _ hb
        · exact hl.true_le _ _ hb
      refine List.pairwise_cons.2 ⟨fun y hy => ?_, ih⟩
      rcases List.mem_cons.1 hy with rfl | hy
      · exact hpx
      · have := (List.pairwise_cons.1 ih).1 y hy
        cases b
        · exact hl.trans _ _ _ hpx this
        · exact hl.trans _ _ _ this hpx
    · simp only [pure_ok, Prod.mk.injEq] at h
      simp [← h.1]

theorem countRun_sorted {l pre rest : List α} (h : countRun lt l = .ok (pre, rest)) : pre.Pairwise le := by
  match l, h with
  | [], h => simp only [countRun, Except.ok.injEq, Prod.mk.injEq] at h; simp [← h.1]
  | [x], h => simp only [countRun, Except.ok.injEq, Prod.mk.injEq] at h; simp [← h.1]
  | x :: y :: r, h =>
    simp only [countRun, bind_ok] at h
    obtain ⟨d, hd, ⟨run, rest'⟩, h1, h2⟩ := h
    have ih := runTail_sorted hl h1
    dsimp only at h2
    cases d with
    | true =>
      simp only [if_true, pure_ok, Prod.mk.injEq] at h2 ih
      rw [← h2.1, List.pairwise_reverse]
      refine List.pairwise_cons.2 ⟨fun z hz => ?_, ih⟩
      have hyx := hl.true_le _ _ hd
      rcases List.mem_cons.1 hz with rfl | hz
      · exact hyx
      · exact hl.trans _ _ _ ((List.pairwise_cons.1 ih).1 z hz) hyx
    | false =>
      simp only [Bool.false_eq_true, if_false, pure_ok, Prod.mk.injEq] at h2 ih
      rw [← h2.1]
      refine List.pairwise_cons.2 ⟨fun z hz => ?_, ih⟩
      have hyx := hl.false_le _ _ hd
      rcases List.mem_cons.1 hz with rfl | hz
      · exact hyx
      · exact hl.trans _ _ _ hyx ((List.pairwise_cons.1 ih).1 z hz)

/-- The binary search finds a position with everything before it at most `p` and everything after it at least `p`. -/
theorem bsearch_spec {p : α} {a : List α} (ha : a.Pairwise le) : ∀ (n l r i : Nat), l ≤ r → r ≤ a.length → r - l ≤ n →
    (∀ j (hj : j < a.length), j < l → le a[j] p) → (∀ j (hj : j < a.length), r ≤ j → le p a[j]) →
    bsearch lt p a n l r = .ok i →
    i ≤ a.length ∧ (∀ j (hj : j < a.length), j < i → le a[j] p) ∧ (∀ j (hj : j < a.length), i ≤ j → le p a[j])
  | 0, l, r, i, hlr, hr, hn, h1, h2, h => by
    simp only [bsearch, Except.ok.injEq] at h; subst h
    have : r = l := by omega
    subst this
    exact ⟨hr, h1, h2⟩
  | n + 1, l, r, i, hlr, hr, hn, h1, h2, h => by
    unfold bsearch at h
    split at h
    · next hlt =>
      have hm : l + (r - l) / 2 < a.length := by omega
      have hpw := List.pairwise_iff_getElem.1 ha
      dsimp only at h
      rw [List.getElem?_eq_getElem hm] at h
      simp only [bind_ok] at h
      obtain ⟨b, hb, h⟩ := h
      cases b with
      | true =>
        simp only [if_true] at h
        have hp := hl.true_le _ _ hb
        refine bsearch_spec ha n l _ i (by omega) (by omega) (by omega) h1 (fun j hj hmj => ?_) h
        rcases Nat.eq_or_lt_of_le hmj with rfl | hlt
        · exact hp
        · exact hl.trans _ _ _ hp (hpw _ _ hm hj hlt)
      | false =>
        simp only [Bool.false_eq_true, if_false] at h
        have hp := hl.false_le _ _ hb
        refine bsearch_spec ha n _ r i (by omega) hr (by omega) (fun j hj hmj => ?_) h2 h
        rcases Nat.eq_or_lt_of_le (Nat.lt_succ_iff.1 hmj) with rfl | hlt
        · exact hp
        · exact hl.trans _ _ _ (hpw _ _ hj hm hlt) hp
    · simp only [Except.ok.injEq] at h; subst h
      have : r = l := by omega
      subst this
      exact ⟨hr, h1, h2⟩

theorem insert_sorted {p : α} {a : List α} {i : Nat} (ha : a.Pairwise le)
    (h1 : ∀ j (hj : j < a.length), j < i → le a[j] p) (h2 : ∀ j (hj : j < a.length), i ≤ j → le p a[j]) :
    (a.take i ++ p :: a.drop i).Pairwise le := by
  have hpw := List.pairwise_append.1 (List.take_append_drop i a ▸ ha)
  refine List.pairwise_append.2 ⟨hpw.1, List.pairwise_cons.2 ⟨?_, hpw.2.1⟩, ?_⟩
  · intro x hx
    obtain ⟨k, hk, rfl⟩ := List.getElem_of_mem hx
    rw [List.getElem_drop]
    exact h2 _ _ (by omega)
  · intro x hx y hy
    have hxp : le x p := by
      obtain ⟨k, hk, rfl⟩ := List.getElem_of_mem hx
      rw [List.getElem_take]
      refine h1 _ _ ?_
      simp only [List.length_take] at hk
      omega
    rcases List.mem_cons.1 hy with rfl | hy
    · exact hxp
    · exact hpw.2.2 x hx y hy

theorem binarySort_sorted : ∀ {rest pre out : List α}, pre.Pairwise le →
    binarySort lt pre rest = .ok out → out.Pairwise le
  | [], pre, out, hp, h => by
    simp only [binarySort, Except.ok.injEq] at h; rwa [← h]
  | p :: r, pre, out, hp, h => by
    simp only [binarySort, bind_ok] at h
    obtain ⟨i, hi, h⟩ := h
    obtain ⟨-, h1, h2⟩ := bsearch_spec hl hp pre.length 0 pre.length i (by omega) (by omega) (by omega)
      (by intro j _ h; omega) (by intro j hj h; omega) hi
    exact binarySort_sorted (insert_sorted hl hp h1 h2) h

theorem pySorted_sorted {l out : List α} (h : pySorted lt l = .ok out) : out.Pairwise le := by
  simp only [pySorted, bind_ok] at h
  obtain ⟨⟨pre, rest⟩, h1, h2⟩ := h
  exact binarySort_sorted hl (countRun_sorted hl h1) h2
end

/-! ## strings -/

theorem strLt_iff : ∀ {a b : Str}, strLt a b = true ↔ a.map Char.toNat < b.map Char.toNat
  | [], [] => by simp [strLt]
  | [], _ :: _ => by simp [strLt]
  | _ :: _, [] => by simp [strLt]
  | a :: r, b :: s => by
    simp only [strLt, List.map_cons, List.cons_lt_cons_iff]
    rw [← strLt_iff (a := r) (b := s)]
    by_cases h : a.toNat < b.toNat
    · simp [h]
    · by_cases h2 : a.toNat = b.toNat
      · simp [h2]
      · simp [h, h2]

theorem strLe_iff {a b : Str} : strLt b a = false ↔ a.map Char.toNat ≤ b.map Char.toNat := by
  rw [← not_lt, ← strLt_iff, Bool.not_eq_true]

theorem strLe_antisymm {a b : Str} (h1 : strLt a b = false) (h2 : strLt b a = false) : a = b := by
  have := le_antisymm (strLe_iff.1 h2) (strLe_iff.1 h1)
  exact List.map_injective_iff.2 (fun a b h => by rw [← Char.ofNat_toNat a, h, Char.ofNat_toNat]) this


/-! ## keys -/

theorem keyLe_refl (a : Nat × ℚ × Str) : keyLe a a := by
  refine .inr ⟨rfl, .inr ⟨rfl, ?_⟩⟩
  rw [strLe_iff]

theorem keyLe_trans {a b c : Nat × ℚ × Str} (h1 : keyLe a b) (h2 : keyLe b c) : keyLe a c := by
  unfold keyLe at *
  simp only [strLe_iff] at *
  rcases h1 with h1 | ⟨e1, h1⟩
  · rcases h2 with h2 | ⟨e2, h2⟩
    · exact .inl (h1.trans h2)
    · exact .inl (e2 ▸ h1)
  · rcases h2 with h2 | ⟨e2, h2⟩
    · exact .inl (e1 ▸ h2)
    · refine .inr ⟨e1.trans e2, ?_⟩
      rcases h1 with h1 | ⟨f1, h1⟩
      · rcases h2 with h2 | ⟨f2, h2⟩
        · exact .inl (h1.trans h2)
        · exact .inl (f2 ▸ h1)
      · rcases h2 with h2 | ⟨f2, h2⟩
        · exact .inl (f1 ▸ h2)
        · exact .inr ⟨f1.trans f2, h1.trans h2⟩

theorem keyLe_antisymm {a b : Nat × ℚ × Str} (h1 : keyLe a b) (h2 : keyLe b a) : a = b := by
  obtain ⟨a1, a2, a3⟩ := a
  obtain ⟨b1, b2, b3⟩ := b
  unfold keyLe at *
  rcases h1 with h1 | ⟨e1, h1⟩
  · rcases h2 with h2 | ⟨e2, h2⟩
    · dsimp only at h1 h2; omega
    · dsimp only at h1 e2; omega
  · rcases h2 with h2 | ⟨e2, h2⟩
    · dsimp only at h2 e1; omega
    · dsimp only at *
      subst e1
      rcases h1 with h1 | ⟨f1, h1⟩
      · rcases h2 with h2 | ⟨f2, h2⟩
        · exact absurd (h1.trans h2) (lt_irrefl _)
        · exact absurd (f2 ▸ h1) (lt_irrefl _)
      · rcases h2 with h2 | ⟨f2, h2⟩
        · exact absurd (f1 ▸ h2) (lt_irrefl _)
        · subst f1
          rw [strLe_antisymm h1 h2]

open Expr in
theorem cmpLt_agrees (C : Ctors) : Agrees (cmpLt C) (fun a b => keyLe (sortKey C a) (sortKey C b)) := by
  have key : ∀ a b v, cmpLt C a b = .ok v → if v then keyLe (sortKey C a) (sortKey C b) else keyLe (sortKey C b) (sortKey C a) := by
    intro a b v h
    unfold cmpLt at h
    obtain ⟨na, hna, h1⟩ := bind_ok.1 h
    obtain ⟨nb, hnb, h2⟩ := bind_ok.1 h1
    clear h h1
    rename' h2 => h
    have ea : R.get 0 (nwf a) = na := by rw [hna]; rfl
    have eb : R.get 0 (nwf b) = nb := by rw [hnb]; rfl
    unfold keyLe sortKey
    dsimp only
    rw [ea, eb]
    have fin : (do
        let ra ← C.repr a
        let rb ← C.repr b
        return !strLt rb ra) = Except.ok v →
        if v then strLt (R.get [] (C.repr b)) (R.get [] (C.repr a)) = false
          else strLt (R.get [] (C.repr a)) (R.get [] (C.repr b)) = false := by
      intro h
      obtain ⟨ra, hra, h⟩ := bind_ok.1 h
      obtain ⟨rb, hrb, h⟩ := bind_ok.1 h
      have := (pure_ok.1 h).symm; subst this
      rw [hra, hrb]
      simp only [R.get]
      cases hs : strLt rb ra with
      | false => simp
      | true =>
        simp only [Bool.not_true, Bool.false_eq_true, if_false]
        rw [strLe_iff]
        exact (strLt_iff.1 hs).le
    split at h
    · next h0 =>
      obtain ⟨rfl, rfl⟩ := h0
      simp only [if_true, true_and, lt_irrefl, false_or]
      dsimp only at h
      split at h
      · next hne =>
        have := (pure_ok.1 h).symm; subst this
        by_cases hlt : symbolessNest a < symbolessNest b
        · simp [hlt]
        · have : symbolessNest b < symbolessNest a := by omega
          simp [hlt, this]
      · next he =>
        have he : symbolessNest a = symbolessNest b := not_not.1 he
        have := fin h
        simp only [he, lt_irrefl, true_and, false_or]
        exact this
    · next h0 =>
      split at h
      · next hne =>
        have := (pure_ok.1 h).symm; subst this
        by_cases hlt : na < nb
        · simp [hlt]
        · have : nb < na := by omega
          simp [hlt, this]
      · next he =>
        have he : na = nb := not_not.1 he
        subst he
        have hn : na ≠ 0 := fun h => h0 ⟨h, h⟩
        obtain ⟨pa, hpa, h⟩ := bind_ok.1 h
        obtain ⟨pb, hpb, h⟩ := bind_ok.1 h
        have ga : R.get 0 (constPower a) = pa := by rw [hpa]; rfl
        have gb : R.get 0 (constPower b) = pb := by rw [hpb]; rfl
        simp only [hn, if_false, ga, gb, lt_irrefl, true_and, false_or]
        split at h
        · next hne =>
          have := (pure_ok.1 h).symm; subst this
          by_cases hlt : pa < pb
          · simp [hlt]
          · have : pb < pa := lt_of_le_of_ne (not_lt.1 hlt) (Ne.symm hne)
            simp [hlt, this]
        · next he =>
          have he : pa = pb := not_not.1 he
          have := fin h
          simp only [he, lt_irrefl, true_and, false_or]
          exact this
  exact ⟨fun a b h => by simpa using key a b true h, fun a b h => by simpa using key a b false h,
    fun a b c => keyLe_trans⟩

end Simpy
