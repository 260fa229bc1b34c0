import Verif.Spec.Logger
import Verif.Proofs.MatchSound

namespace Simpy
namespace Logger
open Expr

variable {O : Oracle} {n : Nat}

theorem mem_dictSet {k : Str} {v : Datum} : ∀ {l : Data}, (l.map (·.1)).Nodup → ∀ p : Str × Datum,
    p ∈ dictSet k v l ↔ p = (k, v) ∨ (p ∈ l ∧ p.1 ≠ k)
  | [], _, p => by simp [dictSet]
  | (k', v') :: r, h, p => by
    rw [List.map_cons, List.nodup_cons] at h
    rw [dictSet]
    split
    · rename_i e
      obtain rfl := eq_of_beq e
      rw [List.mem_cons, List.mem_cons]
      constructor
      · rintro (rfl | h')
        · exact .inl rfl
        · exact .inr ⟨.inr h', fun c => h.1 (List.mem_map.2 ⟨p, h', c⟩)⟩
      · rintro (rfl | ⟨rfl | h', c⟩)
        · exact .inl rfl
        · exact absurd rfl c
        · exact .inr h'
    · rename_i e
      have e' : k' ≠ k := fun c => e (by simp [c])
      rw [List.mem_cons, mem_dictSet h.2 p, List.mem_cons]
      constructor
      · rintro (rfl | rfl | ⟨h', c⟩)
        · exact .inr ⟨.inl rfl, e'⟩
        · exact .inl rfl
        · exact .inr ⟨.inr h', c⟩
      · rintro (rfl | ⟨rfl | h', c⟩)
        · exact .inr (.inl rfl)
        · exact .inl rfl
        · exact .inr (.inr ⟨h', c⟩)

theorem dictSet_keys {k : Str} {v : Datum} : ∀ {l : Data}, (l.map (·.1)).Nodup → ((dictSet k v l).map (·.1)).Nodup
  | [], _ => by simp [dictSet]
  | (k', v') :: r, h => by
    have h0 := h
    rw [List.map_cons, List.nodup_cons] at h
    rw [dictSet]
    split
    · exact h0
    · rename_i e
      rw [List.map_cons, List.nodup_cons]
      refine ⟨fun c => ?_, dictSet_keys h.2⟩
      obtain ⟨p, hp, e1⟩ := List.mem_map.1 c
      rcases (mem_dictSet h.2 p).1 hp with rfl | ⟨h', _⟩
      · exact e (beq_iff_eq.2 e1)
      · exact h.1 (List.mem_map.2 ⟨p, h', e1⟩)

theorem sort_perm (d : Data) : (sort d).Perm d := List.perm_insertionSort _ _

theorem sort_slowest (d : Data) : Slowest (sort d) :=
  haveI : Std.Total fun a b : Str × Datum => b.2.time ≤ a.2.time := ⟨fun _ _ => le_total _ _⟩
  haveI : IsTrans (Str × Datum) fun a b => b.2.time ≤ a.2.time := ⟨fun _ _ _ h1 h2 => h2.trans h1⟩
  List.pairwise_insertionSort _ d

theorem sort_stable (d : Data) (t : ℚ) : ((sort d).filter fun p => p.2.time = t) = d.filter fun p => p.2.time = t := by
  have h1 : (d.filter fun p => p.2.time = t).Sublist (sort d) := by
    refine List.sublist_insertionSort ?_ List.filter_sublist
    refine List.pairwise_of_forall_mem_list fun a ha b hb => ?_
    simp only [List.mem_filter, decide_eq_true_eq] at ha hb
    rw [ha.2, hb.2]
  have h2 := h1.filter fun p => decide (p.2.time = t)
  rw [List.filter_filter] at h2
  simp only [Bool.and_self] at h2
  exact (h2.eq_of_length ((sort_perm d).filter _).length_eq.symm).symm

/-- The state after a history: entries are the latest ones, or old ones that were not overwritten. -/
theorem run_entries : ∀ (evs : List Event) {d d' : Data}, (d.map (·.1)).Nodup → run O n d evs = .ok d' →
    (d'.map (·.1)).Nodup ∧ ∀ k x, (k, x) ∈ d' ↔ Latest O n evs k x ∨
      ((k, x) ∈ d ∧ ∀ y, Event.log y ∈ evs → (ctors O n).repr y.expr ≠ .ok k)
  | [], d, d', hd, h => by
    cases h
    refine ⟨hd, fun k x => ?_⟩
    simp only [List.not_mem_nil, false_imp_iff, implies_true, and_true, iff_or_self]
    rintro ⟨b, a, h, _⟩
    simp at h
  | .sort :: r, d, d', hd, h => by
    simp only [run, event] at h
    have p := sort_perm d
    obtain ⟨h1, h2⟩ := run_entries r ((p.map (·.1)).nodup_iff.2 hd) h
    refine ⟨h1, fun k x => ?_⟩
    rw [h2, p.mem_iff]
    simp only [List.mem_cons, reduceCtorEq, false_or]
    refine or_congr ⟨?_, ?_⟩ .rfl
    · rintro ⟨b, a, rfl, h3, h4⟩
      exact ⟨.sort :: b, a, rfl, h3, h4⟩
    · rintro ⟨b, a, h3, h4⟩
      cases b with
      | nil => simp at h3
      | cons e b =>
        simp only [List.cons_append, List.cons.injEq] at h3
        exact ⟨b, a, h3.2, h4⟩
  | .log z :: r, d, d', hd, h => by
    simp only [run, event, log] at h
    cases hk : (ctors O n).repr z.expr with
    | error x => rw [hk] at h; cases h
    | ok k0 =>
      rw [hk] at h
      obtain ⟨h1, h2⟩ := run_entries r (dictSet_keys (k := k0) (v := z) hd) h
      refine ⟨h1, fun k x => ?_⟩
      rw [h2, mem_dictSet hd]
      constructor
      · rintro (⟨b, a, rfl, h3, h4⟩ | ⟨h3 | ⟨h3, h5⟩, h4⟩)
        · exact .inl ⟨.log z :: b, a, rfl, h3, h4⟩
        · cases h3
          exact .inl ⟨[], r, rfl, hk, h4⟩
        · refine .inr ⟨h3, fun y hy => ?_⟩
          rcases List.mem_cons.1 hy with e | hy
          · cases e
            rw [hk]
            exact fun c => h5 (by cases c; rfl)
          · exact h4 y hy
      · rintro (⟨b, a, h3, h4, h5⟩ | ⟨h3, h4⟩)
        · cases b with
          | nil =>
            simp only [List.nil_append, List.cons.injEq, Event.log.injEq] at h3
            obtain ⟨rfl, rfl⟩ := h3
            rw [hk] at h4
            cases h4
            exact .inr ⟨.inl rfl, h5⟩
          | cons e b =>
            simp only [List.cons_append, List.cons.injEq] at h3
            exact .inl ⟨b, a, h3.2, h4, h5⟩
        · refine .inr ⟨.inr ⟨h3, fun c => h4 z List.mem_cons_self ?_⟩, fun y hy => h4 y (List.mem_cons_of_mem _ hy)⟩
          rw [hk, ← c]

end Logger
end Simpy
