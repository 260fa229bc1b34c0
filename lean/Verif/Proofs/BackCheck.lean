import Verif.Proofs.SolSound

/-! Checking `Faithful` and `SolsOk` on a concrete tree. -/

namespace Simpy
open Expr
namespace Node

mutual
/-- `Faithful`, node by node. -/
def EdgesOk (G : List Nat → Goal) : Node → Prop
  | mk _ _ _ _ _ _ cs => EdgesOkL G cs.length 0 cs
def EdgesOkL (G : List Nat → Goal) (k i : Nat) : List Node → Prop
  | [] => True
  | c :: r => (∀ tr, c.tr = some tr → c.solvedLeaves ≠ [] → c.var = (G [i]).v ∧ Reduces (G []) (fun j => G [j]) i k tr) ∧
      EdgesOk (fun q => G (i :: q)) c ∧ EdgesOkL G k (i + 1) r
end

mutual
/-- `SolsOk`, node by node. -/
def StoredOk (P : List Nat → Expr → Prop) : Node → Prop
  | mk _ _ _ _ s _ cs => (∀ S, s = some S → P [] S) ∧ StoredOkL P 0 cs
def StoredOkL (P : List Nat → Expr → Prop) (i : Nat) : List Node → Prop
  | [] => True
  | c :: r => StoredOk (fun q => P (i :: q)) c ∧ StoredOkL P (i + 1) r
end

theorem edgesOkL_get {G : List Nat → Goal} {k : Nat} : ∀ {cs : List Node} {i : Nat}, EdgesOkL G k i cs → ∀ {j : Nat} {c : Node},
    cs[j]? = some c → (∀ tr, c.tr = some tr → c.solvedLeaves ≠ [] → c.var = (G [i + j]).v ∧
      Reduces (G []) (fun j => G [j]) (i + j) k tr) ∧ EdgesOk (fun q => G ((i + j) :: q)) c
  | [], _, _, _, _, h => by simp at h
  | d :: r, i, h, 0, c, hc => by
    simp only [List.getElem?_cons_zero, Option.some.injEq] at hc
    subst hc
    exact ⟨h.1, h.2.1⟩
  | d :: r, i, h, j + 1, c, hc => by
    have := edgesOkL_get h.2.2 (j := j) (by simpa using hc)
    rwa [show i + 1 + j = i + (j + 1) by omega] at this

theorem mem_solvedLeavesL : ∀ {cs : List Node} {i : Nat} {q : List Nat}, q ∈ solvedLeavesL i cs → ∃ (j : Nat) (c : Node) (q' : List Nat), cs[j]? = some c ∧
    q = (i + j) :: q' ∧ q' ∈ c.solvedLeaves
  | [], _, _, h => by simp [solvedLeavesL] at h
  | c :: r, i, q, h => by
    simp only [solvedLeavesL, List.mem_append, List.mem_map] at h
    rcases h with ⟨q', h1, rfl⟩ | h
    · exact ⟨0, c, q', by simp, rfl, h1⟩
    · obtain ⟨j, d, q', h1, h2, h3⟩ := mem_solvedLeavesL h
      exact ⟨j + 1, d, q', by simpa using h1, by rw [h2]; congr 1; omega, h3⟩

theorem solved_child {t c : Node} {i : Nat} {q : List Nat} (hc : t.children[i]? = some c) (h : i :: q ∈ t.solvedLeaves) :
    q ∈ c.solvedLeaves := by
  cases t with
  | mk e v tr ty s f cs =>
    cases cs with
    | nil => simp [Node.children] at hc
    | cons d r =>
      rw [solvedLeaves] at h
      obtain ⟨j, c', q', h1, h2, h3⟩ := mem_solvedLeavesL h
      simp only [Nat.zero_add, List.cons.injEq] at h2
      obtain ⟨rfl, rfl⟩ := h2
      simp only [Node.children] at hc
      rw [hc, Option.some.injEq] at h1
      exact h1 ▸ h3

theorem used_child : ∀ {p : List Nat} {t N c : Node} {i : Nat}, at? p t = some N → N.children[i]? = some c → t.Used (p ++ [i]) →
    c.solvedLeaves ≠ []
  | [], t, N, c, i, hN, hc, ⟨q, hq, r, hr⟩ => by
    simp only [at?, Option.some.injEq] at hN
    subst hN
    subst hr
    exact List.ne_nil_of_mem (solved_child hc hq)
  | j :: p, t, N, c, i, hN, hc, ⟨q, hq, r, hr⟩ => by
    simp only [at?] at hN
    obtain ⟨d, hd, hN⟩ := Option.bind_eq_some_iff.1 hN
    subst hr
    exact used_child hN hc ⟨_, solved_child hd hq, r, rfl⟩

theorem faithful_aux : ∀ {p : List Nat} {t N c : Node} {i : Nat} {tr : Transf} {G : List Nat → Goal}, EdgesOk G t →
    at? p t = some N → N.children[i]? = some c → c.tr = some tr → c.solvedLeaves ≠ [] →
    c.var = (G (p ++ [i])).v ∧ Reduces (G p) (fun j => G (p ++ [j])) i N.children.length tr
  | [], mk e v tr' ty s f cs, N, c, i, tr, G, h, hN, hc, ht, hu => by
    simp only [at?, Option.some.injEq] at hN
    subst hN
    have := (edgesOkL_get h hc).1 tr ht hu
    simpa [Node.children] using this
  | j :: p, mk e v tr' ty s f cs, N, c, i, tr, G, h, hN, hc, ht, hu => by
    simp only [at?] at hN
    obtain ⟨d, hd, hN⟩ := Option.bind_eq_some_iff.1 hN
    have := (edgesOkL_get h hd).2
    rw [Nat.zero_add] at this
    exact faithful_aux (G := fun q => G (j :: q)) this hN hc ht hu

theorem faithful_of {G : List Nat → Goal} {t : Node} (h : EdgesOk G t) : Faithful G t := fun _ _ _ _ _ hN hc htr hu =>
  faithful_aux h hN hc htr (used_child hN hc hu)

theorem storedOkL_get {P : List Nat → Expr → Prop} : ∀ {cs : List Node} {i : Nat}, StoredOkL P i cs → ∀ {j : Nat} {c : Node},
    cs[j]? = some c → StoredOk (fun q => P ((i + j) :: q)) c
  | [], _, _, _, _, h => by simp at h
  | d :: r, i, h, 0, c, hc => by
    simp only [List.getElem?_cons_zero, Option.some.injEq] at hc
    subst hc
    exact h.1
  | d :: r, i, h, j + 1, c, hc => by
    have := storedOkL_get h.2 (j := j) (by simpa using hc)
    rwa [show i + 1 + j = i + (j + 1) by omega] at this

theorem solsOk_of : ∀ {P : List Nat → Expr → Prop} {t : Node}, StoredOk P t → SolsOk P t := by
  intro P t h p N S hN hS
  induction p generalizing t P with
  | nil =>
    cases t with
    | mk e v tr ty s f cs =>
      simp only [at?, Option.some.injEq] at hN
      subst hN
      exact h.1 S hS
  | cons i p ih =>
    cases t with
    | mk e v tr ty s f cs =>
      simp only [at?] at hN
      obtain ⟨d, hd, hN⟩ := Option.bind_eq_some_iff.1 hN
      have := storedOkL_get h.2 hd
      rw [Nat.zero_add] at this
      exact ih this hN

end Node
end Simpy
