import Verif.Proofs.ScopeSearch
import Verif.Props.Symbols
import Verif.Props.Engine

/-!
# C62: the answer of `integrate` contains no variable that the search made up
-/

namespace Simpy
open Expr Node

variable {O : Oracle} {n k : Nat} {ν : Supply} {bf final : Bool} {v : Str} {e F : Expr} {T : Node}

/-- **C62** If `integrate(e, v)` has an answer, then it contains no symbols but `v` and those of `e`. The names drawn in the
search must be new and distinct, and the search must not have put a u-substitution below a filler node of ByParts.

The second condition is the missing part. Where the search has refused to repeat a problem that LinearUSub posed and then
integrates by parts, `_integrate_safely` tries LinearUSub again on the filler node, with another name, and whether it is refused
again may depend on the names (which decide the order of the terms). -/
theorem integrate_symbols_partial (hν : Fresh (fun s => s = v ∨ s ∈ syms e) ν) (hs : search O n ν bf k v e = .ok T)
    (ha : PartsApart T) (h : integrate O n ν bf k final v e = .ok (some F)) : ∀ s ∈ syms F, s = v ∨ s ∈ syms e :=
  integrate_in hν (.inl rfl) (fun _ hs => .inr hs) hs ha h

/-- **C62** The search without heuristics, with which ByParts integrates `dv`, uses no ByParts: its answers contain no other
symbols at all. -/
theorem without_heuristics_symbols (hν : Fresh (fun s => s = v ∨ s ∈ syms e) ν)
    (h : withoutHeuristics O n ν v e = .ok (some F)) : ∀ s ∈ syms F, s = v ∨ s ∈ syms e :=
  withoutHeuristics_in hν (.inl rfl) (fun _ hs => .inr hs) h

/-- **C62** A definite integral contains no symbols but those of the bounds, and those of the integrand except for the variable of
integration. -/
theorem definite_symbols_partial {a b r : Expr} (hν : Fresh (fun s => s = v ∨ s ∈ syms e) ν) (hs : search O n ν bf k v e = .ok T)
    (ha : PartsApart T) (h : integrateTop O n ν bf k e (.full v a b) = .ok (some r)) :
    ∀ s ∈ syms r, s ∈ syms a ∨ s ∈ syms b ∨ s ≠ v ∧ s ∈ syms e := by
  unfold integrateTop integrateBounds at h
  obtain ⟨o, h1, h⟩ := bind_ok.1 h
  cases o with
  | none => cases pure_ok.1 h
  | some F =>
    simp only at h
    obtain ⟨r', h2, h⟩ := bind_ok.1 h
    cases pure_ok.1 h
    have hF := integrate_symbols_partial hν hs ha h1
    unfold boundsValue at h2
    obtain ⟨fb, h3, h2⟩ := bind_ok.1 h2
    obtain ⟨fa, h4, h2⟩ := bind_ok.1 h2
    obtain ⟨d, h5, h2⟩ := bind_ok.1 h2
    have sub : ∀ {c f : Expr}, (∀ s ∈ syms c, s ∈ syms a ∨ s ∈ syms b) → subsE O n (single v c) F = .ok f →
        In (fun s => s ∈ syms a ∨ s ∈ syms b ∨ s ≠ v ∧ s ∈ syms e) f := by
      intro c f hc hf
      refine (adm_syms O _).subsE (fun s hs => by simp [syms] at hs) n (fun s hs => ?_) hf
      unfold single
      split
      · exact fun t ht => (hc t ht).imp id .inl
      · next hne =>
        intro t ht
        simp only [Option.getD_none, syms, List.mem_singleton] at ht
        subst ht
        exact .inr (.inr ⟨hne, (hF t hs).resolve_left hne⟩)
    exact simplify_in (in_subt (sub (fun s hs => .inr hs) h3) (sub (fun s hs => .inl hs) h4) h5) h2

/-! ## Example -/

/-- A supply of distinct names. -/
def newNames : Supply := fun l => 'u' :: l.flatMap fun i => List.replicate i 'a' ++ ['b']

theorem newNames_inj : ∀ l l' : List Nat, (l.flatMap fun i => List.replicate i 'a' ++ ['b']) = (l'.flatMap fun i => List.replicate i 'a' ++ ['b']) →
    l = l'
  | [], [], _ => rfl
  | [], i :: l', h => by simp at h
  | i :: l, [], h => by simp at h
  | i :: l, j :: l', h => by
    simp only [List.flatMap_cons, List.append_assoc, List.singleton_append] at h
    have key : ∀ (i j : Nat) (r r' : Str), List.replicate i 'a' ++ 'b' :: r = List.replicate j 'a' ++ 'b' :: r' → i = j ∧ r = r' := by
      intro i
      induction i with
      | zero =>
        intro j r r' h
        cases j with
        | zero => simpa using h
        | succ j => simp [List.replicate_succ] at h
      | succ i ih =>
        intro j r r' h
        cases j with
        | zero => simp [List.replicate_succ] at h
        | succ j =>
          simp only [List.replicate_succ, List.cons_append, List.cons.injEq, true_and] at h
          obtain ⟨rfl, h2⟩ := ih j r r' h
          exact ⟨rfl, h2⟩
    obtain ⟨rfl, h2⟩ := key i j _ _ h
    rw [newNames_inj l l' h2]

mutual
/-- A check for `PartsApart`. -/
def apartB : Node → Bool
  | .mk _ _ tr _ _ _ cs => (!isByParts tr || cs.all fun c => !c.isUSub) && apartBL cs
def apartBL : List Node → Bool
  | [] => true
  | c :: r => apartB c && apartBL r
end

theorem apartBL_get : ∀ {cs : List Node} {c : Node}, apartBL cs = true → c ∈ cs → apartB c = true
  | d :: r, c, h, hc => by
    rw [apartBL, Bool.and_eq_true] at h
    rcases List.mem_cons.1 hc with rfl | hc
    · exact h.1
    · exact apartBL_get h.2 hc

theorem apartB_sound : ∀ {p : List Nat} {T t c : Node}, apartB T = true → at? p T = some t → isByParts t.tr = true →
    c ∈ t.children → c.isUSub = false
  | [], .mk e v tr ty s f cs, t, c, h, ht, hb, hc => by
    cases ht
    simp only [apartB, Bool.and_eq_true, Bool.or_eq_true, Bool.not_eq_true', List.all_eq_true] at h
    simp only [Node.tr] at hb
    rcases h.1 with h | h
    · rw [hb] at h; cases h
    · exact h c hc
  | i :: p, .mk e v tr ty s f cs, t, c, h, ht, hb, hc => by
    simp only [at?, Node.children] at ht
    obtain ⟨d, hd, ht⟩ := Option.bind_eq_some_iff.1 ht
    rw [apartB, Bool.and_eq_true] at h
    exact apartB_sound (apartBL_get h.2 (List.mem_of_getElem? hd)) ht hb hc

/-- `x * y * cos(x ** 2)`, whose integral is found with `u = x ** 2`, and `x ** 2 * cos(x)`, which is integrated by parts twice:
the conditions hold. -/
example : ∃ (e e' : Expr) (T T' : Node) (F F' : Expr), Fresh (fun s => s = ['x'] ∨ s ∈ syms e) newNames ∧
    Fresh (fun s => s = ['x'] ∨ s ∈ syms e') newNames ∧
    search exactOracle 20 newNames false 3 ['x'] e = .ok T ∧ PartsApart T ∧
    integrate exactOracle 20 newNames false 3 true ['x'] e = .ok (some F) ∧
    search exactOracle 20 newNames false 3 ['x'] e' = .ok T' ∧ PartsApart T' ∧
    integrate exactOracle 20 newNames false 3 true ['x'] e' = .ok (some F') := by
  have fr : ∀ e : Expr, (∀ s ∈ syms e, s = ['x'] ∨ s = ['y']) → Fresh (fun s => s = ['x'] ∨ s ∈ syms e) newNames := by
    intro e he
    refine ⟨fun l hl => ?_, fun l l' h => newNames_inj l l' (List.cons.inj h).2⟩
    have : newNames l = ['x'] ∨ newNames l = ['y'] := by
      rcases hl with hl | hl
      · exact .inl hl
      · exact he _ hl
    rcases this with h | h <;> simp [newNames] at h
  have run : ∀ e F, (search exactOracle 20 newNames false 3 ['x'] e).map apartB = .ok true →
      integrate exactOracle 20 newNames false 3 true ['x'] e = .ok (some F) → ∃ T, search exactOracle 20 newNames false 3 ['x'] e = .ok T ∧
        PartsApart T ∧ integrate exactOracle 20 newNames false 3 true ['x'] e = .ok (some F) := by
    intro e F h h'
    cases hs : search exactOracle 20 newNames false 3 ['x'] e with
    | error er => rw [hs] at h; cases h
    | ok T =>
      rw [hs] at h
      exact ⟨T, rfl, fun p t c => apartB_sound (by simpa [Except.map] using h), h'⟩
  obtain ⟨T, h1, h2, h3⟩ := run (prod [sym ['x'], sym ['y'], trig .cos (pow (sym ['x']) (rat 2))])
    (prod [rat (1/2), sym ['y'], trig .sin (pow (sym ['x']) (rat 2))])
    (by set_option maxRecDepth 10000 in decide +kernel) (by set_option maxRecDepth 10000 in decide +kernel)
  obtain ⟨T', h4, h5, h6⟩ := run xSqCos (sum [prod [rat (-2), sum [prod [rat (-1), sym ['x'], trig .cos (sym ['x'])], trig .sin (sym ['x'])]],
      prod [trig .sin (sym ['x']), pow (sym ['x']) (rat 2)]])
    (by set_option maxRecDepth 10000 in decide +kernel) (by set_option maxRecDepth 10000 in decide +kernel)
  exact ⟨_, _, T, T', _, _, fr _ (by simp [syms, symsL]), fr _ (by simp [xSqCos, syms, symsL]), h1, h2, h3, h4, h5, h6⟩

/-- `cos(2 * x + y)` without heuristics, where LinearUSub applies, and the integral of `x * y * cos(x ** 2)` from 0 to `z`. -/
example : withoutHeuristics exactOracle 20 newNames ['x'] (trig .cos (sum [sym ['y'], prod [rat 2, sym ['x']]])) =
      .ok (some (prod [rat (1/2), trig .sin (sum [sym ['y'], prod [rat 2, sym ['x']]])])) ∧
    integrateTop exactOracle 20 newNames false 3 (prod [sym ['x'], sym ['y'], trig .cos (pow (sym ['x']) (rat 2))])
      (.full ['x'] (rat 0) (sym ['z'])) = .ok (some (prod [rat (1/2), sym ['y'], trig .sin (pow (sym ['z']) (rat 2))])) :=
  ⟨by set_option maxRecDepth 10000 in decide +kernel, by set_option maxRecDepth 10000 in decide +kernel⟩

end Simpy
