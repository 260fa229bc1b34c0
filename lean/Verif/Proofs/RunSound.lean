import Verif.Proofs.BackCheck
import Verif.Proofs.ScopeSearch
import Verif.Proofs.RewriteKeeps

/-! A regular run makes an antiderivative. -/

namespace Simpy
open Expr Filter Topology
namespace Node

variable {O : Oracle} {n : Nat} {ρ : Str → ℝ} {A : Str → Prop} {ν : Supply} {old : List Expr} {t c : Node}

/-- A certificate that the solved leaves of the tree solve the problem `g`. -/
inductive Cert : Goal → Node → Prop
  | mk {g : Goal} {t : Node} (h : Nat → Goal) : (∀ S, t.sol = some S → g.Solves S) →
      (∀ (i : Nat) (c : Node), t.children[i]? = some c → c.solvedLeaves ≠ [] → Cert (h i) c) →
      (∀ (i : Nat) (c : Node) (tr : Transf), t.children[i]? = some c → c.solvedLeaves ≠ [] → c.tr = some tr →
        c.var = (h i).v ∧ Reduces g h i t.children.length tr) → Cert g t

theorem settled_kid {e : Expr} {v : Str} {tr : Option Transf} {ty : NType} {s : Option Expr} {f : Bool} : ∀ {cs : List Node},
    SettledL cs → ∀ c ∈ cs, Settled c
  | [], _, c, h => by simp at h
  | d :: r, hs, c, h => by
    rcases List.mem_cons.1 h with rfl | h
    · exact hs.1
    · exact settled_kid (e := e) (v := v) (tr := tr) (ty := ty) (s := s) (f := f) hs.2 c h

theorem Settled.kid (h : Settled t) (hc : c ∈ t.children) : Settled c := by
  cases t with
  | mk e v tr ty s f cs => exact settled_kid (e := e) (v := v) (tr := tr) (ty := ty) (s := s) (f := f) h.2 c hc

theorem Settled.leaf (h : Settled t) (ht : t.type = .solution) : t.children = [] := by
  cases t with
  | mk e v tr ty s f cs => exact h.1 (.inl ht)

theorem solvedLeaves_kid {i : Nat} (hc : t.children[i]? = some c) (h : c.solvedLeaves ≠ []) : t.solvedLeaves ≠ [] := by
  have key : ∀ (cs : List Node) (i j : Nat), cs[i]? = some c → solvedLeavesL j cs ≠ [] := by
    intro cs
    induction cs with
    | nil => intro i j h; simp at h
    | cons d r ih =>
      intro i j hd hn
      rw [solvedLeavesL, List.append_eq_nil_iff] at hn
      cases i with
      | zero =>
        simp only [List.getElem?_cons_zero, Option.some.injEq] at hd
        subst hd
        exact h (List.map_eq_nil_iff.1 hn.1)
      | succ i => exact ih i (j + 1) (by simpa using hd) hn.2
  cases t with
  | mk e v tr ty s f cs =>
    cases cs with
    | nil => simp [Node.children] at hc
    | cons d r => rw [solvedLeaves]; exact key _ i 0 hc

/-- Every stored solution is at a solved leaf. -/
def SolLeaf (t : Node) : Prop := ∀ p N, at? p t = some N → N.sol ≠ none → N.solvedLeaves ≠ []

theorem SolLeaf.kid {i : Nat} (h : SolLeaf t) (hc : t.children[i]? = some c) : SolLeaf c := fun p N hN => h (i :: p) N (by
  simp only [at?, hc, Option.bind_some]; exact hN)

theorem used_of_at : ∀ {p : List Nat} {t N : Node}, at? p t = some N → N.solvedLeaves ≠ [] → t.solvedLeaves ≠ []
  | [], t, N, h, hn => by cases h; exact hn
  | i :: p, t, N, h, hn => by
    simp only [at?] at h
    obtain ⟨d, hd, h⟩ := Option.bind_eq_some_iff.1 h
    exact solvedLeaves_kid hd (used_of_at h hn)

theorem solLeaf_of (hg : Grown O n ν old t) (hs : Settled t) : SolLeaf t := by
  intro p
  induction p generalizing t ν old with
  | nil =>
    intro N h hN
    cases h
    rcases hg.labelled.1 with ⟨h1, -⟩ | ⟨h1, -⟩
    · exact absurd h1 hN
    · have := hs.leaf h1
      cases t with
      | mk e v tr ty s f cs =>
        simp only [Node.children] at this
        simp only [Node.type] at h1
        subst this h1
        simp [solvedLeaves]
  | cons i p ih =>
    intro N h
    simp only [at?] at h
    obtain ⟨d, hd, h⟩ := Option.bind_eq_some_iff.1 h
    exact ih (hg.kid hd) (hs.kid (List.mem_of_getElem? hd)) N h

theorem cert_goals {g : Goal} (hc : Cert g t) : SolLeaf t → ∃ G : List Nat → Goal, G [] = g ∧
    (∀ p N i c tr, at? p t = some N → N.children[i]? = some c → c.tr = some tr → c.solvedLeaves ≠ [] →
      c.var = (G (p ++ [i])).v ∧ Reduces (G p) (fun j => G (p ++ [j])) i N.children.length tr) ∧
    SolsOk (fun p => (G p).Solves) t := by
  induction hc with
  | @mk g t h hsol hkid hedge ih =>
  intro hl
  have ex : ∀ i : Nat, ∃ G : List Nat → Goal, G [] = h i ∧ ∀ c : Node, t.children[i]? = some c → c.solvedLeaves ≠ [] →
      (∀ p N j d tr, at? p c = some N → N.children[j]? = some d → d.tr = some tr → d.solvedLeaves ≠ [] →
        d.var = (G (p ++ [j])).v ∧ Reduces (G p) (fun j => G (p ++ [j])) j N.children.length tr) ∧ SolsOk (fun p => (G p).Solves) c := by
    intro i
    by_cases hu : ∃ c : Node, t.children[i]? = some c ∧ c.solvedLeaves ≠ []
    · obtain ⟨c, hc, hcu⟩ := hu
      obtain ⟨G, h1, h2, h3⟩ := ih i c hc hcu (hl.kid hc)
      refine ⟨G, h1, fun c' hc' _ => ?_⟩
      rw [hc] at hc'
      cases hc'
      exact ⟨h2, h3⟩
    · exact ⟨fun _ => h i, rfl, fun c hc hcu => absurd ⟨c, hc, hcu⟩ hu⟩
  choose G hG0 hG using ex
  refine ⟨fun p => match p with | [] => g | i :: p => G i p, rfl, ?_, ?_⟩
  · intro p N i c tr hN hc htr hu
    cases p with
    | nil =>
      cases hN
      have := hedge i c tr hc hu htr
      simp only [List.nil_append, hG0]
      exact this
    | cons j p =>
      simp only [at?] at hN
      obtain ⟨d, hd, hN⟩ := Option.bind_eq_some_iff.1 hN
      exact (hG j d hd (used_of_at hN (solvedLeaves_kid hc hu))).1 p N i c tr hN hc htr hu
  · intro p N S hN hS
    cases p with
    | nil => cases hN; exact hsol S hS
    | cons j p =>
      have hu := hl (j :: p) N hN (by rw [hS]; simp)
      simp only [at?] at hN
      obtain ⟨d, hd, hN⟩ := Option.bind_eq_some_iff.1 hN
      exact (hG j d hd (used_of_at hN hu)).2 p N S hN hS

/-- What a certificate is good for. -/
theorem cert_sound (hO : O.Exact) {g : Goal} (hc : Cert g t) (hl : SolLeaf t) {S : Expr} {l : List (Str × Expr × Expr)}
    (h : goBackwards O n t = .ok (S, l)) (hs : ∀ u q S, (u, q, S) ∈ l → SubstOk O n u q S) : g.Solves S := by
  obtain ⟨G, h1, h2, h3⟩ := cert_goals hc hl
  have : (G []).Solves S := goBackwards_ok h3 (faithful_steps hO n fun p N i c tr hN hc htr hu =>
    h2 p N i c tr hN hc htr (used_child hN hc hu)) h hs
  rwa [h1] at this

/-! ## The steps -/

theorem Reduces.congr {g : Goal} {h h' : Nat → Goal} {i k : Nat} {tr : Transf} (hr : Reduces g h i k tr) (htr : tr ≠ .additivity)
    (hi : h' i = h i) : Reduces g h' i k tr := by
  cases tr <;> simp only [Reduces, hi] at hr ⊢ <;> first | exact hr | exact absurd rfl htr

theorem Fresh.mono {B : Str → Prop} (h : Fresh A ν) (hB : ∀ s, B s → A s) : Fresh B ν := ⟨fun l hl => h.new l (hB _ hl), h.inj⟩

/-- A step other than ByParts. -/
theorem step_ok (hO : O.Exact) {v : Str} {tr : Transf} (htr : c.tr = some tr) (hm : MadeBy O n ν old t.expr t.var false c tr)
    (hb : isByParts t.tr = false)
    (hs : StepOk O n ρ A ν old t c tr) (hf : Fresh A ν) (he : Integrand ρ A t.expr) (hv : A t.var) (hne : tr ≠ .byParts)
    (hnt : v = t.var) :
    Integrand (pointOf ρ c) (scopeIn A v c) c.expr ∧ scopeIn A v c c.var ∧ (∀ i, Fresh (scopeIn A v c) (ν.child i)) ∧
      c.filler = false ∧ isByParts c.tr = false ∧
      (tr ≠ .additivity → ∀ i k, Reduces (posed ρ v A t.expr) (fun _ => posed (pointOf ρ c) c.var (scopeIn A v c) c.expr) i k tr) ∧
      (tr = .additivity → c.var = v ∧ pointOf ρ c = ρ ∧ scopeIn A v c = A) := by
  subst hnt
  have plain : usubOf tr = none → c.filler = false → c.var = t.var → Integrand ρ A c.expr →
      (tr ≠ .additivity → ∀ i k, Reduces (posed ρ t.var A t.expr) (fun _ => posed ρ t.var A c.expr) i k tr) →
      Integrand (pointOf ρ c) (scopeIn A t.var c) c.expr ∧ scopeIn A t.var c c.var ∧ (∀ i, Fresh (scopeIn A t.var c) (ν.child i)) ∧
      c.filler = false ∧ isByParts c.tr = false ∧
      (tr ≠ .additivity → ∀ i k, Reduces (posed ρ t.var A t.expr) (fun _ => posed (pointOf ρ c) c.var (scopeIn A t.var c) c.expr) i k tr) ∧
      (tr = .additivity → c.var = t.var ∧ pointOf ρ c = ρ ∧ scopeIn A t.var c = A) := by
    intro hu h1 h2 h3 h4
    have hp : pointOf ρ c = ρ := by simp [pointOf, htr, hu]
    have hsc : scopeIn A t.var c = A := by simp [scopeIn, htr, hu]
    rw [hp, hsc, h2]
    refine ⟨h3, hv, hf.child, h1, ?_, h4, fun _ => ⟨rfl, rfl, rfl⟩⟩
    rw [htr]
    cases tr <;> first | rfl | exact absurd rfl hne
  have keeps : usubOf tr = none → tr ≠ .additivity → (∀ k, tr ≠ .pullConstant k) → c.filler = false → c.var = t.var →
      In A c.expr → RewriteOk O n ρ t.var tr t.expr c.expr →
      Integrand (pointOf ρ c) (scopeIn A t.var c) c.expr ∧ scopeIn A t.var c c.var ∧ (∀ i, Fresh (scopeIn A t.var c) (ν.child i)) ∧
      c.filler = false ∧ isByParts c.tr = false ∧
      (tr ≠ .additivity → ∀ i k, Reduces (posed ρ t.var A t.expr) (fun _ => posed (pointOf ρ c) c.var (scopeIn A t.var c) c.expr) i k tr) ∧
      (tr = .additivity → c.var = t.var ∧ pointOf ρ c = ρ ∧ scopeIn A t.var c = A) := fun hu ha hk h1 h2 h3 h4 =>
    have h4 := rewrite_keeps hO he hm h4
    plain hu h1 h2 ⟨h4.wf, h4.reg, h3⟩ fun _ i k => rewrite_ok h4.value hu ha hk i k
  have sub : ∀ {q : Expr} {k : Nat}, usubOf tr = some q → tr ≠ .additivity → c.filler = false → c.var = ν.own k [] →
      ((∀ i k, Reduces (posed ρ t.var A t.expr) (fun _ => posedAfter ρ t.var c.var A q c.expr) i k tr) ∧
        Integrand (pointAfter ρ c.var q) (scopeAfter A t.var c.var) c.expr) →
      Integrand (pointOf ρ c) (scopeIn A t.var c) c.expr ∧ scopeIn A t.var c c.var ∧ (∀ i, Fresh (scopeIn A t.var c) (ν.child i)) ∧
      c.filler = false ∧ isByParts c.tr = false ∧
      (tr ≠ .additivity → ∀ i k, Reduces (posed ρ t.var A t.expr) (fun _ => posed (pointOf ρ c) c.var (scopeIn A t.var c) c.expr) i k tr) ∧
      (tr = .additivity → c.var = t.var ∧ pointOf ρ c = ρ ∧ scopeIn A t.var c = A) := by
    intro q k hu ha h1 h2 h3
    have hp : pointOf ρ c = pointAfter ρ c.var q := by simp [pointOf, htr, hu]
    have hsc : scopeIn A t.var c = scopeAfter A t.var c.var := by simp [scopeIn, htr, hu]
    rw [hp, hsc]
    refine ⟨h3.2, .inl rfl, fun i => ?_, h1, ?_, fun _ => h3.1, fun h => absurd h ha⟩
    · rw [h2]
      exact Fresh.mono (hf.plus i k) fun s hs => hs.imp id (·.1)
    · rw [htr]
      cases tr <;> first | rfl | exact absurd rfl hne
  have new : ∀ {k : Nat}, c.var = ν.own k [] → ¬A c.var := fun h => by rw [h]; exact hf.new _
  cases tr with
  | byParts => exact absurd rfl hne
  | pullConstant k =>
    obtain ⟨h0, h1, h2⟩ := hm
    exact plain rfl h0 h1 (pullConstant_ok (v := t.var) hO he h2 0 0).2 fun _ i k => (pullConstant_ok hO he h2 i k).1
  | additivity =>
    obtain ⟨h1, h2 | ⟨h0, ts, h2, h3⟩⟩ := hm
    · cases h2
    · rw [h2] at he
      exact plain rfl h0 h1 ((additivity_ok (v := t.var) he 0).2 _ h3) (fun h => absurd rfl h)
  | partialFractions => obtain ⟨h0, h1, h2⟩ := hm; exact keeps rfl (by simp) (by simp) h0 h1 (partialFractions_in he.scope h2) hs
  | polynomialDivision => obtain ⟨h0, h1, h2⟩ := hm; exact keeps rfl (by simp) (by simp) h0 h1 (polyDiv_in hv he.scope h2) hs
  | expand => obtain ⟨h0, h1, h2⟩ := hm; exact keeps rfl (by simp) (by simp) h0 h1 (expandT_in he.scope h2) hs
  | productToSum => obtain ⟨h0, h1, h2⟩ := hm; exact keeps rfl (by simp) (by simp) h0 h1 (productToSumUnit_in he.scope h2) hs
  | rewriteTrig => obtain ⟨h0, h1, gs, h2, h3⟩ := hm; exact keeps rfl (by simp) (by simp) h0 h1 (rewriteTrig_in he.scope h2 h3) hs
  | rewritePythagorean => obtain ⟨h0, h1, h2⟩ := hm; exact keeps rfl (by simp) (by simp) h0 h1 (rewritePythagorean_in he.scope h2) hs
  | simplify => obtain ⟨h0, h1, h2⟩ := hm; exact keeps rfl (by simp) (by simp) h0 h1 (pythagoreanSimplification_in he.scope h2) hs
  | completeTheSquare => obtain ⟨h0, h1, h2⟩ := hm; exact keeps rfl (by simp) (by simp) h0 h1 (completeTheSquare_in hv he.scope h2) hs
  | linearUSub q =>
    obtain ⟨h0, h1, h2⟩ := hm
    obtain ⟨⟨s1, s2, s3⟩, s4, s5⟩ := hs
    have := linearUSub_ok hO he hv (new h1) h2 s1 s2 s3 s4 s5
    exact sub rfl (by simp) h0 h1 ⟨fun i k => (this i k).1, (this 0 0).2⟩
  | polynomialUSub q =>
    obtain ⟨h0, h1, h2⟩ := hm
    obtain ⟨⟨s1, s2, s3⟩, s4⟩ := hs
    have := polynomialUSub_ok hO he hv (new h1) h2 s1 s2 s3 s4
    exact sub rfl (by simp) h0 h1 ⟨fun i k => (this i k).1, (this 0 0).2⟩
  | trigUSub2 q =>
    obtain ⟨h0, h1, h2⟩ := hm
    obtain ⟨s1, s2, s3⟩ := hs
    have := trigUSub2_ok hO he hv (new h1) h2 s1 s2 s3
    exact sub rfl (by simp) h0 h1 ⟨fun i k => (this i k).1, (this 0 0).2⟩
  | inverseTrigUSub q =>
    obtain ⟨h0, h1, h2⟩ := hm
    obtain ⟨s1, s2⟩ := hs
    have := inverseTrigUSub_ok hO he hv (new h1) h2 s1 s2
    exact sub rfl (by simp) h0 h1 ⟨fun i k => (this i k).1, (this 0 0).2⟩
  | genericUSub q =>
    obtain ⟨h0, h1, h2⟩ := hm
    obtain ⟨⟨s1, s2, s3⟩, s4, s5⟩ := hs
    have := genericUSub_ok hO he hv (new h1) h2 s4 s1 s2 s3 s5
    exact sub rfl (by simp) h0 h1 ⟨fun i k => (this i k).1, (this 0 0).2⟩

/-- A run without such pairs of integrations by parts. -/
theorem RunOk.plain (h1 : t.type = .solution → t.filler = false → TableOk ρ t.var t.expr)
    (h2 : ∀ (i : Nat) (c : Node) (tr : Transf), t.children[i]? = some c → c.solvedLeaves ≠ [] → c.tr = some tr → StepOk O n ρ A ν old t c tr)
    (h3 : ∀ (i : Nat) (c : Node), t.children[i]? = some c → c.solvedLeaves ≠ [] →
      RunOk O n (pointOf ρ c) (scopeIn A t.var c) (ν.child i) (oldOf c old) c) : RunOk O n ρ A ν old t :=
  .mk h1 (fun i c tr hc hu htr _ => h2 i c tr hc hu htr) fun i c hc hu _ => h3 i c hc hu

theorem RunOk.table : RunOk O n ρ A ν old t → t.type = .solution → t.filler = false → TableOk ρ t.var t.expr | .mk h _ _ => h
theorem RunOk.step? {i : Nat} {tr : Transf} : RunOk O n ρ A ν old t → t.children[i]? = some c → c.solvedLeaves ≠ [] → c.tr = some tr →
    TwiceOk O n ρ A ν old t i c ∨ StepOk O n ρ A ν old t c tr | .mk _ h _, hc, hu, htr => or_iff_not_imp_left.2 (h i c tr hc hu htr)
theorem RunOk.kid? {i : Nat} : RunOk O n ρ A ν old t → t.children[i]? = some c → c.solvedLeaves ≠ [] →
    TwiceOk O n ρ A ν old t i c ∨ RunOk O n (pointOf ρ c) (scopeIn A t.var c) (ν.child i) (oldOf c old) c
  | .mk _ _ h, hc, hu => or_iff_not_imp_left.2 (h i c hc hu)
theorem RunOk.step {i : Nat} {tr : Transf} (h : RunOk O n ρ A ν old t) (hc : t.children[i]? = some c) (hu : c.solvedLeaves ≠ [])
    (htr : c.tr = some tr) (hn : tr ≠ .byParts) : StepOk O n ρ A ν old t c tr := by
  rcases h.step? hc hu htr with h | h
  · have := h.1; rw [htr] at this; cases this; exact absurd rfl hn
  · exact h
theorem RunOk.kid {i : Nat} {tr : Transf} (h : RunOk O n ρ A ν old t) (hc : t.children[i]? = some c) (hu : c.solvedLeaves ≠ [])
    (htr : c.tr = some tr) (hn : tr ≠ .byParts) : RunOk O n (pointOf ρ c) (scopeIn A t.var c) (ν.child i) (oldOf c old) c := by
  rcases h.kid? hc hu with h | h
  · have := h.1; rw [htr] at this; cases this; exact absurd rfl hn
  · exact h

/-- The second of two integrations by parts. -/
theorem second_cert (hO : O.Exact) {e C k g : Expr} {v : Str} {a m : Node} (hs : SecondOk O n ρ A ν old e C k a m) (hg : Grown O n ν old m)
    (hse : Settled m) (hmv : m.var = v) (hv : A v) (he : Integrand ρ A e) (hm : Integrand ρ A m.expr) (hgi : Integrand ρ A g) (h0 : den ρ e ≠ 0)
    (hk : Integrand ρ A k) (hkv : v ∉ syms k) (hval : den ρ g = den ρ k * den ρ m.expr) (c1 : SolAt ρ v C (den ρ e - den ρ g))
    (c2 : ∀ s ∈ syms C, A s) (hu : m.solvedLeaves ≠ []) :
    ∃ F : ℝ, F ≠ 1 ∧ (∀ S, a.sol = some S → SolAt ρ v S ((den ρ e - den ρ g) / (1 - F)) ∧ ∀ s ∈ syms S, A s) ∧
      ∃ τ : ℝ, Cert ⟨ρ, v, τ, A⟩ m ∧ (den ρ e - den ρ g) / (1 - F) + den ρ k * τ = den ρ e := by
  subst hmv
  obtain ⟨s1, s2, s3, s4, s5⟩ := hs
  -- some child is used
  obtain ⟨j, b, hb, hbu⟩ : ∃ (j : Nat) (b : Node), m.children[j]? = some b ∧ b.solvedLeaves ≠ [] := by
    cases m with
    | mk e' v' tr ty so fi cs =>
      cases cs with
      | nil => rw [solvedLeaves] at hu; simp only [Node.type] at s1; simp [s1] at hu
      | cons d r =>
        rw [solvedLeaves] at hu
        by_contra hcon
        push Not at hcon
        refine hu ?_
        have key : ∀ (cs : List Node) (j : Nat), (∀ (i : Nat) (b : Node), cs[i]? = some b → b.solvedLeaves = []) → solvedLeavesL j cs = [] := by
          intro cs
          induction cs with
          | nil => intro j _; rfl
          | cons d r ih =>
            intro j h
            rw [solvedLeavesL, h 0 d rfl, ih (j + 1) fun i b hb => h (i + 1) b (by simpa using hb)]; rfl
        exact key _ 0 hcon
  have hbm := List.mem_of_getElem? hb
  obtain ⟨tr, htr, hmade⟩ := hg.made hb
  have htb := (s2 b hbm hbu).1
  rw [htr, Option.some.injEq] at htb
  subst htb
  obtain ⟨-, -, -, C', g', f', hp, -⟩ := hmade
  obtain ⟨s, f, q1, q2, q3, q4, ⟨r, q5, q6⟩, q7⟩ := s5 C' g' f' hp
  obtain ⟨u, du, w, hp1, hp2⟩ := hp
  obtain ⟨b1, b2, b3, b4⟩ := byPartsParts_ok hO (byPartsCheck_ok hO hm hv s3 s4 hp1) hp2
  obtain ⟨hS, hsv⟩ := byPartsFactor_ok hO he b3 h0 q1
  have hxs : m.var ∉ syms s := fun hm' => by
    have := (contains_iff m.var s).2 hm'
    rw [this] at q2; cases q2
  have hfv := Val.mul (ctors_sound hO n) (.self hk.wf hk.reg) (.self hS.wf hS.reg) q3
  have hF : Integrand ρ A f := ⟨hfv.1, hfv.2.1, (adm_syms O A).toAdmE.opMul hk.scope hS.scope q3⟩
  have hxf : m.var ∉ syms f := fun h => by
    have := (adm_syms O (fun y => y ≠ m.var)).toAdmE.opMul (a := k) (b := s) (fun y hy he => hkv (he ▸ hy)) (fun y hy he => hxs (he ▸ hy)) q3
    exact this _ h rfl
  refine ⟨den ρ f, q4, fun S hS' => ?_, (den ρ m.expr - den ρ g') / (1 - den ρ f), ?_, ?_⟩
  · rw [q5] at hS'; cases hS'
    exact byPartsSolution_ok hO c1 c2 hF hxf q4 q6
  · refine .mk (fun _ => ⟨ρ, m.var, (den ρ m.expr - den ρ g') / (1 - den ρ f), A⟩) (fun S hS' => ?_) (fun i c hc hcu => ?_) (fun i c tr hc hcu htr' => ?_)
    · rcases hg.labelled.1 with ⟨h1, -⟩ | ⟨h1, -⟩
      · rw [h1] at hS'; cases hS'
      · exact absurd h1 s1
    · have hcm := List.mem_of_getElem? hc
      obtain ⟨t1, t2⟩ := s2 c hcm hcu
      obtain ⟨r', t3, t4⟩ := q7 c hcm t1
      have hcc := (hse.kid hcm).leaf t2
      refine .mk (fun _ => posed ρ m.var A e) (fun S hS' => ?_) (fun i d hd => ?_) (fun i d tr hd => ?_)
      · rw [t3] at hS'; cases hS'
        exact byPartsSolution_ok hO b1 b2 hF hxf q4 t4
      · rw [hcc] at hd; simp at hd
      · rw [hcc] at hd; simp at hd
    · have hcm := List.mem_of_getElem? hc
      obtain ⟨t1, t2⟩ := s2 c hcm hcu
      rw [htr', Option.some.injEq] at t1
      subst t1
      obtain ⟨tr'', h1, h2⟩ := hg.made hc
      rw [htr', Option.some.injEq] at h1
      subst h1
      exact ⟨h2.2.1, rfl, rfl, fun _ => id, rfl⟩
  · have hne : (1 : ℝ) - den ρ f ≠ 0 := sub_ne_zero.2 q4.symm
    have e1 : den ρ f = den ρ k * den ρ s := hfv.2.2
    field_simp
    rw [hval, hsv, e1]; ring

/-- A regular run has a certificate. -/
theorem cert_of_run (hO : O.Exact) : ∀ {t : Node} {ρ : Str → ℝ} {A : Str → Prop} {ν : Supply} {old : List Expr}, RunOk O n ρ A ν old t →
    Grown O n ν old t → Fresh A ν → Settled t → Integrand ρ A t.expr → A t.var → isByParts t.tr = false → t.filler = false →
    Cert (posed ρ t.var A t.expr) t
  | mk e v tr ty s f cs, ρ, A, ν, old, hr, hg, hf, hse, he, hv, hb, hfi => by
    -- the filler node of ByParts
    have filler : ∀ (i : Nat) (c : Node), cs[i]? = some c → c.solvedLeaves ≠ [] → c.tr = some .byParts → Cert (posed ρ v A e) c := by
      intro i c hc hu htr
      have hmem : c ∈ cs := List.mem_of_getElem? hc
      obtain ⟨tr', htr', hm⟩ := hg.made hc
      rw [htr, Option.some.injEq] at htr'
      subst htr'
      obtain ⟨-, hcv, hce, C, g, f', hp, hfo⟩ := hm
      by_cases htw : TwiceOk O n ρ A ν old (mk e v tr ty s f cs) i c
      · obtain ⟨-, w1, w2, w3, w4, a, d, w5, w6, hdu, w7⟩ := htw
        have w7 := w7 C g f' hp
        obtain ⟨a0, da, w, hp1, hp2⟩ := hp
        obtain ⟨b1, b2, b3, b4⟩ := byPartsParts_ok hO (byPartsCheck_ok hO he hv w3 w4 hp1) hp2
        rcases hfo with ⟨f1, -⟩ | ⟨f1, f2, f3, a', rest, f4, f5, f6, f7, f8, f9, f10⟩
        · exact absurd f1 w1
        rw [w5] at f4
        simp only [List.cons.injEq] at f4
        obtain ⟨rfl, rfl⟩ := f4
        obtain ⟨d1, d2, d3⟩ := f10 d (by simp) w6
        have hcs : Settled c := hse.kid (t := mk e v tr ty s f cs) hmem
        have ha1 : a ∈ c.children := by rw [w5]; simp
        have hdc : d ∈ c.children := by rw [w5]; simp
        have has : a.children = [] := (hcs.kid ha1).leaf f9
        have hd1 : c.children[1]? = some d := by rw [w5]; rfl
        have hgd := (hg.kid hc).kid hd1
        have hau : a.sol ≠ none := by
          rcases ((hg.kid hc).kid (i := 0) (by rw [w5]; rfl)).labelled.1 with ⟨-, h2⟩ | ⟨-, S, h2, -⟩
          · exact absurd f9 h2
          · rw [h2]; simp
        -- the problem left for `d`
        have key : d.solvedLeaves ≠ [] → ∃ F τ : ℝ, (∀ S, a.sol = some S → SolAt ρ v S ((den ρ e - den ρ g) / (1 - F)) ∧ ∀ s ∈ syms S, A s) ∧
            Cert ⟨ρ, v, τ, A⟩ d ∧ (den ρ e - den ρ g) / (1 - F) + τ = den ρ e := by
          intro hdu
          rcases w7 with w7 | ⟨k, m, m1, m2, w7⟩
          · obtain ⟨F, -, g1, τ, g2, g3⟩ := second_cert hO (g := g) w7 hgd (hcs.kid hdc) d2 hv he (by rw [d3]; exact b3) b3 w2
              (Integrand.mk (by simp [WF]) (by simp [Regular, DomS]) (by simp [syms])) (by simp [syms]) (by rw [d3]; simp [den]) b1 b2 hdu
            exact ⟨F, τ, g1, g2, by simpa [den, Node.expr] using g3⟩
          · have hm0 : d.children[0]? = some m := by rw [m1]; rfl
            have hmd : m ∈ d.children := by rw [m1]; simp
            obtain ⟨tr', t1, t2⟩ := hgd.made hm0
            rw [m2, Option.some.injEq] at t1
            subst t1
            obtain ⟨t2, t3, t4⟩ := t2
            rw [d2, d3] at t4
            obtain ⟨p1, p2⟩ := pullConstant_ok (v := v) hO b3 t4 0 0
            obtain ⟨r1, r2, r3, r4, -, -, -, r5⟩ := p1
            have hmu : m.solvedLeaves ≠ [] := by
              intro h0
              refine hdu ?_
              cases d with
              | mk e1 v1 tr1 ty1 so1 fi1 cs1 =>
                simp only [Node.children] at m1
                subst m1
                rw [solvedLeaves, solvedLeavesL, h0]; rfl
            obtain ⟨F, -, g1, τ, g2, g3⟩ := second_cert hO (g := g) w7 (hgd.kid hm0) ((hcs.kid hdc).kid hmd) (t3.trans d2) hv he p2 b3 w2
              ⟨r1, r2, r4⟩ r3 r5 b1 b2 hmu
            refine ⟨F, den ρ k * τ, g1, ?_, g3⟩
            refine .mk (fun _ => ⟨ρ, v, τ, A⟩) (fun S hS => ?_) (fun j q hq hqu => ?_) (fun j q trq hq hqu htrq => ?_)
            · rcases hgd.labelled.1 with ⟨h1, -⟩ | ⟨h1, -⟩
              · rw [h1] at hS; cases hS
              · have := (hcs.kid hdc).leaf h1
                rw [m1] at this; simp at this
            · rw [m1] at hq
              match j, hq with
              | 0, hq =>
                simp only [List.getElem?_cons_zero, Option.some.injEq] at hq
                subst hq; exact g2
              | j + 1, hq => simp at hq
            · rw [m1] at hq
              match j, hq with
              | 0, hq =>
                simp only [List.getElem?_cons_zero, Option.some.injEq] at hq
                subst hq
                rw [m2, Option.some.injEq] at htrq
                subst htrq
                exact ⟨t3.trans d2, r1, r2, r3, r4, rfl, rfl, fun _ => id, rfl⟩
              | j + 1, hq => simp at hq
        have hkid : ∀ (j : Nat) (k : Node) (trk : Transf), c.children[j]? = some k → k.tr = some trk → trk = .additivity ∧ k.var = v ∧ (j = 0 ∧ k = a ∨ j = 1 ∧ k = d) := by
          intro j k trk hk htrk
          rw [w5] at hk
          match j, hk with
          | 0, hk =>
            simp only [List.getElem?_cons_zero, Option.some.injEq] at hk
            subst hk
            rw [f7] at htrk; cases htrk; exact ⟨rfl, f6, .inl ⟨rfl, rfl⟩⟩
          | 1, hk =>
            simp only [List.getElem?_cons_succ, List.getElem?_cons_zero, Option.some.injEq] at hk
            subst hk
            rw [w6] at htrk; cases htrk; exact ⟨rfl, d2, .inr ⟨rfl, rfl⟩⟩
          | j + 2, hk => simp at hk
        obtain ⟨F, τ, k1, k2, k3⟩ := key hdu
        refine .mk (fun j => if j = 0 then ⟨ρ, v, (den ρ e - den ρ g) / (1 - F), A⟩ else ⟨ρ, v, τ, A⟩) (fun S hS => ?_) (fun j k hk hku => ?_)
          (fun j k tr hk hku htr => ?_)
        · rw [f2] at hS; cases hS
        · obtain ⟨trk, htrk, -⟩ := (hg.kid hc).made hk
          obtain ⟨-, -, ⟨rfl, rfl⟩ | ⟨rfl, rfl⟩⟩ := hkid j k trk hk htrk
          · simp only [if_true]
            refine .mk (fun _ => posed ρ v A e) (fun S hS => k1 S hS) (fun i d hd => ?_) (fun i d tr hd => ?_)
            · rw [has] at hd; simp at hd
            · rw [has] at hd; simp at hd
          · exact k2
        · obtain ⟨rfl, hkv, -⟩ := hkid j k tr hk htr
          refine ⟨?_, fun m _ => ?_, ?_⟩
          · split <;> exact hkv
          · dsimp only; split <;> exact ⟨rfl, rfl, fun _ => id⟩
          · rw [w5]; simp [posed, List.range_succ, k3]
      obtain ⟨s1, s2, s3⟩ := (hr.step? hc hu htr).resolve_left htw
      obtain ⟨s4, s5⟩ := s3 C g f' hp
      obtain ⟨a, da, w, hp1, hp2⟩ := hp
      obtain ⟨b1, b2, b3, b4⟩ := byPartsParts_ok hO (byPartsCheck_ok hO he hv s1 s2 hp1) hp2
      rcases hfo with ⟨f1, f2, r, f3, f4⟩ | ⟨f1, f2, f3, a', rest, f4, f5, f6, f7, f8, f9, f10⟩
      · obtain ⟨q1, q2, q3⟩ := s4 f1
        obtain ⟨hF, hval⟩ := byPartsFactor_ok hO he b3 q2 b4
        have hxf : v ∉ syms f' := fun hm => by
          have := (contains_iff v f').2 hm
          simp only [Node.var] at q1
          rw [this] at q1; cases q1
        obtain ⟨t1, t2⟩ := byPartsSolution_ok hO b1 b2 hF hxf q3 (f4 q1)
        refine .mk (fun _ => posed ρ v A e) (fun S hS => ?_) (fun i d hd => ?_) (fun i d tr hd => ?_)
        · rw [f3] at hS
          cases hS
          refine ⟨?_, t2⟩
          have : den ρ e = (den ρ e - den ρ g) / (1 - den ρ f') := by
            have : (1 : ℝ) - den ρ f' ≠ 0 := sub_ne_zero.2 q3.symm
            simp only [Node.expr] at hval
            rw [hval]; field_simp
          simp only [posed]
          rw [this]; exact t1
        · rw [f2] at hd; simp at hd
        · rw [f2] at hd; simp at hd
      · obtain ⟨a, d, g1, g2, g3⟩ := s5 (by rw [f1]; simp)
        rw [g1] at f4
        simp only [List.cons.injEq] at f4
        obtain ⟨rfl, rfl⟩ := f4
        obtain ⟨d1, d2, d3⟩ := f10 d (by simp) g3
        have hd1 : c.children[1]? = some d := by rw [g1]; rfl
        have ha1 : a ∈ c.children := by rw [g1]; simp
        have hcs : Settled c := hse.kid (t := mk e v tr ty s f cs) hmem
        have has : a.children = [] := (hcs.kid ha1).leaf f9
        have hdc : d ∈ c.children := by rw [g1]; simp
        have hpc : pointOf ρ c = ρ := by simp [pointOf, htr, usubOf]
        have hsc : scopeIn A v c = A := by simp [scopeIn, htr, usubOf]
        have hpd : pointOf ρ d = ρ := by simp [pointOf, g3, usubOf]
        have hsd : scopeIn A c.var d = A := by simp [scopeIn, g3, usubOf]
        refine .mk (fun j => if j = 0 then ⟨ρ, v, den ρ e - den ρ g, A⟩ else posed ρ v A g) (fun S hS => ?_) (fun j k hk hku => ?_)
          (fun j k tr hk hku htr => ?_)
        · rw [f2] at hS; cases hS
        · rw [g1] at hk
          match j, hk with
          | 0, hk =>
            simp only [List.getElem?_cons_zero, Option.some.injEq] at hk
            subst hk
            simp only [if_true]
            refine .mk (fun _ => posed ρ v A e) (fun S hS => ?_) (fun i d hd => ?_) (fun i d tr hd => ?_)
            · rw [g2] at hS; cases hS; exact ⟨b1, b2⟩
            · rw [has] at hd; simp at hd
            · rw [has] at hd; simp at hd
          | 1, hk =>
            simp only [List.getElem?_cons_succ, List.getElem?_cons_zero, Option.some.injEq] at hk
            subst hk
            have hrd := ((hr.kid? hc hu).resolve_left htw).kid hd1 hku g3 (by simp)
            change RunOk O n (pointOf (pointOf ρ c) d) (scopeIn (scopeIn A v c) c.var d) _ _ d at hrd
            rw [hpc, hsc, hpd, hsd] at hrd
            have := cert_of_run hO hrd ((hg.kid hc).kid hd1) ((hf.child i).child 1) (hcs.kid hdc) (by rw [d3]; exact b3) (by rw [d2]; exact hv)
              (by rw [g3]; rfl) d1
            rw [d2, d3] at this
            exact this
          | j + 2, hk => simp at hk
        · rw [g1] at hk
          have htrk : tr = .additivity ∧ k.var = v := by
            match j, hk with
            | 0, hk =>
              simp only [List.getElem?_cons_zero, Option.some.injEq] at hk
              subst hk
              rw [f7] at htr; cases htr; exact ⟨rfl, f6⟩
            | 1, hk =>
              simp only [List.getElem?_cons_succ, List.getElem?_cons_zero, Option.some.injEq] at hk
              subst hk
              rw [g3] at htr; cases htr; exact ⟨rfl, d2⟩
            | j + 2, hk => simp at hk
          obtain ⟨rfl, hkv⟩ := htrk
          refine ⟨?_, fun m _ => ?_, ?_⟩
          · split <;> exact hkv
          · dsimp only; split <;> exact ⟨rfl, rfl, fun _ => id⟩
          · rw [g1]; simp [posed, List.range_succ]
    refine .mk (fun i => match cs[i]? with
      | some c => posed (pointOf ρ c) c.var (scopeIn A v c) c.expr
      | none => posed ρ v A (rat 0)) (fun S hS => ?_) (fun i c hc hu => ?_) (fun i c tr' hc hu htr => ?_)
    · rcases hg.labelled.1 with ⟨h1, -⟩ | ⟨h1, S', h2, h3⟩
      · rw [h1] at hS; cases hS
      · rw [h2] at hS
        cases hS
        obtain ⟨a, b, d⟩ := table_sound hO he.wf he.reg (hr.table h1 hfi) (h3 hfi)
        exact ⟨⟨d, b, a⟩, checkTable_in hv he.scope (h3 hfi)⟩
    · have hc' : cs[i]? = some c := hc
      simp only [hc']
      have hmem : c ∈ cs := List.mem_of_getElem? hc
      obtain ⟨tr', htr, hm⟩ := hg.made hc
      by_cases hne : tr' = .byParts
      · subst hne
        obtain ⟨-, hcv, hce, -⟩ := hm
        have := filler i c hc hu htr
        have hpc : pointOf ρ c = ρ := by simp [pointOf, htr, usubOf]
        have hsc : scopeIn A v c = A := by simp [scopeIn, htr, usubOf]
        rw [hpc, hsc, hcv, hce]
        exact this
      · rw [hb] at hm
        obtain ⟨a1, a2, a3, a4, a5, -, -⟩ := step_ok (v := v) hO htr hm hb (hr.step hc hu htr hne) hf he hv hne rfl
        exact cert_of_run hO (hr.kid hc hu htr hne) (hg.kid hc) (a3 i) (hse.kid (t := mk e v tr ty s f cs) hmem) a1 a2 a5 a4
    · have hc' : cs[i]? = some c := hc
      obtain ⟨tr'', htr', hm⟩ := hg.made hc
      rw [htr, Option.some.injEq] at htr'
      subst htr'
      refine ⟨by simp only [hc']; rfl, ?_⟩
      change Reduces (posed ρ v A e) _ i cs.length tr'
      by_cases hne : tr' = .byParts
      · subst hne
        obtain ⟨-, hcv, hce, -⟩ := hm
        have hpc : pointOf ρ c = ρ := by simp [pointOf, htr, usubOf]
        have hsc : scopeIn A v c = A := by simp [scopeIn, htr, usubOf]
        have hv' : c.var = v := hcv
        have he' : c.expr = e := hce
        simp [Reduces, hc', hpc, hsc, hv', he']
      · rw [hb] at hm
        have hs := hr.step hc hu htr hne
        obtain ⟨-, -, -, -, -, a6, a7⟩ := step_ok (v := v) hO htr hm hb hs hf he hv hne rfl
        by_cases ha : tr' = .additivity
        · subst ha
          obtain ⟨q1, q2⟩ := hs hb
          simp only [Node.children, Node.expr] at q1 q2
          have he2 := he
          simp only [Node.expr] at he2
          rw [q2] at he2
          have := (additivity_ok (v := v) he2 i).1
          rw [List.length_map] at this
          obtain ⟨r1, r2⟩ := this
          have key : ∀ j < cs.length, (match cs[j]? with
              | some c => posed (pointOf ρ c) c.var (scopeIn A v c) c.expr
              | none => posed ρ v A (rat 0)) = posed ρ v A ((cs.map expr).getD j (rat 0)) := by
            intro j hj
            obtain ⟨d, hd⟩ : ∃ d, cs[j]? = some d := ⟨cs[j], List.getElem?_eq_getElem hj⟩
            have hdt := q1 d (List.mem_of_getElem? hd)
            obtain ⟨trd, htrd, hmd⟩ := hg.made hd
            rw [hdt, Option.some.injEq] at htrd
            subst htrd
            have hdv : d.var = v := hmd.1
            have hpd : pointOf ρ d = ρ := by simp [pointOf, hdt, usubOf]
            have hsd : scopeIn A v d = A := by simp [scopeIn, hdt, usubOf]
            simp only [hd, hpd, hsd, hdv, List.getD_eq_getElem?_getD, List.getElem?_map, Option.map_some, Option.getD_some]
          refine ⟨fun j hj => ?_, ?_⟩
          · dsimp only; rw [key j hj]; exact ⟨rfl, rfl, fun _ => id⟩
          · rw [q2, r2]
            congr 1
            refine List.map_congr_left fun j hj => ?_
            dsimp only
            rw [key j (List.mem_range.1 hj)]
        · refine (a6 ha i cs.length).congr ha ?_
          simp only [hc']
termination_by t => sizeOf t
decreasing_by
  · have h1 := List.sizeOf_lt_of_mem hmem
    have h2 := List.sizeOf_lt_of_mem hdc
    cases c
    simp only [Node.children, Node.mk.sizeOf_spec, gt_iff_lt] at *
    omega
  · have := List.sizeOf_lt_of_mem hmem
    simp only [Node.mk.sizeOf_spec, gt_iff_lt]
    omega

/-! ## The search -/

theorem search_run_sound (hO : O.Exact) {k : Nat} {bf : Bool} {v : Str} {e S : Expr} {T : Node} {l : List (Str × Expr × Expr)}
    (hr : Regular ρ e) (hν : Fresh (fun s => s = v ∨ s ∈ syms e) ν)
    (hT : search O n ν bf k v e = .ok T) (hse : Settled T) (h1 : Keeps ρ e T.expr)
    (hrun : RunOk O n ρ (fun s => s = v ∨ s ∈ syms e) ν [] T)
    (hb : goBackwards O n T = .ok (S, l)) (hl : ∀ u q S, (u, q, S) ∈ l → SubstOk O n u q S) :
    SolAt ρ v S (den ρ e) ∧ ∀ s ∈ syms S, s = v ∨ s ∈ syms e := by
  obtain ⟨s, hs, hg, htr, hTe, hTv⟩ := search_grown hT
  have hsc : In (fun s => s = v ∨ s ∈ syms e) T.expr := by rw [hTe]; exact simplify_in (fun s hs => .inr hs) hs
  have hfi : T.filler = false := search_filler hT
  have := cert_sound hO (cert_of_run hO hrun hg hν hse ⟨h1.wf, h1.reg, hsc⟩ (.inl hTv) (by rw [htr]; rfl) hfi) (solLeaf_of hg hse) hb hl
  rw [hTv] at this
  obtain ⟨a, b⟩ := this
  simp only [posed] at a b
  rw [h1.value] at a
  exact ⟨a, b⟩

theorem withoutHeuristics_run_sound (hO : O.Exact) {v : Str} {e F : Expr} {T : Node} (he : Integrand ρ A e) (hv : A v) (hν : Fresh A ν) {t : Node}
    (hs : safely O n n ν [] (mk e v none .unset none false []) = .ok t) (ht : tableAll O n true t = .ok T) (hse : Settled T)
    (hrun : RunOk O n ρ A ν [] T) (hl : ∀ S l u q S', goBackwards O n T = .ok (S, l) → (u, q, S') ∈ l → SubstOk O n u q S')
    (h : withoutHeuristics O n ν v e = .ok (some F)) : SolAt ρ v F (den ρ e) ∧ ∀ s ∈ syms F, A s := by
  unfold withoutHeuristics at h
  rw [hs] at h
  obtain ⟨t', h1, h⟩ := bind_ok.1 h
  cases h1
  rw [ht] at h
  obtain ⟨T', h1, h⟩ := bind_ok.1 h
  cases h1
  split at h
  · cases pure_ok.1 h
  · obtain ⟨⟨S, l⟩, h3, h⟩ := bind_ok.1 h
    cases pure_ok.1 h
    obtain ⟨g1, k1⟩ := safely_grown (raw_root e v) (grown_root ν [] e v) hs
    obtain ⟨g2, k2⟩ := tableAll_grown g1 ht
    have hTe : T.expr = e := k2.expr.trans k1.expr
    have hTv : T.var = v := k2.var.trans k1.var
    have := cert_sound hO (cert_of_run hO hrun g2 hν hse (by rw [hTe]; exact he) (by rw [hTv]; exact hv)
      (by rw [k2.tr.trans k1.tr]; rfl) (k2.filler.trans k1.filler)) (solLeaf_of g2 hse) h3 (fun u q S' hm => hl _ l u q S' h3 hm)
    rw [hTv, hTe] at this
    exact this

/-! ## Isolated points -/

theorem anti_isolated {v : Str} {e F : Expr} (hr : Regular ρ e) (hF : Regular ρ F)
    (h : ∀ᶠ t in 𝓝[≠] (ρ v), AntiAt (Function.update ρ v t) v F e) : AntiAt ρ v F e := by
  have key : ∀ t, AntiAt (Function.update ρ v t) v F e → HasDerivAt (fnOf ρ v F) (fnOf ρ v e t) t := by
    intro t ht
    have := ht
    unfold AntiAt at this
    rw [Function.update_self] at this
    refine this.congr_of_eventuallyEq (.of_forall fun s => ?_)
    simp [fnOf, Function.update_idem]
  have hF0 := (openAt (v := v) F hF).1
  have he0 := (openAt (v := v) e hr).1
  have h' : ∀ᶠ t in 𝓝[≠] (ρ v), HasDerivAt (fnOf ρ v F) (fnOf ρ v e t) t := h.mono key
  have hden : fnOf ρ v e (ρ v) = den ρ e := by simp [fnOf]
  unfold AntiAt
  rw [← hden]
  have hlt : ∀ᶠ t in 𝓝[<] (ρ v), HasDerivAt (fnOf ρ v F) (fnOf ρ v e t) t :=
    h'.filter_mono (nhdsWithin_mono _ fun t (ht : t < ρ v) => ne_of_lt ht)
  have hgt : ∀ᶠ t in 𝓝[>] (ρ v), HasDerivAt (fnOf ρ v F) (fnOf ρ v e t) t :=
    h'.filter_mono (nhdsWithin_mono _ fun t (ht : ρ v < t) => ne_of_gt ht)
  obtain ⟨s1, hs1, hs1'⟩ := hlt.exists_mem
  obtain ⟨s2, hs2, hs2'⟩ := hgt.exists_mem
  have lim1 : Tendsto (deriv (fnOf ρ v F)) (𝓝[<] (ρ v)) (𝓝 (fnOf ρ v e (ρ v))) :=
    (he0.tendsto.mono_left nhdsWithin_le_nhds).congr' (hlt.mono fun t ht => ht.deriv.symm)
  have lim2 : Tendsto (deriv (fnOf ρ v F)) (𝓝[>] (ρ v)) (𝓝 (fnOf ρ v e (ρ v))) :=
    (he0.tendsto.mono_left nhdsWithin_le_nhds).congr' (hgt.mono fun t ht => ht.deriv.symm)
  have d1 := hasDerivWithinAt_Iic_of_tendsto_deriv (fun t ht => (hs1' t ht).differentiableAt.differentiableWithinAt)
    hF0.continuousWithinAt hs1 lim1
  have d2 := hasDerivWithinAt_Ici_of_tendsto_deriv (fun t ht => (hs2' t ht).differentiableAt.differentiableWithinAt)
    hF0.continuousWithinAt hs2 lim2
  simpa using d1.union d2

end Node
end Simpy
