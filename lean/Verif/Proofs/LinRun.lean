import Verif.Proofs.LinSub
import Verif.Proofs.TotalTree
import Verif.Proofs.TotalEval

/-! # Lemmas: the run of `integrate` on a linear combination of table functions -/

namespace Simpy
namespace Lin
open Expr

variable {O : Oracle} {v : Str} {u t e : Expr} {P : Expr → Prop}

/-- A class of pieces that is closed under integration, and on which `simplify` does nothing unexpected. -/
structure Closed (v : Str) (P : Expr → Prop) : Prop where
  simp : (∀ u, P u → NoTrig u) ∨ ∀ u, P u → NoRecip u
  var : P (sym v)
  table : ∀ {u : Expr}, P u → TableFn v u → match u with
    | pow (sym _) (rat q) => if q = -1 then P (log (absv (sym v)) euler) else P (varPow v (q + 1))
    | sym _ => P (varPow v 2)
    | trig .sin i => P (trig .cos i)
    | trig .cos i => P (trig .sin i)
    | u => P u

theorem closed_noTrig : Closed v NoTrig where
  simp := .inl fun _ h => h
  var := rfl
  table := by
    intro u h hu
    cases hu with
    | var => rfl
    | power q h0 h1 =>
      dsimp only
      split
      · rfl
      · unfold varPow; split <;> rfl
    | exp hL => cases hL <;> exact h
    | sin _ _ => cases h
    | cos _ _ => cases h

theorem closed_noRecip : Closed v NoRecip where
  simp := .inr fun _ h => h
  var := ⟨rfl, rfl⟩
  table := by
    intro u h hu
    cases hu with
    | var => exact ⟨by simp [varPow, containsCls, isRecipPower], by simp [varPow, containsCls, isLog]⟩
    | power q h0 h1 =>
      have hq : ¬ q < 0 := by simpa [containsCls, isRecipPower] using h.1
      dsimp only
      split
      · rename_i e; rw [e] at hq; exact absurd (by norm_num) hq
      · unfold varPow
        split
        · exact ⟨rfl, rfl⟩
        · refine ⟨?_, rfl⟩
          simp [containsCls, isRecipPower]
          linarith
    | exp hL => cases hL <;> exact h
    | sin _ _ => exact ⟨by simpa [containsCls, isRecipPower] using h.1, by simpa [containsCls, isLog] using h.2⟩
    | cos _ _ => exact ⟨by simpa [containsCls, isRecipPower] using h.1, by simpa [containsCls, isLog] using h.2⟩

/-- The table functions of the bare variable. -/
inductive Basic (v : Str) : Expr → Prop
  | var : Basic v (sym v)
  | power (q : ℚ) : q ≠ 0 → q ≠ 1 → Basic v (pow (sym v) (rat q))
  | exp : Basic v (pow euler (sym v))
  | sin : Basic v (trig .sin (sym v))
  | cos : Basic v (trig .cos (sym v))

theorem Basic.fn (h : Basic v u) : TableFn v u := by
  cases h with
  | var => exact .var
  | power q h0 h1 => exact .power q h0 h1
  | exp => exact .exp .var
  | sin => exact .sin .var rfl
  | cos => exact .cos .var rfl

/-- A table function has the bare variable, or another linear argument. -/
theorem split_fn (h : TableFn v u) : Basic v u ∨ ∃ f q g a b L, Outer f q g ∧ Linear v a b L ∧ Fits v f g L ∧ u = f L := by
  cases h with
  | var => exact .inl .var
  | power q h0 h1 => exact .inl (.power q h0 h1)
  | exp h =>
    rcases Linear.of h with rfl | ⟨a, b, hl⟩
    · exact .inl .exp
    · exact .inr ⟨_, _, _, a, b, _, .exp, hl, ⟨h, .exp h, .exp h⟩, rfl⟩
  | sin h hs =>
    rcases Linear.of h with rfl | ⟨a, b, hl⟩
    · exact .inl .sin
    · exact .inr ⟨_, _, _, a, b, _, .sin, hl, ⟨h, .sin h hs, .cos h hs⟩, rfl⟩
  | cos h hs =>
    rcases Linear.of h with rfl | ⟨a, b, hl⟩
    · exact .inl .cos
    · exact .inr ⟨_, _, _, a, b, _, .cos, hl, ⟨h, .cos h hs, .sin h hs⟩, rfl⟩

theorem Outer.basic {f g : Expr → Expr} {q : ℚ} (hf : Outer f q g) : Basic v (f (sym v)) := by
  cases hf with
  | exp => exact .exp
  | sin => exact .sin
  | cos => exact .cos

theorem Outer.ne {f g : Expr → Expr} {q : ℚ} (hf : Outer f q g) : q ≠ 0 := by
  cases hf <;> norm_num

theorem Outer.cls {f g : Expr → Expr} {q : ℚ} (hf : Outer f q g) (hc : Closed v P) {L : Expr} (hF : Fits v f g L) (h : P (f L)) :
    P (g L) := by
  have ht : TableFn v (f L) := by
    obtain ⟨hL, h1, h2⟩ := hF
    cases hf with
    | exp => exact .exp hL
    | sin => cases h1 with | sin h hs => exact .sin h hs
    | cos => cases h1 with | cos h hs => exact .cos h hs
  have := hc.table h ht
  cases hf with
  | exp => exact h
  | sin => exact this
  | cos => exact this

/-- A solution of one term: a term, and at regular points a right one. -/
structure Solves (v : Str) (P : Expr → Prop) (t F : Expr) : Prop where
  term : PTerm v P F
  sol : ∀ ρ : Str → ℝ, DomS true ρ t → SolAt ρ v F (den ρ t)

theorem mul_scale (hq : q ≠ 0) (h : Piece v u) (c : ℚ) (n : Nat) : opMul (ctors O (n + 3)) (rat c) (scale q u) = .ok (scale (c * q) u) := by
  have key : opMul (ctors O (n + 3)) (rat c) (scale q u) = prodCtor O (ctors O (n + 2)) [rat c, scale q u] := by
    unfold scale
    simp only [hq, if_false]
    split
    · cases h <;> rfl
    · rfl
  rw [key]
  rcases prod_scale (O := O) (squares_ctors (n + 1)) h c q with h | h
  · exact h
  · exact absurd h hq

theorem table_const (_hc : Closed v P) (n : Nat) (c : ℚ) : checkTable O (n + 3) v (rat c) = .ok (some (scale c (sym v))) := by
  have : (ctors O (n + 3)).prod [rat c, sym v] = .ok (scale c (sym v)) := prod_rat_unit .var c
  simp [checkTable, Expr.contains, opMul, this, bind, Except.bind, pure, Except.pure]

/-- The exponential function, sine and cosine in the table. -/
theorem outer_table {f g : Expr → Expr} {q : ℚ} (hO : O.Exact) (hf : Outer f q g) (n : Nat) :
    checkTable O (n + 3) v (f (sym v)) = .ok (some (scale q (g (sym v)))) := by
  have hct : ∀ {s : TrigFn}, s = .sin ∨ s = .cos → trigCtor O (n + 2 + 1) s (sym v) = .ok (trig s (sym v)) := fun hs =>
    LinearArg.var.trig_ctor hs rfl (n + 2)
  cases hf with
  | exp =>
    have hl : logCtor O euler euler = .ok (rat 1) := rfl
    have hd : opDiv (ctors O (n + 3)) (rat 1) (rat 1) = .ok (rat 1) := by simp [opDiv]
    have hm : opMul (ctors O (n + 3)) (rat 1) (pow euler (sym v)) = .ok (scale 1 (pow euler (sym v))) := prod_rat_unit (.exp .var) 1
    simp [checkTable, Expr.contains, tablePower, beq, bind, Except.bind, hl, hd, hm, pure, Except.pure]
  | sin =>
    have hm : opNeg (ctors O (n + 3)) (trig .cos (sym v)) = .ok (scale (-1) (trig .cos (sym v))) := prod_unit_rat hO (.cos .var rfl) (-1)
    simp [checkTable, Expr.contains, tablePower, tableLoop, standardTrig, tableX, eqWithVar, bind, Except.bind, pure, Except.pure,
      hct (.inr rfl), hm]
  | cos =>
    simp [checkTable, Expr.contains, tablePower, tableLoop, standardTrig, tableX, eqWithVar, bind, Except.bind, pure, Except.pure,
      hct (.inl rfl), scale]

/-- What the table says about a function in it. -/
theorem table_unit (hO : O.Exact) (hc : Closed v P) (h : Basic v u) (hP : P u) (n : Nat) : ∃ (q : ℚ) (w : Expr), Piece v w ∧ P w ∧ q ≠ 0 ∧
    checkTable O (n + 3) v u = .ok (some (scale q w)) := by
  have ht := hc.table hP h.fn
  cases h with
  | var =>
    have hw : Piece v (varPow v 2) := varPow_piece (by norm_num)
    have hp : (ctors O (n + 3)).pow (sym v) (rat 2) = .ok (varPow v 2) := pow_var' (n + 2) (by norm_num)
    have hm : opMul (ctors O (n + 3)) (rat (1 / 2)) (varPow v 2) = .ok (scale (1 / 2) (varPow v 2)) := by
      have := mul_scale (O := O) (q := 1) one_ne_zero hw (1 / 2) n
      simpa [scale] using this
    refine ⟨1 / 2, varPow v 2, hw, ht, by norm_num, ?_⟩
    simp only [checkTable, Expr.contains, tablePower, hp, hm, bind, Except.bind, pure, Except.pure, beq_self_eq_true,
        Bool.not_true, Bool.false_eq_true, if_false, if_true]
  | power q h0 h1 =>
    dsimp only at ht
    by_cases hq : q = -1
    · subst hq
      simp only [if_true] at ht
      exact ⟨1, _, .lnabs, ht, one_ne_zero, by simp [checkTable, Expr.contains, tablePower, beq, scale, bind, Except.bind]; rfl⟩
    · simp only [hq, if_false] at ht
      have hq1 : q + 1 ≠ 0 := fun h => hq (by linarith)
      have hw : Piece v (varPow v (q + 1)) := varPow_piece hq1
      have hp : (ctors O (n + 3)).pow (sym v) (rat (q + 1)) = .ok (varPow v (q + 1)) := pow_var' (n + 2) hq1
      have hd : opDiv (ctors O (n + 3)) (rat 1) (rat (q + 1)) = .ok (rat (1 / (q + 1))) := by
        unfold opDiv; simp only [ne_eq, hq1, not_false_eq_true, if_true]
      have ha : opAdd (ctors O (n + 3)) (rat q) (rat 1) = .ok (rat (q + 1)) := rfl
      have hm : opMul (ctors O (n + 3)) (rat (1 / (q + 1))) (varPow v (q + 1)) = .ok (scale (1 / (q + 1)) (varPow v (q + 1))) := by
        have := mul_scale (O := O) (q := 1) one_ne_zero hw (1 / (q + 1)) n
        simpa [scale] using this
      refine ⟨1 / (q + 1), _, hw, ht, one_div_ne_zero hq1, ?_⟩
      simp only [checkTable, Expr.contains, tablePower, hp, hd, ha, hm, bind, Except.bind, pure, Except.pure, beq_self_eq_true,
        Bool.true_or, beq, hq, beq_iff_eq, Bool.and_true,
        Bool.not_true, Bool.not_false, Bool.false_eq_true, if_false, if_true]
  | exp => exact ⟨1, _, .exp .var, hP, one_ne_zero, outer_table hO .exp n⟩
  | sin => exact ⟨-1, _, .cos .var rfl, ht, by norm_num, outer_table hO .sin n⟩
  | cos => exact ⟨1, _, .sin .var rfl, ht, by norm_num, outer_table hO .cos n⟩

theorem tableOk_fn (h : Basic v u) (ρ : Str → ℝ) : TableOk ρ v u := by
  refine ⟨fun x e hx => ?_, fun b e => ?_, fun e => ?_⟩
  · cases h <;> cases e
    rename_i q h0 h1
    simp only [den]
    intro hq
    exact hx (by rw [show q = -1 by exact_mod_cast hq])
  · cases h <;> cases e
    simp [den]
  · cases h <;> cases e

theorem solves_unit (hO : O.Exact) (h : Basic v u) {F : Expr} (hF : PTerm v P F) {n : Nat}
    (ht : checkTable O n v u = .ok (some F)) : Solves v P u F := by
  refine ⟨hF, fun ρ d => ?_⟩
  obtain ⟨h1, h2, h3⟩ := table_sound hO (piece_wf (.of h.fn)) d (tableOk_fn h ρ) ht
  exact ⟨h3, h2, h1⟩

theorem solves_const (hO : O.Exact) (hc : Closed v P) (c : ℚ) : Solves v P (rat c) (scale c (sym v)) := by
  refine ⟨pscale .var hc.var c, fun ρ d => ?_⟩
  obtain ⟨h1, h2, h3⟩ := table_sound (v := v) hO (e := rat c) (by simp) d ⟨fun _ e => (by cases e), fun _ e => (by cases e), fun e => (by cases e)⟩
    (table_const hc 0 c)
  exact ⟨h3, h2, h1⟩

theorem solves_scaled (hO : O.Exact) (hw : Piece v w) (hP : P w) {q : ℚ} (hq : q ≠ 0) (c : ℚ) (h : Solves v P u (scale q w)) :
    Solves v P (prod [rat c, u]) (scale (c * q) w) := by
  refine ⟨pscale hw hP _, fun ρ d => ?_⟩
  have hd : DomS true ρ u := by simpa [DomS, DomSL] using d
  have := pull_back hO (c := rat c) (by simp) (by simp [DomS]) (by simp [syms]) (h.sol ρ hd) (mul_scale hq hw c 0)
  simpa [den, denP] using this

/-! ## The tree -/

namespace Tree
open Node

variable {ν : Supply} {as : List Node} {tr : Option Transf} {ty : NType} {s : Option Expr} {f : Bool}

theorem linear_unit (h : Basic v u) (n : Nat) (w : Str) : linearUSub O n v w u = .ok none := by
  have hc : linCheck O n v u (none, none) = .ok (false, (none, none)) := by
    cases h <;> simp [linCheck, linPre, Expr.contains, linearShape, linVerdict, bind, Except.bind, pure, Except.pure]
  unfold linearUSub
  split
  · rfl
  · simp [hc, bind, Except.bind, pure, Except.pure]

theorem expandT_piece (h : Piece v u) (n : Nat) : expandT O (n + 8) u = .ok none := by
  simp [expandT, expandable_unit h (n + 3), bind, Except.bind, pure, Except.pure]

theorem safePlan_unit (h : Basic v u) (n : Nat) : safePlan O (n + 8) ν as (mk u v tr ty s f []) = .ok none := by
  have hl := linear_unit (O := O) h (n + 8) (ν.own 0 [])
  have he : expandT O (n + 8) u = .ok none := expandT_piece (.of h.fn) n
  have h1 : additivityPlan v u = .ok none := by cases h <;> rfl
  have h2 : pullConstant O (n + 8) v u = .ok none := by cases h <;> rfl
  have h3 : partialFractions O (n + 8) v u = .ok none := by cases h <;> rfl
  have h4 : polyDiv O (n + 8) (n + 8) v u = .ok none := by cases h <;> rfl
  simp only [safePlan, Node.expr, Node.var, h1, h2, h3, h4, orElseR, hl, he, Except.map, planOpt]
  split <;> simp_all

/-- The plan for a function of a linear argument is to substitute. -/
theorem safePlan_outer {φ γ : Expr → Expr} {q a b : ℚ} {L : Expr} (hO : O.Exact) (hf : Outer φ q γ) (h : Linear v a b L) (hF : Fits v φ γ L) (n : Nat) :
    safePlan O (n + 8) ν as (mk (φ L) v tr ty s f []) =
      .ok (some { kids := [leaf (scale a⁻¹ (φ (sym (ν.own 0 [])))) (ν.own 0 []) (.linearUSub L)] }) := by
  have hl := linearUSub_outer (O := O) (w := ν.own 0 []) hO hf h (n + 2)
  have he : expandT O (n + 8) (φ L) = .ok none := expandT_piece hF.2.1 n
  have h1 : additivityPlan v (φ L) = .ok none := by cases hf <;> rfl
  have h2 : pullConstant O (n + 8) v (φ L) = .ok none := by cases hf <;> rfl
  have h3 : partialFractions O (n + 8) v (φ L) = .ok none := by cases hf <;> cases h <;> rfl
  have h4 : polyDiv O (n + 8) (n + 8) v (φ L) = .ok none := by cases hf <;> cases h <;> rfl
  simp only [safePlan, Node.expr, Node.var, h1, h2, h3, h4, orElseR, hl, he, Except.map, planOpt]
  split <;> simp_all

theorem prod_single (h : TableFn v u) (n : Nat) : (ctors O (n + 1)).prod [u] = .ok u := by
  show prodCtor O (ctors O n) [u] = _
  cases h <;> simp [prodCtor, flatPL, Simpy.flatP, combineProd, combineProdLoop, deconPow, List.filter, Expr.isAcc, bind, Except.bind, pure, Except.pure]

theorem fn_mem (h : TableFn v u) : v ∈ syms u := by
  cases h with
  | exp h => simpa [syms] using h.mem
  | sin h _ => simpa [syms] using h.mem
  | cos h _ => simpa [syms] using h.mem
  | _ => simp [syms]

theorem safePlan_scaled (h : TableFn v u) (n : Nat) (c : ℚ) :
    safePlan O (n + 8) ν as (mk (prod [rat c, u]) v tr ty s f []) = .ok (some { kids := [leaf u v (.pullConstant (rat c))] }) := by
  have h2 : pullConstant O (n + 8) v (prod [rat c, u]) = .ok (some (rat c, u)) := by
    have hv : v ∈ syms u := fn_mem h
    simp [pullConstant, pullLoop, syms, hv, prod_single h, bind, Except.bind, pure, Except.pure]
  simp only [safePlan, Node.expr, Node.var, additivityPlan, h2, orElseR, Except.map, planOpt]

theorem refused_unit (h : TableFn v u) (ha : NoUnit as) (tr : Option Transf) : refused O as (mk u v tr .unset none false []) = false := by
  simp only [refused, Node.filler, Bool.not_false, Bool.true_and, List.any_eq_false]
  intro a hm
  rcases ha a hm with ⟨ts, e⟩ | ⟨ts, e⟩ <;> rw [e] <;> dsimp only [Node.expr, Node.var] <;> cases h <;> simp [eqWithVar, sameClass]

/-- The ancestors of a node in the tree of a function `u`. -/
def Above (u : Expr) (as : List Node) : Prop := ∀ a ∈ as, (∃ ts, a.expr = sum ts) ∨ ∃ c, a.expr = prod [rat c, u]

theorem Above.noUnit (h : Above u as) : NoUnit as := fun a ha => (h a ha).imp id fun ⟨_, e⟩ => ⟨_, e⟩

/-- The new integrand is not that of an ancestor. -/
theorem refused_sub {φ γ : Expr → Expr} {q a b : ℚ} {L : Expr} {x : Str} (hf : Outer φ q γ) (h : Linear v a b L)
    (ha : ∀ p ∈ as, (∃ ts, p.expr = sum ts) ∨ p.expr = φ L ∨ ∃ c, p.expr = prod [rat c, φ L]) (c : ℚ) (hc : c ≠ 0) (tr : Option Transf) :
    refused O as (mk (scale c (φ (sym x))) x tr .unset none false []) = false := by
  simp only [refused, Node.filler, Bool.not_false, Bool.true_and, List.any_eq_false]
  intro p hm
  have hno : ∀ y, eqWithVar O y x (φ L) (φ (sym x)) = false := by
    intro y
    have := h.noRename (O := O) y x x
    cases hf <;> simp [eqWithVar, this]
  have hv : ∀ {t : Expr}, (mk t x tr .unset none false []).var = x := rfl
  have he : ∀ {t : Expr}, (mk t x tr .unset none false []).expr = t := rfl
  rw [hv, he]
  unfold scale
  simp only [hc, if_false]
  rcases ha p hm with ⟨ts, e⟩ | e | ⟨d, e⟩ <;> rw [e] <;> split
  · cases hf <;> simp [eqWithVar, sameClass]
  · simp [eqWithVar, sameClass]
  · simp [hno]
  · cases hf <;> simp [eqWithVar, sameClass]
  · cases hf <;> simp [eqWithVar, sameClass]
  · simp [eqWithVar, eqWithVarL, hno]

/-- A term whose piece is in the table and in the class. -/
def QTerm (v : Str) (P : Expr → Prop) (t : Expr) : Prop := PTerm v (fun u => TableFn v u ∧ P u) t

theorem refused_term (h : QTerm v P t) (ha : ∀ a ∈ as, ∃ ts, a.expr = sum ts) (tr : Option Transf) :
    refused O as (mk t v tr .unset none false []) = false := by
  simp only [refused, Node.filler, Bool.not_false, Bool.true_and, List.any_eq_false]
  intro a hm
  obtain ⟨ts, e⟩ := ha a hm
  rw [e]
  dsimp only [Node.expr, Node.var]
  rcases h with ⟨c, rfl⟩ | ⟨u, hp, ⟨h, _⟩, rfl⟩ | ⟨c, u, hp, ⟨h, _⟩, rfl⟩
  · simp [eqWithVar, sameClass]
  · cases h <;> simp [eqWithVar, sameClass]
  · simp [eqWithVar, sameClass]

theorem addChildren_terms {ts0 : List Expr} : ∀ (ts : List Expr) (cs : List Node), (∀ t ∈ ts, QTerm v P t) →
    addChildren O [] (ts.map fun t => leaf t v .additivity) (mk (sum ts0) v tr ty s f cs) =
      mk (sum ts0) v tr ty s f (cs ++ ts.map fun t => leaf t v .additivity)
  | [], cs, _ => by simp [addChildren]
  | t :: r, cs, h => by
    have hr : refused O [mk (sum ts0) v tr ty s f cs] (leaf t v .additivity) = false :=
      refused_term (h t (by simp)) (fun a ha => by simp at ha; subst ha; exact ⟨_, rfl⟩) _
    simp only [List.map_cons, addChildren, addChild, hr, Bool.false_eq_true, if_false]
    rw [addChildren_terms r _ fun x hx => h x (by simp [hx])]
    simp

/-! ## Solutions -/

/-- The tree `d` after the table was looked up, the tree `d'` after the way back, and the solution. -/
structure Done (O : Oracle) (n : Nat) (v : Str) (tr : Option Transf) (d d' : Node) (F : Expr) : Prop where
  solved : d.isSolved = true
  notFailed : d.isFailed = false
  unfinished : unfinishedPaths d = []
  back : ∃ p l, solvedLeaves d = [p] ∧ walk O n p d = .ok (d', true, l)
  var' : d'.var = v
  tr' : d'.tr = tr
  sol' : d'.sol = some F
  sol : d.sol = none ∨ d.sol = some F

theorem done_leaf {n : Nat} {F : Expr} : Done O n v tr (mk t v tr .solution (some F) false []) (mk t v tr .solution (some F) false []) F :=
  { solved := by simp [isSolved], notFailed := by simp [isFailed], unfinished := by simp [unfinishedPaths, isFinished, isSolved]
    back := ⟨[], [], by simp [solvedLeaves], rfl⟩, var' := rfl, tr' := rfl, sol' := rfl, sol := .inr rfl }

theorem done_wrap {n : Nat} {F G : Expr} {x : Str} {τ : Transf} {d d' : Node} (h : Done O n x (some τ) d d' F) (hτ : τ ≠ .additivity)
    (hb : backStep O n τ x F = .ok G) :
    Done O n v tr (mk e v tr .unset none false [d]) (mk e v tr .unset (some G) false [d']) G := by
  obtain ⟨p, l, hp, hw⟩ := h.back
  have hback : backward O n d' [d'] = .ok G := by
    have h1 := h.sol'
    have h2 := h.tr'
    have h3 := h.var'
    unfold backward
    rw [h1, h2, h3]
    cases τ <;> first | exact hb | exact absurd rfl hτ
  exact
    { solved := by simp [isSolved, allSolved, h.solved], notFailed := by simp [isFailed, anyFailed, h.notFailed]
      unfinished := by simp [unfinishedPaths, unfinishedPathsL, h.unfinished]
      back := ⟨0 :: p, l ++ substOf d', by simp [solvedLeaves, solvedLeavesL, hp], by simp [walk, hw, hback]⟩
      var' := rfl, tr' := rfl, sol' := rfl, sol := .inl rfl }

/-- The run below a node: the safe transforms, the table, and the way back to the node with the solution `G`. -/
def Runs (O : Oracle) (n : Nat) (b : Bool) (k : Nat) (ν : Supply) (as : List Node) (v : Str) (tr : Option Transf) (t G : Expr) : Prop :=
  ∃ c d d', safely O n k ν as (mk t v tr .unset none false []) = .ok c ∧ tableAll O n b c = .ok d ∧ Done O n v tr d d' G

theorem runs_leaf {n k : Nat} {b : Bool} {F : Expr} (hp : safePlan O n ν as (mk t v tr .unset none false []) = .ok none)
    (ht : checkTable O n v t = .ok (some F)) : Runs O n b (k + 1) ν as v tr t F :=
  ⟨_, _, _, safely_none rfl hp, by simp only [tableAll, ht]; rfl, done_leaf⟩

theorem runs_one {n k : Nat} {b : Bool} {x : Str} {τ : Transf} {F G : Expr}
    (hp : safePlan O n ν as (mk t v tr .unset none false []) = .ok (some { kids := [leaf u x τ] }))
    (hr : refused O (mk t v tr .unset none false [] :: as) (leaf u x τ) = false)
    (hs : Runs O n b k (ν.child 0) (mk t v tr .unset none false [leaf u x τ] :: as) x (some τ) u F)
    (hτ : τ ≠ .additivity) (hb : backStep O n τ x F = .ok G) : Runs O n b (k + 1) ν as v tr t G := by
  obtain ⟨c, d, d', h1, h2, h3⟩ := hs
  refine ⟨mk t v tr .unset none false [c], mk t v tr .unset none false [d], _, ?_, ?_, done_wrap h3 hτ hb⟩
  · have h1' : safely O n k (ν.child 0) (mk t v tr .unset none false [leaf u x τ] :: as) (leaf u x τ) = .ok c := h1
    rw [safely]
    simp only [hp, bind, Except.bind, Option.getD, Plan.apply, addChildren, addChild, hr, Bool.false_eq_true, if_false,
      List.nil_append, Node.children, mapIdxR, h1', pure, Except.pure, withChildren]
  · simp only [tableAll, tableAllL, h2]

theorem refused_cons {p c : Node} : refused O (p :: as) c = ((!c.filler && eqWithVar O p.var c.var p.expr c.expr) || refused O as c) := by
  simp only [refused, List.any_cons]
  cases c.filler <;> simp

/-- A multiple of a function with the bare variable. -/
theorem runs_scaled {φ γ : Expr → Expr} {q : ℚ} (hO : O.Exact) (hf : Outer φ q γ) {c : ℚ} (hc : c ≠ 0) (n k : Nat) (b : Bool)
    (hno : ∀ tr, refused O as (mk (φ (sym v)) v tr .unset none false []) = false) :
    Runs O (n + 8) b (k + 2) ν as v tr (scale c (φ (sym v))) (scale (c * q) (γ (sym v))) := by
  have hb : Basic v (φ (sym v)) := hf.basic
  have leafR : ∀ {k ν as tr}, Runs O (n + 8) b (k + 1) ν as v tr (φ (sym v)) (scale q (γ (sym v))) :=
    runs_leaf (safePlan_unit hb n) (outer_table hO hf (n + 5))
  unfold scale
  simp only [hc, if_false]
  split
  · rename_i h1
    subst h1
    have := leafR (k := k + 1) (ν := ν) (as := as) (tr := tr)
    simpa [scale] using this
  · rename_i h1
    have hr : refused O (mk (prod [rat c, φ (sym v)]) v tr .unset none false [] :: as) (leaf (φ (sym v)) v (.pullConstant (rat c))) = false := by
      rw [refused_cons]
      have h2 : refused O as (leaf (φ (sym v)) v (.pullConstant (rat c))) = false := hno _
      have h3 : eqWithVar O v v (prod [rat c, φ (sym v)]) (φ (sym v)) = false := by
        cases hf <;> simp [eqWithVar, sameClass]
      rw [h2, Bool.or_false, Bool.and_eq_false_iff]
      exact .inr h3
    have := runs_one (O := O) (b := b) (k := k + 1) (ν := ν) (as := as) (tr := tr) (safePlan_scaled hb.fn n c) hr
      (leafR (k := k)) (by simp) (mul_scale hf.ne (hf.fits_var (v := v)).2.2 c (n + 5))
    simpa [scale] using this

/-- The run on a function. -/
theorem unit_runs (hO : O.Exact) (hc : Closed v P) (h : TableFn v u) (hP : P u) (ha : Above u as) (n k : Nat) (b : Bool) :
    ∃ (q : ℚ) (w : Expr), Piece v w ∧ P w ∧ q ≠ 0 ∧ Runs O (n + 8) b (k + 3) ν as v tr u (scale q w) ∧ Solves v P u (scale q w) := by
  rcases split_fn h with h | ⟨φ, q, γ, a, c, L, hf, hl, hF, rfl⟩
  · obtain ⟨q, w, hw, hPw, hq, ht⟩ := table_unit hO hc h hP (n + 5)
    exact ⟨q, w, hw, hPw, hq, runs_leaf (safePlan_unit h n) ht, solves_unit hO h (pscale hw hPw q) ht⟩
  · have hPg : P (γ L) := hf.cls hc hF hP
    have hai : a⁻¹ ≠ 0 := inv_ne_zero hl.ne
    have hne : a⁻¹ * q ≠ 0 := mul_ne_zero hai hf.ne
    refine ⟨a⁻¹ * q, γ L, hF.2.2, hPg, hne, ?_, ⟨pscale hF.2.2 hPg _, fun ρ _ => outer_sol hf hl hF ρ⟩⟩
    have hov : ∀ {ty cs}, ∀ p ∈ mk (φ L) v tr ty none false cs :: as,
        (∃ ts, p.expr = sum ts) ∨ p.expr = φ L ∨ ∃ c, p.expr = prod [rat c, φ L] := by
      intro ty cs p hp
      rcases List.mem_cons.1 hp with rfl | hp
      · exact .inr (.inl rfl)
      · exact (ha p hp).imp id .inr
    refine runs_one (safePlan_outer hO hf hl hF n) (refused_sub hf hl hov _ hai _) (runs_scaled hO hf hai n k b fun tr => ?_)
      (by simp) (replace_back hf hF _ hne (n + 4))
    have := refused_sub (O := O) (x := ν.own 0 []) hf hl
      (hov (ty := .unset) (cs := [leaf (scale a⁻¹ (φ (sym (ν.own 0 [])))) (ν.own 0 []) (.linearUSub L)])) 1 one_ne_zero tr
    simpa [scale] using this

/-- The run on a term. -/
theorem term_runs (hO : O.Exact) (hc : Closed v P) (h : QTerm v P t) (ha : ∀ a ∈ as, ∃ ts, a.expr = sum ts) (n k : Nat) (b : Bool) :
    ∃ F, Runs O (n + 8) b (k + 4) ν as v tr t F ∧ Solves v P t F := by
  rcases h with ⟨c, rfl⟩ | ⟨u, hp, ⟨h, hP⟩, rfl⟩ | ⟨c, u, hp, ⟨h, hP⟩, rfl⟩
  · exact ⟨_, runs_leaf (safePlan_rat n c) (table_const hc (n + 5) c), solves_const hO hc c⟩
  · obtain ⟨q, w, _, _, _, h1, h2⟩ := unit_runs (O := O) (ν := ν) (tr := tr) hO hc h hP (fun a hm => .inl (ha a hm)) n (k + 1) b
    exact ⟨_, h1, h2⟩
  · have hab : ∀ {ty cs}, Above u (mk (prod [rat c, u]) v tr ty none false cs :: as) := by
      intro ty cs p hp
      rcases List.mem_cons.1 hp with rfl | hp
      · exact .inr ⟨_, rfl⟩
      · exact .inl (ha p hp)
    obtain ⟨q, w, hw, hPw, hq, h1, h2⟩ := unit_runs (O := O) (ν := ν.child 0) (tr := some (.pullConstant (rat c))) hO hc h hP
      (hab (ty := .unset) (cs := [leaf u v (.pullConstant (rat c))])) n k b
    exact ⟨_, runs_one (safePlan_scaled h n c) (refused_unit h hab.noUnit _) h1 (by simp) (mul_scale hq hw c (n + 5)),
      solves_scaled hO hw hPw hq c h2⟩

/-- The run on the terms of a sum. -/
theorem list_runs (hO : O.Exact) (hc : Closed v P) (ha : ∀ a ∈ as, ∃ ts, a.expr = sum ts) (n k : Nat) (b : Bool) : ∀ (ts : List Expr) (i : Nat),
    (∀ t ∈ ts, QTerm v P t) → ∃ (cs : List Node) (xs : List Item), xs.map Item.term = ts ∧
    mapIdxR (fun i c => safely O (n + 8) (k + 4) (ν.child i) as c) i (ts.map fun t => leaf t v .additivity) = .ok cs ∧
    tableAllL O (n + 8) b cs = .ok (xs.map Item.before) ∧
    (∀ x ∈ xs, Done O (n + 8) v (some .additivity) x.before x.after x.sol) ∧ ∀ x ∈ xs, Solves v P x.term x.sol
  | [], i, _ => ⟨[], [], rfl, rfl, rfl, by simp, by simp⟩
  | t :: r, i, h => by
    obtain ⟨F, ⟨c, d, d', h1, h2, h3⟩, h4⟩ := term_runs (O := O) (ν := ν.child i) (tr := some .additivity) hO hc (h t (by simp)) ha n k b
    obtain ⟨cs, xs, e1, e2, e3, e4, e5⟩ := list_runs hO hc ha n k b r (i + 1) fun x hx => h x (by simp [hx])
    have h1' : safely O (n + 8) (k + 4) (ν.child i) as (leaf t v .additivity) = .ok c := h1
    refine ⟨c :: cs, ⟨t, d, d', F⟩ :: xs, by simp [e1], ?_, ?_, ?_, ?_⟩
    · simp only [List.map_cons, mapIdxR, h1', e2, bind, Except.bind, pure, Except.pure]
    · simp only [List.map_cons, tableAllL, h2, e3]
    · intro x hx
      rcases List.mem_cons.1 hx with rfl | hx
      exacts [h3, e4 x hx]
    · intro x hx
      rcases List.mem_cons.1 hx with rfl | hx
      exacts [h4, e5 x hx]

theorem safely_sum {ts : List Expr} {cs : List Node} (h : ∀ t ∈ ts, QTerm v P t) (n k : Nat)
    (hm : mapIdxR (fun i c => safely O (n + 8) k (ν.child i) [mk (sum ts) v none .and none false (ts.map fun t => leaf t v .additivity)] c) 0
      (ts.map fun t => leaf t v .additivity) = .ok cs) :
    safely O (n + 8) (k + 1) ν [] (mk (sum ts) v none .unset none false []) = .ok (mk (sum ts) v none .and none false cs) := by
  have hp : safePlan O (n + 8) ν [] (mk (sum ts) v none .unset none false []) =
      .ok (some { ty := some .and, kids := ts.map fun t => leaf t v .additivity }) := rfl
  rw [safely]
  simp only [hp, bind, Except.bind, Option.getD, Plan.apply, setType, addChildren_terms ts [] h, List.nil_append, Node.children]
  rw [hm]
  rfl

/-! ## The way back -/

theorem solutions_after : ∀ (xs : List Item), (∀ x ∈ xs, Done O n v tr x.before x.after x.sol) →
    solutions (xs.map Item.after) = .ok (xs.map Item.sol)
  | [], _ => rfl
  | x :: r, h => by
    simp only [List.map_cons, solutions, (h x (by simp)).sol', solutions_after r fun y hy => h y (by simp [hy])]

theorem solutions_before : ∀ (xs : List Item), (∀ x ∈ xs, Done O n v tr x.before x.after x.sol) →
    solutions (xs.map Item.before) = .error .value ∨ solutions (xs.map Item.before) = .ok (xs.map Item.sol)
  | [], _ => .inr rfl
  | x :: r, h => by
    simp only [List.map_cons, solutions]
    rcases (h x (by simp)).sol with e | e <;> rw [e]
    · exact .inl rfl
    · rcases solutions_before r fun y hy => h y (by simp [hy]) with e | e <;> rw [e]
      · exact .inl rfl
      · exact .inr rfl

theorem walkAll_done {n : Nat} {S : Expr} : ∀ (xs pre : List Item) (s : Option Expr),
    (∀ x ∈ pre, Done O n v (some .additivity) x.before x.after x.sol) →
    (∀ x ∈ xs, Done O n v (some .additivity) x.before x.after x.sol) →
    (ctors O n).sum ((pre ++ xs).map Item.sol) = .ok S →
    ∃ s' l', walkAll O n (solvedLeavesL pre.length (xs.map Item.before)) (mk e v none ty s false (pre.map Item.after ++ xs.map Item.before)) =
      .ok (mk e v none ty s' false ((pre ++ xs).map Item.after), l') ∧ (xs ≠ [] → s' = some S)
  | [], pre, s, _, _, _ => ⟨s, [], by simp [solvedLeavesL, walkAll], by simp⟩
  | x :: r, pre, s, hp, hx, hS => by
    have hd := hx x (by simp)
    have hr : ∀ y ∈ r, Done O n v (some .additivity) y.before y.after y.sol := fun y hy => hx y (by simp [hy])
    obtain ⟨p, l, hsl, hw⟩ := hd.back
    have hget : (pre.map Item.after ++ x.before :: r.map Item.before)[pre.length]? = some x.before := by
      rw [List.getElem?_append_right (by simp)]; simp
    have hset : (pre.map Item.after ++ x.before :: r.map Item.before).set pre.length x.after =
        pre.map Item.after ++ x.after :: r.map Item.before := by
      rw [List.set_append_right _ _ (by simp)]; simp
    have hsol : solutions (pre.map Item.after ++ x.after :: r.map Item.before) = .error .value ∨
        solutions (pre.map Item.after ++ x.after :: r.map Item.before) = .ok ((pre ++ x :: r).map Item.sol) := by
      rw [solutions_append (solutions_after pre hp)]
      have hc : solutions (x.after :: r.map Item.before) =
          match solutions (r.map Item.before) with | .error er => .error er | .ok ss => .ok (x.sol :: ss) := by
        simp only [solutions, hd.sol']
        cases solutions (r.map Item.before) <;> rfl
      rw [hc]
      rcases solutions_before r hr with e | e <;> rw [e]
      · exact .inl rfl
      · exact .inr (by simp)
    have hfull : r = [] → solutions (pre.map Item.after ++ x.after :: r.map Item.before) = .ok ((pre ++ x :: r).map Item.sol) := by
      rintro rfl
      have := solutions_after (O := O) (n := n) (v := v) (tr := some .additivity) (pre ++ [x]) (fun y hy => by
        rcases List.mem_append.1 hy with hy | hy
        · exact hp y hy
        · simp at hy; subst hy; exact hd)
      simpa using this
    have hstep : ∃ (s1 : Option Expr) (bb : Bool) (l1 : List (Str × Expr × Expr)), walk O n (pre.length :: p) (mk e v none ty s false (pre.map Item.after ++ x.before :: r.map Item.before)) =
        .ok (mk e v none ty s1 false (pre.map Item.after ++ x.after :: r.map Item.before), bb, l1) ∧ (r = [] → s1 = some S) := by
      simp only [walk, hget, hw, hset, backward, hd.sol', hd.tr']
      by_cases hre : r = []
      · have := hfull hre
        rw [this]
        simp only [hS]
        exact ⟨_, _, _, rfl, fun _ => rfl⟩
      · rcases hsol with e | e <;> rw [e]
        · exact ⟨_, _, _, rfl, fun h => absurd h hre⟩
        · simp only [hS]
          exact ⟨_, _, _, rfl, fun _ => rfl⟩
    obtain ⟨s1, bb, l1, hwalk, hs1⟩ := hstep
    obtain ⟨s', l', hwa, hs'⟩ := walkAll_done r (pre ++ [x]) s1 (fun y hy => by
        rcases List.mem_append.1 hy with hy | hy
        · exact hp y hy
        · simp at hy; subst hy; exact hd) hr (by simpa using hS)
    refine ⟨s', l1 ++ l', ?_, fun _ => ?_⟩
    · simp only [List.map_cons, solvedLeavesL, hsl, List.map_nil, List.cons_append, List.nil_append, walkAll, hwalk]
      have hl : (pre ++ [x]).length = pre.length + 1 := by simp
      rw [hl] at hwa
      have hwa' : walkAll O n (solvedLeavesL (pre.length + 1) (r.map Item.before))
          (mk e v none ty s1 false (pre.map Item.after ++ x.after :: r.map Item.before)) =
          .ok (mk e v none ty s' false (pre.map Item.after ++ x.after :: r.map Item.after), l') := by simpa using hwa
      rw [hwa']
      simp
    · by_cases hre : r = []
      · subst hre
        simp only [List.map_nil, solvedLeavesL, walkAll] at hwa
        have := hs1 rfl
        simp at hwa
        rw [← hwa.1, this]
      · exact hs' hre

/-! ## The whole run -/

theorem forall2_sols {ρ : Str → ℝ} : ∀ (xs : List Item), (∀ x ∈ xs, Solves v P x.term x.sol) → (∀ x ∈ xs, DomS true ρ x.term) →
    List.Forall₂ (fun S τ => SolAt ρ v S τ) (xs.map Item.sol) ((xs.map Item.term).map (den ρ))
  | [], _, _ => .nil
  | x :: r, h, hd => .cons ((h x (by simp)).sol ρ (hd x (by simp))) (forall2_sols r (fun y hy => h y (by simp [hy])) fun y hy => hd y (by simp [hy]))

/-- The run on a combination, the parts that do not depend on the strategy. -/
theorem run_comb (hO : O.Exact) (hv : v ≠ []) (hc : Closed v P) (h : PComb v (fun u => TableFn v u ∧ P u) e) (n : Nat) (b : Bool) :
    ∃ (t0 t1 : Node) (F : Expr) (l : List (Str × Expr × Expr)),
    safely O (n + 11) (n + 11) ν [] (mk e v none .unset none false []) = .ok t0 ∧ tableAll O (n + 11) b t0 = .ok t1 ∧
    t1.isSolved = true ∧ t1.isFailed = false ∧ unfinishedPaths t1 = [] ∧ goBackwards O (n + 11) t1 = .ok (F, l) ∧
    PComb v P F ∧ ∀ ρ, DomS true ρ e → SolAt ρ v F (den ρ e) := by
  rcases h with h | ⟨ts, rfl, hne, h⟩
  · obtain ⟨F, ⟨c, d, d', h1, ht, hd⟩, hs⟩ := term_runs (O := O) (ν := ν) (tr := none) (as := []) hO hc h (by simp) (n + 3) (n + 7) b
    obtain ⟨p, l, hp, hw⟩ := hd.back
    refine ⟨c, d, F, l, h1, ht, hd.solved, hd.notFailed, hd.unfinished, ?_, .inl hs.term, hs.sol⟩
    simp [goBackwards, hd.solved, hp, walkAll, hw, hd.sol']
  · obtain ⟨cs, xs, hx, hm, ht, hd, hsv⟩ := list_runs (O := O) (ν := ν)
      (as := [mk (sum ts) v none .and none false (ts.map fun t => leaf t v .additivity)]) hO hc
      (fun a ha => by simp at ha; subst ha; exact ⟨_, rfl⟩) (n + 3) (n + 6) b ts 0 h
    have hFm : ∀ G ∈ xs.map Item.sol, PTerm v P G := by
      intro G hG
      obtain ⟨x, hx, rfl⟩ := List.mem_map.1 hG
      exact (hsv x hx).term
    obtain ⟨S, hS, hcomb⟩ := sum_combs (O := O) hO hv (fun G hG => .inl (hFm G hG)) n
    have hxne : xs ≠ [] := by rintro rfl; exact hne hx.symm
    obtain ⟨s', l', hwa, hs'⟩ := walkAll_done (e := sum ts) (ty := .and) xs [] none (by simp) hd (by simpa using hS)
    have hcs : cs ≠ [] := by
      rintro rfl
      simp only [tableAllL, Except.ok.injEq] at ht
      exact hxne (List.map_eq_nil_iff.1 ht.symm)
    cases xs with
    | nil => exact absurd rfl hxne
    | cons x r =>
      have hall : allSolved ((x :: r).map Item.before) = true := by
        have : ∀ l : List Item, (∀ y ∈ l, Done O (n + 11) v (some .additivity) y.before y.after y.sol) →
            allSolved (l.map Item.before) = true := by
          intro l
          induction l with
          | nil => intro _; rfl
          | cons y l ih => intro hl; simp [allSolved, (hl y (by simp)).solved, ih fun z hz => hl z (by simp [hz])]
        exact this _ hd
      have hnone : anyFailed ((x :: r).map Item.before) = false := by
        have : ∀ l : List Item, (∀ y ∈ l, Done O (n + 11) v (some .additivity) y.before y.after y.sol) →
            anyFailed (l.map Item.before) = false := by
          intro l
          induction l with
          | nil => intro _; rfl
          | cons y l ih => intro hl; simp [anyFailed, (hl y (by simp)).notFailed, ih fun z hz => hl z (by simp [hz])]
        exact this _ hd
      have hunf : ∀ i, unfinishedPathsL i ((x :: r).map Item.before) = [] := by
        have : ∀ (l : List Item) (i : Nat), (∀ y ∈ l, Done O (n + 11) v (some .additivity) y.before y.after y.sol) →
            unfinishedPathsL i (l.map Item.before) = [] := by
          intro l
          induction l with
          | nil => intro _ _; rfl
          | cons y l ih => intro i hl; simp [unfinishedPathsL, (hl y (by simp)).unfinished, ih (i + 1) fun z hz => hl z (by simp [hz])]
        exact fun i => this _ i hd
      have hsolved : (mk (sum ts) v none .and none false ((x :: r).map Item.before)).isSolved = true := by
        simpa [isSolved] using hall
      refine ⟨_, mk (sum ts) v none .and none false ((x :: r).map Item.before), S, l', safely_sum h (n + 3) (n + 10) hm, ?_, hsolved, ?_, ?_, ?_, hcomb, ?_⟩
      · obtain ⟨t, r', e⟩ := List.exists_cons_of_ne_nil hcs
        rw [e] at ht ⊢
        simp only [tableAll, ht]
      · simpa [isFailed] using hnone
      · simpa [unfinishedPaths] using hunf 0
      · have hs : s' = some S := hs' hxne
        subst hs
        have hsl : solvedLeaves (mk (sum ts) v none .and none false ((x :: r).map Item.before)) =
            solvedLeavesL 0 ((x :: r).map Item.before) := rfl
        have hwa' : walkAll O (n + 11) (solvedLeavesL 0 ((x :: r).map Item.before))
            (mk (sum ts) v none .and none false ((x :: r).map Item.before)) =
            .ok (mk (sum ts) v none .and (some S) false ((x :: r).map Item.after), l') := by simpa using hwa
        simp only [goBackwards, hsolved, Bool.not_true, Bool.false_eq_true, if_false, hsl, hwa', Node.sol]
      · intro ρ d
        have hdt : ∀ t ∈ ts, DomS true ρ t := by rw [DomS] at d; exact (DomSL_iff ρ ts).1 d
        have := add_back hO (forall2_sols (ρ := ρ) (x :: r) (fun y hy => hsv y hy) fun y hy => hdt _ (by
          rw [← hx]; exact List.mem_map_of_mem hy)) hS
        rw [hx] at this
        simpa [den, denS_eq] using this

end Tree

theorem pcomb_of (h : IsCombination v e) (hs : Separate e) : ∃ P, Closed v P ∧ PComb v (fun u => TableFn v u ∧ P u) e := by
  have main : ∀ (P : Expr → Prop), (∀ u, TableFn v u → (∀ c, e = prod [rat c, u] → P u) ∧ (e = u → P u) ∧
      (∀ ts, e = sum ts → (∀ c, prod [rat c, u] ∈ ts → P u) ∧ (u ∈ ts → P u))) → PComb v (fun u => TableFn v u ∧ P u) e := by
    intro P hP
    rcases h with h | ⟨ts, rfl, hn, h⟩
    · left
      cases h with
      | const c => exact .inl ⟨c, rfl⟩
      | unit h => exact .inr (.inl ⟨_, .of h, ⟨h, (hP _ h).2.1 rfl⟩, rfl⟩)
      | scaled c h => exact .inr (.inr ⟨c, _, .of h, ⟨h, (hP _ h).1 c rfl⟩, rfl⟩)
    · right
      refine ⟨ts, rfl, hn, fun t ht => ?_⟩
      have := h t ht
      cases this with
      | const c => exact .inl ⟨c, rfl⟩
      | unit h => exact .inr (.inl ⟨_, .of h, ⟨h, ((hP _ h).2.2 ts rfl).2 ht⟩, rfl⟩)
      | scaled c h => exact .inr (.inr ⟨c, _, .of h, ⟨h, ((hP _ h).2.2 ts rfl).1 c ht⟩, rfl⟩)
  have memL : ∀ {p : Expr → Bool} {ts : List Expr}, containsClsL p ts = false → ∀ t ∈ ts, containsCls p t = false := by
    intro p ts
    induction ts with
    | nil => intro _ t ht; cases ht
    | cons a r ih =>
      intro h t ht
      simp only [containsClsL, Bool.or_eq_false_iff] at h
      rcases List.mem_cons.1 ht with rfl | ht
      exacts [h.1, ih h.2 t ht]
  have sub : ∀ (p : Expr → Bool), containsCls p e = false → ∀ u, (∀ c, e = prod [rat c, u] → containsCls p u = false) ∧
      (e = u → containsCls p u = false) ∧ (∀ ts, e = sum ts → (∀ c, prod [rat c, u] ∈ ts → containsCls p u = false) ∧ (u ∈ ts → containsCls p u = false)) := by
    intro p hp u
    have pr : ∀ {c : ℚ}, containsCls p (prod [rat c, u]) = false → containsCls p u = false := by
      intro c h
      simp only [containsCls, containsClsL, Bool.or_eq_false_iff] at h
      exact h.2.2.1
    refine ⟨fun c e' => pr (e' ▸ hp), fun e' => e' ▸ hp, fun ts e' => ?_⟩
    subst e'
    have hl : ∀ t ∈ ts, containsCls p t = false := by
      simp only [containsCls, Bool.or_eq_false_iff] at hp
      exact memL hp.2
    exact ⟨fun c hm => pr (hl _ hm), fun hm => hl _ hm⟩
  rcases hs with hs | hs
  · exact ⟨NoTrig, closed_noTrig, main _ fun u _ => sub _ hs u⟩
  · have hlog : ∀ u, TableFn v u → containsCls isLog u = false := by
      intro u h
      cases h with
      | exp h => have := h.noCls (p := isLog) rfl (fun _ => rfl) (fun _ => rfl) (fun _ => rfl); simp [containsCls, isLog, this]
      | sin h _ => have := h.noCls (p := isLog) rfl (fun _ => rfl) (fun _ => rfl) (fun _ => rfl); simp [containsCls, isLog, this]
      | cos h _ => have := h.noCls (p := isLog) rfl (fun _ => rfl) (fun _ => rfl) (fun _ => rfl); simp [containsCls, isLog, this]
      | _ => rfl
    refine ⟨NoRecip, closed_noRecip, main _ fun u hu => ?_⟩
    have := sub _ hs u
    exact ⟨fun c e => ⟨this.1 c e, hlog u hu⟩, fun e => ⟨this.2.1 e, hlog u hu⟩,
      fun ts e => ⟨fun c hm => ⟨(this.2.2 ts e).1 c hm, hlog u hu⟩, fun hm => ⟨(this.2.2 ts e).2 hm, hlog u hu⟩⟩⟩

open Filter Topology in
theorem sol_same {ρ : Str → ℝ} {F G : Expr} {τ : ℝ} (h : SolAt ρ v F τ) (k : Same F G) : SolAt ρ v G τ := by
  refine ⟨k.1, (k.2 ρ h.reg).1, h.deriv.congr_of_eventuallyEq ?_⟩
  have : ∀ᶠ t in 𝓝 (ρ v), DomS true (upd ρ v t) F := (openAt (v := v) F h.reg).2.1
  filter_upwards [this] with t ht
  exact (k.2 _ ht).2

theorem syms_comb (h : IsCombination v e) : ∀ x ∈ syms e, x = v := by
  have unit : ∀ {u}, TableFn v u → ∀ x ∈ syms u, x = v := by
    intro u h x hx
    cases h with
    | exp h => exact h.only x (by simpa [syms] using hx)
    | sin h _ => exact h.only x (by simpa [syms] using hx)
    | cos h _ => exact h.only x (by simpa [syms] using hx)
    | _ => simpa [syms] using hx
  have term : ∀ {t}, TableTerm v t → ∀ x ∈ syms t, x = v := by
    intro t h x hx
    cases h with
    | const c => simp [syms] at hx
    | unit h => exact unit h x hx
    | scaled c h => exact unit h x (by simpa [syms, symsL] using hx)
  rcases h with h | ⟨ts, rfl, hne, h⟩
  · exact term h
  · exact (closed_syms (fun x => x = v)).sum.2 fun t ht => term (h t ht)

theorem defaultVar_comb (h : IsCombination v e) (hv : v ∈ syms e) : defaultVar e = .ok v := by
  have h1 : (syms e).dedup = [v] := by
    have hall := syms_comb h
    have hr : syms e = List.replicate (syms e).length v := List.eq_replicate_iff.2 ⟨rfl, hall⟩
    have hne : (syms e).length ≠ 0 := by intro h0; rw [List.length_eq_zero_iff] at h0; rw [h0] at hv; simp at hv
    rw [hr, List.replicate_dedup hne]
  simp only [defaultVar, h1]

end Lin
end Simpy
