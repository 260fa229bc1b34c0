import Verif.Proofs.Heap
import Verif.Proofs.ExactOracle

/-!
# C64, C65: expressions are objects that are shared

A history is any sequence of: making an object from existing ones, using objects as operands of a sum or product, taking a
logarithm, and the nine questions whose answers are cached: nesting, symbols, expandable, the coefficients and the other factors of
a term, the base and exponent of a power, numerator and denominator, what is left without the constant factors, the `Any_`s, and
expand. `expr h i` is the expression that object `i` stands for.
-/

namespace Simpy
open Expr
namespace Heap

/-! ## C64: answers do not depend on what was asked or built before -/

/-- In every history without sums of sums or products of products (neither made nor among the answers), without a `log` that returns an old `log`, and without a
variable whose name is empty, every answer is the one that an object without caches gives. -/
theorem answers_do_not_depend_on_history_partial (O : Oracle) (ops : List Op)
    (hops : Along O (fun h op => Harmless O h op ∧ Level O h op ∧ Named op) [] ops) :
    AllRight O [] ops (run O [] ops).2 :=
  (run_good ops .nil hops).2

/-- What was answered stays true: the objects that a question was answered with stand, after any further events, for the answer that
an object without caches gives. -/
theorem answers_stay_partial (O : Oracle) (before after : List Op) (n i : Nat) (q : Query) (p : List Nat × List Nat)
    (hops : Along O (fun h op => Harmless O h op ∧ Level O h op ∧ Named op) [] (before ++ .ask n q i :: after))
    (hp : (step O (run O [] before).1 (.ask n q i)).2 = .objs (.ok p)) :
    ∃ m, found O m q (expr (run O [] before).1 i) =
      .ok (p.1.map (expr (run O [] (before ++ .ask n q i :: after)).1), p.2.map (expr (run O [] (before ++ .ask n q i :: after)).1)) := by
  obtain ⟨h1, ⟨h2, h3, h4⟩, h5⟩ := (along_append before _ []).1 hops
  have g := (run_good before .nil h1).1
  have s := step_good g _ h2 h3 h4
  have t := run_still after s.1.acyclic s.1.flat (along_imp (fun _ _ a => ⟨a.1, a.2.1⟩) after _ h5)
  have hr : (run O [] (before ++ .ask n q i :: after)).1 = (run O (step O (run O [] before).1 (.ask n q i)).1 after).1 :=
    run_append before _ []
  have hq : (askQ O n (run O [] before).1 q i).2 = .ok p := Ans.objs.inj hp
  have hb := ask_bound g hq
  have hR := s.2
  rw [hp] at hR
  obtain ⟨m, hm⟩ := hR.1 p rfl
  refine ⟨m, ?_⟩
  rw [hm, hr]
  congr 2 <;> · apply List.map_congr_left; intro j hj; exact (t.same j (hb j (by simp [hj]))).symm

/-- Asking does not change any object. -/
theorem asking_changes_nothing (O : Oracle) (h : Store) :
    (∀ k v j, expr (step O h (.nesting k v)).1 j = expr h j) ∧ (∀ n k j, expr (step O h (.symbols n k)).1 j = expr h j) ∧
      (∀ n k j, expr (step O h (.expandable n k)).1 j = expr h j) ∧
      (Acyclic h → ∀ n q k j, j < h.length → expr (step O h (.ask n q k)).1 j = expr h j) := by
  refine ⟨fun _ v j => skel_expr (nestingQ_skel v) j, fun n k j => skel_expr (symbolsQ_skel n h k) j,
    fun n k j => skel_expr (expandableQ_skel n h k) j, fun ha n q k j hj => ?_⟩
  show expr (askQ O n h q k).1 j = expr h j
  rcases askQ_cases (O := O) ha n q k with ⟨er, he, _⟩ | ⟨o, p, he, _⟩ | ⟨hs, js, ks, w, x, hk, _⟩
  · rw [he]
  · rw [he]
  · exact (skel_ext hk x).2.2 j hj

private def vx : Op := .new (.atom (sym ['x'])) []
private def vy : Op := .new (.atom (sym ['y'])) []
private def vz : Op := .new (.atom (sym ['z'])) []

/-- `x`, `y`, `s = x + y`, `p = x * s`; `p.expandable()` (which also asks `x`), `nesting(p)` and `p.symbols()`, twice each, with `p`
used as a factor in between. -/
private def calm : List Op :=
  [vx, vy, .new .sum [0, 1], .new .prod [0, 2], .expandable 9 3, .nesting 3 none, .nesting 3 (some ['y']), .symbols 9 3,
    .operands .prod [3, 0], .expandable 9 3, .nesting 3 none, .nesting 3 (some ['y']), .symbols 9 3]

private def shape : Ans → Option (Nat ⊕ Bool ⊕ List Str)
  | .num (.ok a) => some (.inl a)
  | .bool (.ok b) => some (.inr (.inl b))
  | .names (.ok l) => some (.inr (.inr l))
  | _ => none

example : Along exactOracle (fun h op => Harmless exactOracle h op ∧ Level exactOracle h op ∧ Named op) [] calm := by
  simp only [calm, Along, vx, vy, Harmless, Level, Named]
  refine ⟨?_, ?_, ?_, ?_, ?_, ?_, ?_, ?_, ?_, ?_, ?_, ?_, ?_, trivial⟩ <;> try (simp; done)
  · simp [step, Head.fits, Head.sameAssoc]
  · simp [step, Head.fits, Head.sameAssoc]

example : (run exactOracle [] calm).2.map shape = [none, none, none, none, some (.inr (.inl true)), some (.inl 3), some (.inl 3),
    some (.inr (.inr [['x'], ['x'], ['y']])), none, some (.inr (.inl true)), some (.inl 3), some (.inl 3),
    some (.inr (.inr [['x'], ['x'], ['y']]))] := by
  decide +kernel

/-- The same objects: `p.expand()`, the coefficients of `p`, the parts of its expansion, and all of it again. -/
private def asking : List Op :=
  [vx, vy, .new .sum [0, 1], .new .prod [0, 2], .ask 20 .expand 3, .ask 20 .coeffs 3, .operands .prod [3, 0], .ask 20 .expand 3,
    .ask 20 .sans 3, .ask 20 .numDen 3, .ask 20 .power 0, .ask 20 .power 0]

private def objects : Ans → Option (List Nat × List Nat)
  | .objs (.ok p) => some p
  | _ => none

/-- The expansion `x**2 + x*y` gets new objects, the last of which is number 10; the second time nothing new is made. -/
example : (run exactOracle [] asking).2.map objects = [none, none, none, none, some ([10], []), some ([11], [0, 2]), none,
    some ([10], []), some ([3], [12]), some ([3], [13]), some ([0], [14]), some ([0], [14])] ∧
    expr (run exactOracle [] asking).1 10 = sum [pow (sym ['x']) (rat 2), prod [sym ['x'], sym ['y']]] := by
  constructor <;> · set_option maxRecDepth 10000 in decide +kernel

example : Along exactOracle (fun h op => Harmless exactOracle h op ∧ Level exactOracle h op ∧ Named op) [] asking := by
  have hlev : ∀ (h : Store) (n i : Nat) (q : Query), (match found exactOracle n q (expr h i) with
      | .ok p => (p.1 ++ p.2).all fun e => decide (flatE e = e)
      | .error _ => true) = true → Level exactOracle h (.ask n q i) := by
    intro h n i q hh p hp
    rw [hp] at hh
    simpa only [List.all_eq_true, decide_eq_true_eq] using hh
  simp only [asking, Along, vx, vy, Harmless, Named, true_and, and_true]
  refine ⟨by simp [Level], by simp [Level], ?_, ?_, hlev _ _ _ _ ?_, hlev _ _ _ _ ?_, trivial, hlev _ _ _ _ ?_, hlev _ _ _ _ ?_,
    hlev _ _ _ _ ?_, hlev _ _ _ _ ?_, hlev _ _ _ _ ?_⟩
  · simp [Level, step, Head.fits, Head.sameAssoc]
  · simp [Level, step, Head.fits, Head.sameAssoc]
  all_goals set_option maxRecDepth 10000 in decide +kernel

/-- The sum of sums that the program makes for `(3 * (y + x) + z) - 2 * (y + x)`. -/
example : (do
    let s ← opAdd (ctors exactOracle 30) (sym ['x']) (sym ['y'])
    let a ← opMul (ctors exactOracle 30) (rat 3) s
    let b ← opAdd (ctors exactOracle 30) a (sym ['z'])
    let c ← opMul (ctors exactOracle 30) (rat (-2)) s
    opAdd (ctors exactOracle 30) b c) = .ok (sum [sum [sym ['y'], sym ['x']], sym ['z']]) := by
  set_option maxRecDepth 10000 in decide +kernel

/-- `t = (y + x) + z`, nested, as above. -/
private def nested : List Op := [vx, vy, vz, .new .sum [1, 0], .new .sum [3, 2]]

/-- Without the first hypothesis the claim fails: for the nested sum `t`, `nesting(t)` is 3; after `t` has been used as a summand,
`nesting(t)` is still 3, although `t` is now `y + x + z`, whose nesting is 2. (Without the first question the answer is 2.) -/
theorem answers_depend_on_history_of_nested_sums_fails :
    (run exactOracle [] (nested ++ [.nesting 4 none, .operands .sum [4], .nesting 4 none])).2.map shape =
        [none, none, none, none, none, some (.inl 3), none, some (.inl 3)] ∧
      (run exactOracle [] (nested ++ [.operands .sum [4], .nesting 4 none])).2.map shape =
        [none, none, none, none, none, none, some (.inl 2)] ∧
      nesting exactOracle none (expr (run exactOracle [] (nested ++ [.nesting 4 none, .operands .sum [4]])).1 4) = .ok 2 :=
  ⟨by decide +kernel, by decide +kernel, by decide +kernel⟩

/-! ## C65: using an expression as an operand does not change it -/

/-- In every history that has no `log` returning an old `log`, every object keeps its class and its value, and stays the same
expression up to the flattening of nested sums and products; no expression becomes part of itself. -/
theorem operands_keep_their_value_partial (O : Oracle) (h : Store) (ha : Acyclic h) (ops : List Op) (hops : Along O (Harmless O) h ops) :
    (∀ (i : Nat) (o : Obj), h[i]? = some o → ∃ o' : Obj, (run O h ops).1[i]? = some o' ∧ o'.head = o.head) ∧
      (∀ i, i < h.length → flatE (expr (run O h ops).1 i) = flatE (expr h i)) ∧
      (∀ ρ i, i < h.length → den ρ (expr (run O h ops).1 i) = den ρ (expr h i)) ∧
      ∀ i, ¬ Part (run O h ops).1 i i := by
  have s := run_later ops ha hops
  exact ⟨s.heads, s.same, fun ρ i hi => by rw [← den_flatE, ← den_flatE ρ (expr h i)]; exact congrArg _ (s.same i hi),
    fun i hp => absurd (part_lt s.acyclic hp) (lt_irrefl _)⟩

/-- If moreover there are no sums of sums and no products of products, every object stays exactly the same expression. -/
theorem operands_do_not_change_partial (O : Oracle) (h : Store) (ha : Acyclic h) (hf : Flat h) (ops : List Op)
    (hops : Along O (fun h op => Harmless O h op ∧ Level O h op) h ops) (i : Nat) (hi : i < h.length) :
    expr (run O h ops).1 i = expr h i :=
  (run_still ops ha hf hops).same i hi

/-- Every store that a history without such logarithms produces qualifies. -/
theorem made_objects_are_acyclic (O : Oracle) (ops : List Op) (hops : Along O (Harmless O) [] ops) : Acyclic (run O [] ops).1 :=
  (run_later ops (Good.nil (O := O)).acyclic hops).acyclic

example : Along exactOracle (Harmless exactOracle) [] nested := by
  simp [nested, Along, vx, vy, vz, Harmless]

example : Acyclic (run exactOracle [] nested).1 ∧ 4 < (run exactOracle [] nested).1.length ∧
    Along exactOracle (Harmless exactOracle) (run exactOracle [] nested).1 [.operands .sum [4, 2], .log 4 2, .nesting 4 none] := by
  refine ⟨made_objects_are_acyclic _ _ (by simp [nested, Along, vx, vy, vz, Harmless]), by decide +kernel, trivial, ?_, trivial,
    trivial⟩
  intro j hj
  have : logOf exactOracle (step exactOracle (run exactOracle [] nested).1 (.operands .sum [4, 2])).1 4 2 = none := by decide +kernel
  rw [this] at hj
  cases hj

/-- In general the expression does change: the nested sum has two terms before it is used as a summand, and three afterwards. -/
theorem operand_changed_fails :
    expr (run exactOracle [] nested).1 4 = sum [sum [sym ['y'], sym ['x']], sym ['z']] ∧
      expr (run exactOracle [] (nested ++ [.operands .sum [4]])).1 4 = sum [sym ['y'], sym ['x'], sym ['z']] := by
  decide +kernel

/-- `l = log(x, 2)`, `p = e ** l`. -/
private def logs : List Op :=
  [vx, .new (.atom (rat 2)) [], .log 0 1, .new (.atom euler) [], .new .pow [3, 2]]

/-- And `log(e ** l)`, where `l` is `log(x, 2)`, makes `l` a part of itself: `l` is returned, and becomes `log(e ** l)`. -/
theorem log_part_of_itself_fails :
    expr (run exactOracle [] logs).1 2 = log (sym ['x']) (rat 2) ∧
      Part (run exactOracle [] (logs ++ [.log 4 3])).1 2 2 := by
  refine ⟨by decide +kernel, ?_⟩
  have h2 : ((run exactOracle [] (logs ++ [.log 4 3])).1[2]?.map Obj.kids) = some [4, 3] := by decide +kernel
  have h4 : ((run exactOracle [] (logs ++ [.log 4 3])).1[4]?.map Obj.kids) = some [3, 2] := by decide +kernel
  obtain ⟨o2, g2, k2⟩ := Option.map_eq_some_iff.1 h2
  obtain ⟨o4, g4, k4⟩ := Option.map_eq_some_iff.1 h4
  exact .trans (.kid (j := 4) g2 (by simp [k2])) (.kid g4 (by simp [k4]))

end Heap
end Simpy
