import Verif.Proofs.Ambiguity
import Verif.Proofs.Check
import Verif.Model.Simplify
import Verif.Model.Evalf

/-!
# C70: the assertions of the matcher, and where they fail
-/

namespace Simpy
open Expr

variable {O : Oracle}

/-- **C70 (partial)** Matching a sum with a query (`Eq(sum, query, up_to_sum=True, up_to_factor=True)()`) does not fail the
assertions of `regex.py` when the query can be matched in at most one way, provided that printing the terms, matching the single
terms and adding up what is left over do not. Missing: the promise without the condition that there is only one way, which is
false (`simplify_asserts_fails`), and the assertions of the constructors (`arithmetic_asserts_fails`). -/
theorem match_asserts_partial {C : Ctors} {ts qs : List Expr} (one : OneWay O C ts qs)
    (print : ∀ t ∈ ts, C.repr t ≠ .error .assertion) (single : ∀ q ∈ qs, ∀ t ∈ ts, eqCall O C t q ≠ .error .assertion)
    (add : ∀ us, us.Sublist ts → C.sum us ≠ .error .assertion) : eqSum O C ts qs ≠ .error .assertion := by
  intro h
  unfold eqSum at h
  split at h
  · cases h
  split at h
  · cases h
  rcases bind_raises h with h | ⟨qm, hm, h⟩
  · exact sumMatches_quiet print single h
  · cases qm with
    | none => cases h
    | some qm =>
      rcases bind_raises h with h | ⟨r, -, h⟩
      · exact consolidate_quiet one hm print add h
      · cases r <;> cases h

/-! ## A sum that meets the conditions: `1 - sin(x)^2` -/

/-- The matches that can be part of a match of the whole query. -/
def fitting (O : Oracle) (C : Ctors) (ts qs : List Expr) (q : Expr) : List Log :=
  let all (q : Expr) : List Log := ts.filterMap fun t => match eqCall O C t q with | .ok (some m) => some m | _ => none
  (all q).filter fun m => qs.all fun q' => (all q').any fun m' => matchesEq O m' m

theorem oneWay_of {C : Ctors} {ts qs : List Expr}
    (h : (qs.all fun q => qs.all fun q' => (fitting O C ts qs q).all fun m => (fitting O C ts qs q').all fun m' => matchesEq O m' m) = true) :
    OneWay O C ts qs := by
  have key : ∀ q m, Fits O C ts qs q m → m ∈ fitting O C ts qs q := by
    rintro q m ⟨⟨t, ht, hm⟩, hf⟩
    refine List.mem_filter.2 ⟨List.mem_filterMap.2 ⟨t, ht, by simp [hm]⟩, List.all_eq_true.2 fun q' hq' => List.any_eq_true.2 ?_⟩
    obtain ⟨t', ht', m', hm', ha⟩ := hf q' hq'
    exact ⟨m', List.mem_filterMap.2 ⟨t', ht', by simp [hm']⟩, matchesEq_iff.2 ha⟩
  intro q hq q' hq' m m' f f'
  have := List.all_eq_true.1 (List.all_eq_true.1 (List.all_eq_true.1 (List.all_eq_true.1 h q hq) q' hq') m (key q m f)) m' (key q' m' f')
  exact matchesEq_iff.1 this

example : eqSum exactOracle (ctors exactOracle 40) [prod [rat (-1), pow (trig .sin (sym ['x'])) (rat 2)], rat 1]
    [queryMinus .sin, any factorKey] ≠ .error .assertion :=
  match_asserts_partial (oneWay_of (by set_option maxRecDepth 10000 in decide +kernel))
    (by set_option maxRecDepth 10000 in decide +kernel) (by set_option maxRecDepth 10000 in decide +kernel)
    (fun us h => by
      have := List.mem_sublists.2 h
      clear h
      revert us
      set_option maxRecDepth 10000 in decide +kernel)

/-! ## Where the assertions fail -/

/-- `x - x*sin(x)^2 + 1/x - sin(x)^2/x`. -/
def twoWays : Expr :=
  sum [prod [rat (-1), sym ['x'], pow (trig .sin (sym ['x'])) (rat 2)],
    prod [rat (-1), pow (sym ['x']) (rat (-1)), pow (trig .sin (sym ['x'])) (rat 2)], pow (sym ['x']) (rat (-1)), sym ['x']]

/-- **C70** The promise fails: an expression without floats whose `simplify` ends with an AssertionError, since
`f - f*sin(x)^2` occurs in it with two factors `f`. -/
theorem simplify_asserts_fails : ∃ e, Built exactOracle e ∧ simplifyE exactOracle 40 e = .error .assertion := by
  refine ⟨twoWays, built_of_self ?_, ?_⟩ <;> set_option maxRecDepth 10000 in decide +kernel

/-- `(-x - 1)^(3/2)`. -/
def halfPower : Expr := pow (sum [prod [rat (-1), sym ['x']], rat (-1)]) (rat (3/2))

/-- **C70** The promise fails for sums and products: `2*(-x - 1)^(3/2)*(-x - 1)^(3/2)` is a product with a product in it, and
`+ x` to it ends with an AssertionError. -/
theorem arithmetic_asserts_fails : ∃ a p, Built exactOracle a ∧ Built exactOracle p ∧
    (∃ q, opMul (ctors exactOracle 40) (rat 2) a = .ok q ∧ opMul (ctors exactOracle 40) a q = .ok p) ∧
    (∃ us, p = prod [rat 2, prod us]) ∧ opAdd (ctors exactOracle 40) p (sym ['x']) = .error .assertion := by
  have ba : Built exactOracle halfPower := built_of_self (by set_option maxRecDepth 10000 in decide +kernel)
  have bq : Built exactOracle (prod [rat 2, halfPower]) := built_of_self (by set_option maxRecDepth 10000 in decide +kernel)
  have e1 : opMul (ctors exactOracle 40) (rat 2) halfPower = .ok (prod [rat 2, halfPower]) := by
    set_option maxRecDepth 10000 in decide +kernel
  have e2 : (ctors exactOracle 40).prod [halfPower, prod [rat 2, halfPower]] =
      .ok (prod [rat 2, prod [rat (-1), pow (sum [sym ['x'], rat 1]) (rat 3)]]) := by set_option maxRecDepth 10000 in decide +kernel
  refine ⟨halfPower, prod [rat 2, prod [rat (-1), pow (sum [sym ['x'], rat 1]) (rat 3)]], ba,
    .prod 40 (fun t ht => ?_) e2, ⟨_, e1, e2⟩, ⟨_, rfl⟩, by set_option maxRecDepth 10000 in decide +kernel⟩
  rcases List.mem_cons.1 ht with rfl | ht
  · exact ba
  · rcases List.mem_cons.1 ht with rfl | ht
    · exact bq
    · cases ht

end Simpy
