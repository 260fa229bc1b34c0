import Verif.Proofs.LinInside
import Verif.Proofs.Check
import Verif.Proofs.ExactOracle

/-!
# C71: a u-substitution is tried only if the rest of the integrand is a function of u

`count O q e` is `count(e, q)`; `genericUSub O n v u e`, `polynomialUSub O n v u e`, `linearUSub O n v u e` and `trigUSub2 O n v u e` are the transforms
with the variable `v` and the new variable `u`, whose results are the substituted expression and the new integrand.
-/

namespace Simpy
open Expr

variable {O : Oracle} {n : Nat} {u v : Str} {e q g : Expr}

/-- **C71** What the transforms count: the occurrences of `q`, times the occurrences of the variable in `q`, are at most the
occurrences of the variable, and are all of them only if the variable occurs nowhere but inside `q`. -/
theorem counts_decide (O : Oracle) (v : Str) (q e : Expr) :
    count O q e * count O (sym v) q ≤ count O (sym v) e ∧
      (count O q e * count O (sym v) q = count O (sym v) e → Inside O v q e) := count_inside e

/-- **C71** GenericUSub: the integrand is a product with a factor `t` whose integral the table knows; `u` is that integral
without constant factors, and in the product of the other factors the variable occurs only inside `u`. -/
theorem generic_usub_inside (h : genericUSub O n v u e = .ok (some (q, g))) :
    ∃ pre t post F rest, e = prod (pre ++ t :: post) ∧ checkTable O n v t = .ok (some F) ∧ removeConstFactor F = .ok q ∧
      (ctors O n).prod (pre ++ post) = .ok rest ∧ 0 < count O (sym v) q ∧ Inside O v q rest := by
  have key : ∀ (r pre : List Expr), genericLoop O n v pre r = .ok (some q) →
      ∃ mid t post F rest, r = mid ++ t :: post ∧ checkTable O n v t = .ok (some F) ∧ removeConstFactor F = .ok q ∧
        (ctors O n).prod (pre ++ mid ++ post) = .ok rest ∧ 0 < count O (sym v) q ∧ Inside O v q rest := by
    intro r
    induction r with
    | nil => intro pre h; simp [genericLoop] at h
    | cons t r ih =>
      intro pre h
      unfold genericLoop at h
      have later : genericLoop O n v (pre ++ [t]) r = .ok (some q) → ∃ mid t' post F rest, t :: r = mid ++ t' :: post ∧
          checkTable O n v t' = .ok (some F) ∧ removeConstFactor F = .ok q ∧
          (ctors O n).prod (pre ++ mid ++ post) = .ok rest ∧ 0 < count O (sym v) q ∧ Inside O v q rest := by
        intro h
        obtain ⟨mid, t', post, F, rest, rfl, h1, h2, h3, h4, h5⟩ := ih _ h
        exact ⟨t :: mid, t', post, F, rest, rfl, h1, h2, by simpa using h3, h4, h5⟩
      obtain ⟨k, h1, h⟩ := bind_ok.1 h
      cases k with
      | none => exact later h
      | some F =>
        obtain ⟨q', h2, h⟩ := bind_ok.1 h
        obtain ⟨rest, h3, h⟩ := bind_ok.1 h
        split at h
        · cases h
        rename_i h0
        split at h
        · rename_i hc
          have := pure_ok.1 h
          simp only [Option.some.injEq] at this
          subst this
          exact ⟨[], t, r, F, rest, rfl, h1, h2, by simpa using h3, by omega, (count_inside rest).2 (by simpa using hc)⟩
        · exact later h
  cases e with
  | prod ts =>
    simp only [genericUSub] at h
    obtain ⟨k, h1, h⟩ := bind_ok.1 h
    cases k with
    | none => have := pure_ok.1 h; simp at this
    | some q' =>
      obtain ⟨d, -, h⟩ := bind_ok.1 h
      obtain ⟨f, -, h⟩ := bind_ok.1 h
      obtain ⟨g', -, h⟩ := bind_ok.1 h
      have := pure_ok.1 h
      simp only [Option.some.injEq, Prod.mk.injEq] at this
      obtain ⟨rfl, -⟩ := this
      obtain ⟨mid, t, post, F, rest, rfl, h1, h2, h3, h4, h5⟩ := key ts [] h1
      exact ⟨mid, t, post, F, rest, rfl, h1, h2, by simpa using h3, h4, h5⟩
  | _ => simp [genericUSub] at h

/-- **C71** TrigUSub2: `u` is the sine, cosine or tangent of the variable, and the variable occurs only inside `u`. -/
theorem trig_usub2_inside (h : trigUSub2 O n v u e = .ok (some (q, g))) :
    ∃ f, (f = .sin ∨ f = .cos ∨ f = .tan) ∧ q = trig f (sym v) ∧ 1 ≤ count O q e ∧ Inside O v q e := by
  obtain ⟨f, r, d, hf, rfl, h1, h2, -⟩ := trigUSub2_some h
  refine ⟨f, hf, rfl, h1, (count_inside e).2 ?_⟩
  rw [h2]
  have : count O (sym v) (trig f (sym v)) = 1 := by
    rw [count_sym]
    simp only [reduceCtorEq, if_false, Expr.children, List.map_cons, List.map_nil, List.sum_cons, List.sum_nil]
    rw [count_sym]
    simp
  rw [this, mul_one]

/-- **C71** PolynomialUSub: the integrand is a product with a factor `v ** k`, `u` is `v ** (k + 1)` and in the other factors the
variable occurs only inside `u`; for rational exponents, and if multiplying the other factors does not change how often the variable
occurs in them. -/
theorem polynomial_usub_inside_partial {ts : List Expr} (h : polynomialUSub O n v u (prod ts) = .ok (some (q, g)))
    (hr : ∀ t ∈ ts, ∀ b x, t = pow b x → beq O b (sym v) = true → ∃ k : ℚ, x = rat k ∧ k ≠ 0 ∧ k ≠ 1)
    (hp : ∀ us rest, us.Sublist ts → (ctors O n).prod us = .ok rest → count O (sym v) rest = (us.map (count O (sym v))).sum) :
    ∃ (k : ℚ) (pre post : List Expr), ts = pre ++ varPow v k :: post ∧ q = varPow v (k + 1) ∧ k ≠ 0 ∧ k + 1 ≠ 0 ∧
      ∀ t ∈ pre ++ post, Inside O v q t := by
  obtain ⟨m, rest, h1, h2, h3, h4⟩ := polynomialUSub_count h
  obtain ⟨k, pre, post, rfl, hk, rfl, h5⟩ := polyULoop_split hr ts [] m rest h1 fun t ht => ht
  have hk0 : k + 1 ≠ 0 := by rintro h0; simp [h0, beq] at h2
  have hk1 : k + 1 ≠ 1 := by intro h0; exact hk (by linarith)
  have hq := pow_var_rat h3 hk0 hk1
  subst hq
  have hs : varPow v (k + 1) = pow (sym v) (rat (k + 1)) := by simp [varPow, hk1]
  refine ⟨k, pre, post, rfl, hs.symm, hk, hk0, ?_⟩
  have c1 : count O (sym v) (pow (sym v) (rat (k + 1))) = 1 := by simp [count, generalCount, sameClass, beq]
  have c2 : count O (pow (sym v) (rat (k + 1))) (varPow v k) = 0 := by
    unfold varPow
    split
    · rfl
    · simp [count, generalCount, sameClass, beq]
  have c3 : count O (pow (sym v) (rat (k + 1))) (prod (pre ++ varPow v k :: post)) =
      ((pre ++ post).map (count O (pow (sym v) (rat (k + 1))))).sum := by
    unfold count at c2 ⊢
    rw [general_count_node, if_neg (by simp [sameClass])]
    simp [Expr.children, c2]
  have c4 := hp (pre ++ post) rest (by simp) (by simpa using h5)
  rw [c3, c4] at h4
  have key := sum_map_le (f := count O (pow (sym v) (rat (k + 1)))) (g := count O (sym v)) (ts := pre ++ post)
    fun t _ => by simpa [c1] using (count_inside (O := O) (v := v) (q := pow (sym v) (rat (k + 1))) t).1
  intro t ht
  exact (count_inside t).2 (by rw [c1, mul_one]; exact key.2 h4 t ht)

/-- **C71** LinearUSub: `u` is a part of the integrand, where the variable is not zero its value is a linear function of the variable,
and the variable occurs only inside `u`; for integrands of which no part is taken for a constant times a power of the variable
(`NoScaledPower`: then `u` is something else, and the claim is false, see `linear_usub_fails`). -/
theorem linear_usub_inside_partial (hO : O.Exact) (he : Built O e) (hf : floatFree e = true) (hp : NoScaledPower O n v e)
    (h : linearUSub O n v u e = .ok (some (q, g))) :
    Sub q e ∧ Inside O v q e ∧ ∀ ρ : Str → ℝ, ∃ a b : ℝ, ∀ t : ℝ, t ≠ 0 → Dom (Function.update ρ v t) q →
      fnOf ρ v q t = a * t + b := by
  unfold linearUSub at h
  split at h
  · cases h
  obtain ⟨⟨b, s⟩, h1, h⟩ := bind_ok.1 h
  simp only at h
  split at h
  · rename_i hb
    subst hb
    split at h
    · cases h
    rename_i q' hq
    obtain ⟨d, -, h⟩ := bind_ok.1 h
    obtain ⟨r, -, h⟩ := bind_ok.1 h
    obtain ⟨g', -, h⟩ := bind_ok.1 h
    have := pure_ok.1 h
    simp only [Option.some.injEq, Prod.mk.injEq] at this
    obtain ⟨rfl, -⟩ := this
    have seen := linCheck_seen e hf hp _ _ _ h1
    obtain ⟨e', h2, h3, h4⟩ := seen.found rfl q' hq
    rw [List.mem_singleton.1 h2] at h3
    exact ⟨h3, seen.inside rfl q' hq e (by simp), fun ρ => affine_shape hO (h3.wf (he.wf hO)) h4 ρ⟩
  · cases pure_ok.1 h

section examples
set_option maxRecDepth 10000

/-- `x * cos(x^2)` -/
example : ∀ t ∈ ([trig .cos (pow (sym ['x']) (rat 2))] : List Expr), Inside exactOracle ['x'] (pow (sym ['x']) (rat 2)) t := by
  obtain ⟨k, pre, post, h1, h2, -, -, h3⟩ := polynomial_usub_inside_partial (O := exactOracle) (n := 30) (v := ['x']) (u := ['u'])
    (ts := [sym ['x'], trig .cos (pow (sym ['x']) (rat 2))]) (q := pow (sym ['x']) (rat 2))
    (g := prod [rat (1 / 2), trig .cos (sym ['u'])]) (by decide +kernel) (by simp) (fun us rest hs hr => by
      have : ∀ us ∈ ([sym ['x'], trig .cos (pow (sym ['x']) (rat 2))] : List Expr).sublists,
          (match (ctors exactOracle 30).prod us with
            | .ok rest => count exactOracle (sym ['x']) rest == (us.map (count exactOracle (sym ['x']))).sum
            | .error _ => true) = true := by decide +kernel
      have := this us (List.mem_sublists.2 hs)
      rw [hr] at this
      simpa using this)
  intro t ht
  have ht := List.mem_singleton.1 ht
  subst ht
  have hm : trig .cos (pow (sym ['x']) (rat 2)) ∈ pre ++ varPow ['x'] k :: post := by rw [← h1]; simp
  refine h3 _ ?_
  simp only [List.mem_append, List.mem_cons] at hm ⊢
  rcases hm with h | h | h
  · exact .inl h
  · unfold varPow at h; split at h <;> simp at h
  · exact .inr h

/-- `cos(x) * sin(sin(x))` -/
example : ∃ pre t post F rest, prod [trig .cos (sym ['x']), trig .sin (trig .sin (sym ['x']))] = prod (pre ++ t :: post) ∧
    checkTable exactOracle 30 ['x'] t = .ok (some F) ∧ removeConstFactor F = .ok (trig .sin (sym ['x'])) ∧
    (ctors exactOracle 30).prod (pre ++ post) = .ok rest ∧ 0 < count exactOracle (sym ['x']) (trig .sin (sym ['x'])) ∧
    Inside exactOracle ['x'] (trig .sin (sym ['x'])) rest :=
  generic_usub_inside (u := ['u']) (g := trig .sin (sym ['u'])) (by decide +kernel)

/-- `tan(x)` -/
example : ∃ f, (f = .sin ∨ f = .cos ∨ f = .tan) ∧ trig .tan (sym ['x']) = trig f (sym ['x']) ∧
    1 ≤ count exactOracle (trig .tan (sym ['x'])) (trig .tan (sym ['x'])) ∧
    Inside exactOracle ['x'] (trig .tan (sym ['x'])) (trig .tan (sym ['x'])) :=
  trig_usub2_inside (n := 30) (u := ['u']) (g := prod [sym ['u'], pow (sum [pow (sym ['u']) (rat 2), rat 1]) (rat (-1))])
    (by decide +kernel)

/-- `cos(2*x)` -/
example : Inside exactOracle ['x'] (prod [rat 2, sym ['x']]) (trig .cos (prod [rat 2, sym ['x']])) := by
  refine (linear_usub_inside_partial (n := 30) (u := ['u']) (g := prod [rat (1 / 2), trig .cos (sym ['u'])]) exactOracle_exact
    (built_of_self (by decide +kernel)) (by decide +kernel) ?_ (by decide +kernel)).2.1
  have parts : ∀ t, Sub t (trig .cos (prod [rat 2, sym ['x']])) → t ∈ ([trig .cos (prod [rat 2, sym ['x']]),
      prod [rat 2, sym ['x']], rat 2, sym ['x']] : List Expr) := by
    intro t ht
    cases ht with
    | here => simp
    | child h1 h2 =>
      have h1 := List.mem_singleton.1 h1
      subst h1
      cases h2 with
      | here => simp
      | child h1 h2 =>
        simp only [Expr.children, List.mem_cons, List.not_mem_nil, or_false] at h1
        rcases h1 with rfl | rfl
        · cases h2 with
          | here => simp
          | child h1 _ => simp [Expr.children] at h1
        · cases h2 with
          | here => simp
          | child h1 _ => simp [Expr.children] at h1
  intro t ht w ic h
  have key : ∀ t ∈ ([trig .cos (prod [rat 2, sym ['x']]), prod [rat 2, sym ['x']], rat 2, sym ['x']] : List Expr),
      (match linearShape exactOracle 30 ['x'] t with
        | .ok (some (_, some _)) => false
        | _ => true) = true := by decide +kernel
  have := key t (parts t ht)
  rw [h] at this
  cases this

/-- not in `x + sin(x)` -/
example : ¬Inside exactOracle ['x'] (trig .sin (sym ['x'])) (sum [sym ['x'], trig .sin (sym ['x'])]) := by
  have hx : ¬Inside exactOracle ['x'] (trig .sin (sym ['x'])) (sym ['x']) := by
    rintro (h | ⟨h, -⟩)
    · simp [beq] at h
    · exact h rfl
  rintro (h | ⟨-, h⟩)
  · simp [beq] at h
  · exact hx (h _ (by simp [Expr.children]))

end examples

end Simpy
