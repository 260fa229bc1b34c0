import Verif.Spec.Closed
import Verif.Proofs.NFRing
import Verif.Props.Closed

/-!
# C86: products and powers of polynomials that are multiplied out
-/

namespace Simpy
open Expr

variable {O : Oracle} {v w : Str} {e a b c : Expr}

/-- **C86** The product of two polynomials that are multiplied out can be formed and multiplied out. -/
theorem mul_multiplied_out (hO : O.Exact) (ha : OutPoly O a) (hb : OutPoly O b) {n : Nat} (hn : 13 ≤ n) : ∃ r, mulOut O n a b = .ok r ∧
    OutPoly O r ∧ toMv r = toMv a * toMv b ∧ ∀ ρ, den ρ r = den ρ a * den ρ b := by
  have ga := NF.good_toMv ha.poly
  have gb := NF.good_toMv hb.poly
  obtain ⟨n, rfl⟩ : ∃ j, n = j + 8 := ⟨n - 8, by omega⟩
  obtain ⟨m, h1, h2, h3, h4⟩ := NF.mul_polyE hO n ga gb
  rw [← NF.out_form hO ha, ← NF.out_form hO hb] at h1
  have h5 := NF.expand_poly hO h2 (n := n + 8) (by omega)
  rw [h3] at h5
  refine ⟨_, ?_, NF.out_of hO (NF.good_mul ga gb), NF.toMv_polyE hO (NF.good_mul ga gb), fun ρ => ?_⟩
  · unfold mulOut
    rw [h1, NF.ok_bind]; exact h5
  · rw [NF.ev_polyE, NF.den_toMv ρ ha.poly, NF.den_toMv ρ hb.poly]
    simp [NF.ev, MvPolynomial.eval₂_mul]

/-- **C86** So can a power with a natural number, also of a polynomial with negative coefficients only. -/
theorem pow_multiplied_out (hO : O.Exact) (ha : OutPoly O a) (k : ℕ) {n : Nat} (hn : 13 ≤ n) : ∃ r, powOut O n a k = .ok r ∧
    OutPoly O r ∧ toMv r = toMv a ^ k ∧ ∀ ρ, den ρ r = den ρ a ^ k := by
  have ga := NF.good_toMv ha.poly
  obtain ⟨n, rfl⟩ : ∃ j, n = j + 8 := ⟨n - 8, by omega⟩
  obtain ⟨m, h1, h2, h3, h4⟩ := NF.pow_polyE hO n ga k
  rw [← NF.out_form hO ha] at h1
  have h5 := NF.expand_poly hO h2 (n := n + 8) (by omega)
  rw [h3] at h5
  refine ⟨_, ?_, NF.out_of hO (NF.good_pow ga k), NF.toMv_polyE hO (NF.good_pow ga k), fun ρ => ?_⟩
  · unfold powOut
    rw [h1, NF.ok_bind]; exact h5
  · rw [NF.ev_polyE, NF.den_toMv ρ ha.poly]
    simp [NF.ev, MvPolynomial.eval₂_pow]

/-- **C86** The order and the grouping of the factors do not matter: the results are literally the same. -/
theorem mul_out_laws (hO : O.Exact) (ha : OutPoly O a) (hb : OutPoly O b) (hc : OutPoly O c) {n : Nat} (hn : 13 ≤ n) :
    mulOut O n a b = mulOut O n b a ∧ (mulOut O n a b >>= fun s => mulOut O n s c) = (mulOut O n b c >>= fun s => mulOut O n a s) := by
  obtain ⟨ab, h1, o1, -, v1⟩ := mul_multiplied_out hO ha hb hn
  obtain ⟨ba, h2, o2, -, v2⟩ := mul_multiplied_out hO hb ha hn
  obtain ⟨bc, h3, o3, -, v3⟩ := mul_multiplied_out hO hb hc hn
  obtain ⟨l, h4, o4, -, v4⟩ := mul_multiplied_out hO o1 hc hn
  obtain ⟨r, h5, o5, -, v5⟩ := mul_multiplied_out hO ha o3 hn
  refine ⟨?_, ?_⟩
  · rw [h1, h2, out_unique hO o1 o2 fun ρ => by rw [v1, v2, mul_comm]]
  · rw [h1, h3]
    show mulOut O n ab c = mulOut O n a bc
    rw [h4, h5, out_unique hO o4 o5 fun ρ => by rw [v4, v5, v1, v3, mul_assoc]]

/-- **C86** Products distribute over sums, literally. -/
theorem mul_out_add (hO : O.Exact) (ha : OutPoly O a) (hb : OutPoly O b) (hc : OutPoly O c) {n : Nat} (hn : 13 ≤ n) :
    (opAdd (ctors O n) b c >>= fun s => mulOut O n a s) =
      (mulOut O n a b >>= fun s => mulOut O n a c >>= fun t => opAdd (ctors O n) s t) := by
  obtain ⟨bc, h1, o1, -, v1⟩ := add_multiplied_out hO hb hc (n := n) (by omega)
  obtain ⟨l, h2, o2, -, v2⟩ := mul_multiplied_out hO ha o1 hn
  obtain ⟨ab, h3, o3, -, v3⟩ := mul_multiplied_out hO ha hb hn
  obtain ⟨ac, h4, o4, -, v4⟩ := mul_multiplied_out hO ha hc hn
  obtain ⟨r, h5, o5, -, v5⟩ := add_multiplied_out hO o3 o4 (n := n) (by omega)
  rw [h1, h3, h4]
  show mulOut O n a bc = opAdd _ ab ac
  rw [h2, h5, out_unique hO o2 o5 fun ρ => by rw [v2, v1, v5, v3, v4, mul_add]]

/-- **C86** A product is literally 0 if and only if a factor is, and factors other than 0 can be cancelled. -/
theorem mul_out_zero (hO : O.Exact) (ha : OutPoly O a) (hb : OutPoly O b) (hc : OutPoly O c) {n : Nat} (hn : 13 ≤ n) :
    (mulOut O n a b = .ok (rat 0) ↔ a = rat 0 ∨ b = rat 0) ∧ (a ≠ rat 0 → mulOut O n a b = mulOut O n a c → b = c) := by
  have hz : NF.polyE O 0 = rat 0 := by rw [← NF.polyE_C 0, map_zero]
  have z : ∀ {e : Expr}, OutPoly O e → (e = rat 0 ↔ toMv e = 0) := by
    intro e h
    refine ⟨fun h => by rw [h, NF.toMv_rat, map_zero], fun h' => ?_⟩
    rw [NF.out_form hO h, h', hz]
  obtain ⟨r, h1, o1, t1, -⟩ := mul_multiplied_out hO ha hb hn
  obtain ⟨s, h2, o2, t2, -⟩ := mul_multiplied_out hO ha hc hn
  refine ⟨?_, fun h0 h => ?_⟩
  · rw [h1, z ha, z hb, ← mul_eq_zero, ← t1, ← z o1]
    exact ⟨fun h => Except.ok.inj h, fun h => by rw [h]⟩
  · rw [h1, h2] at h
    have : toMv a * toMv b = toMv a * toMv c := by rw [← t1, ← t2, Except.ok.inj h]
    have := mul_left_cancel₀ (fun h => h0 ((z ha).2 h)) this
    rw [NF.out_form hO hb, NF.out_form hO hc, this]

/-- **C86** `a*1`, `a*0` and `a*(-1)` are literally `a`, `0` and `-a`. -/
theorem mul_out_units (hO : O.Exact) (ha : OutPoly O a) {n : Nat} (hn : 13 ≤ n) : mulOut O n a (rat 1) = .ok a ∧ mulOut O n a (rat 0) = .ok (rat 0) ∧
    mulOut O n a (rat (-1)) = opNeg (ctors O n) a := by
  have hr : ∀ q : ℚ, OutPoly O (rat q) := fun q => ⟨.rat q, .term (.num q)⟩
  obtain ⟨r, h1, o1, -, v1⟩ := mul_multiplied_out hO ha (hr 1) hn
  obtain ⟨s, h2, o2, -, v2⟩ := mul_multiplied_out hO ha (hr 0) hn
  obtain ⟨t, h3, o3, -, v3⟩ := mul_multiplied_out hO ha (hr (-1)) hn
  obtain ⟨u, h4, o4, -, v4⟩ := neg_multiplied_out hO ha (n := n) (by omega)
  refine ⟨?_, ?_, ?_⟩
  · rw [h1, out_unique hO o1 ha fun ρ => by rw [v1]; simp [den]]
  · rw [h2, out_unique hO o2 (hr 0) fun ρ => by rw [v2]; simp [den]]
  · rw [h3, h4, out_unique hO o3 o4 fun ρ => by rw [v3, v4]; simp [den]]

/-- **C86** The laws of exponents hold literally. -/
theorem pow_out_laws (hO : O.Exact) (ha : OutPoly O a) (hb : OutPoly O b) (j k : ℕ) {n : Nat} (hn : 13 ≤ n) :
    powOut O n a (j + k) = (powOut O n a j >>= fun s => powOut O n a k >>= fun t => mulOut O n s t) ∧
    powOut O n a (j * k) = (powOut O n a j >>= fun s => powOut O n s k) ∧
    (mulOut O n a b >>= fun s => powOut O n s k) = (powOut O n a k >>= fun s => powOut O n b k >>= fun t => mulOut O n s t) := by
  obtain ⟨x, h1, o1, -, v1⟩ := pow_multiplied_out hO ha (j + k) hn
  obtain ⟨y, h2, o2, -, v2⟩ := pow_multiplied_out hO ha j hn
  obtain ⟨z, h3, o3, -, v3⟩ := pow_multiplied_out hO ha k hn
  obtain ⟨u, h4, o4, -, v4⟩ := mul_multiplied_out hO o2 o3 hn
  obtain ⟨x', h5, o5, -, v5⟩ := pow_multiplied_out hO ha (j * k) hn
  obtain ⟨y', h6, o6, -, v6⟩ := pow_multiplied_out hO o2 k hn
  obtain ⟨ab, h7, o7, -, v7⟩ := mul_multiplied_out hO ha hb hn
  obtain ⟨l, h8, o8, -, v8⟩ := pow_multiplied_out hO o7 k hn
  obtain ⟨bk, h9, o9, -, v9⟩ := pow_multiplied_out hO hb k hn
  obtain ⟨r, h10, o10, -, v10⟩ := mul_multiplied_out hO o3 o9 hn
  refine ⟨?_, ?_, ?_⟩
  · rw [h1, h2, h3]
    show _ = mulOut O n y z
    rw [h4, out_unique hO o1 o4 fun ρ => by rw [v1, v4, v2, v3, pow_add]]
  · rw [h5, h2]
    show _ = powOut O n y k
    rw [h6, out_unique hO o5 o6 fun ρ => by rw [v5, v6, v2, pow_mul]]
  · rw [h7, h3, h9]
    show powOut O n ab k = mulOut O n z bk
    rw [h8, h10, out_unique hO o8 o10 fun ρ => by rw [v8, v7, v10, v3, v9, mul_pow]]

/-- **C86** The product rule holds literally. -/
theorem product_rule (hO : O.Exact) (ha : OutPoly O a) (hb : OutPoly O b) {n : Nat} (hn : 13 ≤ n) :
    (mulOut O n a b >>= diffE O n v) =
      (diffE O n v a >>= fun da => diffE O n v b >>= fun db => mulOut O n da b >>= fun s => mulOut O n a db >>= fun t => opAdd (ctors O n) s t) := by
  have h9 : 9 ≤ n := by omega
  obtain ⟨ab, h1, o1, t1, -⟩ := mul_multiplied_out hO ha hb hn
  obtain ⟨l, h2, o2, t2, -⟩ := diff_multiplied_out (v := v) hO o1 h9
  obtain ⟨da, h3, o3, t3, -⟩ := diff_multiplied_out (v := v) hO ha h9
  obtain ⟨db, h4, o4, t4, -⟩ := diff_multiplied_out (v := v) hO hb h9
  obtain ⟨s, h5, o5, t5, -⟩ := mul_multiplied_out hO o3 hb hn
  obtain ⟨t, h6, o6, t6, -⟩ := mul_multiplied_out hO ha o4 hn
  obtain ⟨r, h7, o7, t7, -⟩ := add_multiplied_out hO o5 o6 (n := n) (by omega)
  rw [h1, h3, h4]
  show diffE O n v ab = (mulOut O n da b >>= fun s => mulOut O n a db >>= fun t => opAdd (ctors O n) s t)
  rw [h5, h6]
  show _ = opAdd (ctors O n) s t
  rw [h2, h7, NF.out_form hO o2, NF.out_form hO o7, t2, t7, t1, t5, t6, t3, t4, MvPolynomial.pderiv_mul]

/-! ## Cases -/

section
set_option maxRecDepth 10000
private abbrev x : Expr := sym ['x']
private abbrev y : Expr := sym ['y']

/-- `-x - y`, with negative coefficients only, `y*x**2 + 5` and `x` are covered. -/
private abbrev p1 : Expr := sum [prod [rat (-1), y], prod [rat (-1), x]]
private abbrev p2 : Expr := sum [prod [y, pow x (rat 2)], rat 5]

private theorem px : PolyExpr exactOracle x := .sym _ (by decide)
private theorem py : PolyExpr exactOracle y := .sym _ (by decide)
private theorem sq : PolyExpr exactOracle (pow x (rat 2)) := by
  have : PolyExpr exactOracle (pow x (rat ((2 : ℕ) : ℚ))) := .pow 20 2 px le_rfl (by decide +kernel) (fun h => absurd h (by decide))
  simpa using this
private theorem pp : PowerProduct [y, pow x (rat 2)] :=
  ⟨[['y'], ['x']], by decide, .cons (.one _) (.cons (by simpa using SymPower.power ['x'] 2 le_rfl) .nil)⟩

private theorem o0 : OutPoly exactOracle x := ⟨px, .term (.power (.one _))⟩

private theorem o1 : OutPoly exactOracle p1 where
  poly := .sum 20 (by
    simp only [List.mem_cons, List.not_mem_nil, or_false, forall_eq_or_imp, forall_eq]
    exact ⟨.prod 20 (by simp [py, PolyExpr.rat]) (by simp [isProd]) (by decide +kernel),
      .prod 20 (by simp [px, PolyExpr.rat]) (by simp [isProd]) (by decide +kernel)⟩) (by decide +kernel)
  out := .sum le_rfl (by
    simp only [List.mem_cons, List.not_mem_nil, or_false, forall_eq_or_imp, forall_eq]
    exact ⟨⟨.scaled (by norm_num) (by norm_num) (by simp) ⟨[['y']], by decide, .cons (.one _) .nil⟩, by simp⟩,
      .scaled (by norm_num) (by norm_num) (by simp) ⟨[['x']], by decide, .cons (.one _) .nil⟩, by simp⟩)
    (by simp [Unlike, nonNumFactors, isAcc, beqL, beq]) (by decide)

private theorem o2 : OutPoly exactOracle p2 where
  poly := .sum 20 (by
    simp only [List.mem_cons, List.not_mem_nil, or_false, forall_eq_or_imp, forall_eq]
    exact ⟨.prod 20 (by simp [py, sq]) (by simp [isProd]) (by decide +kernel), .rat 5⟩) (by decide +kernel)
  out := .sum le_rfl (by simp [PolyTerm.prod le_rfl pp, PolyTerm.num]) (by simp [Unlike, nonNumFactors, isAcc, beqL, beq]) (by decide)

/-- The odd power of `-x - y`: `(-x - y)**3` is `-(x + y)**3`, which is multiplied out completely. -/
example : powOut exactOracle 13 p1 3 = .ok (sum [prod [rat (-3), y, pow x (rat 2)], prod [rat (-3), x, pow y (rat 2)],
    prod [rat (-1), pow y (rat 3)], prod [rat (-1), pow x (rat 3)]]) := by decide +kernel
example : ∃ r, powOut exactOracle 13 p1 3 = .ok r ∧ OutPoly exactOracle r ∧ ∀ ρ : Str → ℝ, den ρ r = (- ρ ['x'] - ρ ['y']) ^ 3 := by
  obtain ⟨r, h1, h2, -, h3⟩ := pow_multiplied_out exactOracle_exact o1 3 le_rfl
  exact ⟨r, h1, h2, fun ρ => by rw [h3]; simp [den, denS, denP]; ring⟩

/-- A product of sums, of a sum and a monomial, and of a sum with itself. -/
example : mulOut exactOracle 13 p1 p2 = .ok (sum [prod [rat (-1), y, pow x (rat 3)], prod [rat (-1), pow x (rat 2), pow y (rat 2)],
    prod [rat (-5), y], prod [rat (-5), x]]) := by decide +kernel
example : mulOut exactOracle 13 p1 p2 = mulOut exactOracle 13 p2 p1 ∧
    (opAdd (ctors exactOracle 13) p1 p2 >>= fun s => mulOut exactOracle 13 x s) =
      (mulOut exactOracle 13 x p1 >>= fun s => mulOut exactOracle 13 x p2 >>= fun t => opAdd (ctors exactOracle 13) s t) ∧
    mulOut exactOracle 13 p1 p1 ≠ .ok (rat 0) ∧
    powOut exactOracle 13 p1 (2 + 3) = (powOut exactOracle 13 p1 2 >>= fun s => powOut exactOracle 13 p1 3 >>= fun t => mulOut exactOracle 13 s t) :=
  ⟨(mul_out_laws exactOracle_exact o1 o2 o0 le_rfl).1, mul_out_add exactOracle_exact o0 o1 o2 le_rfl,
    fun h => by have := (mul_out_zero exactOracle_exact o1 o1 o0 le_rfl).1.1 h; simp at this,
    (pow_out_laws exactOracle_exact o1 o2 2 3 le_rfl).1⟩
example : (mulOut exactOracle 13 p1 p2 >>= diffE exactOracle 13 ['x']) =
    (diffE exactOracle 13 ['x'] p1 >>= fun da => diffE exactOracle 13 ['x'] p2 >>= fun db => mulOut exactOracle 13 da p2 >>= fun s =>
      mulOut exactOracle 13 p1 db >>= fun t => opAdd (ctors exactOracle 13) s t) := product_rule exactOracle_exact o1 o2 le_rfl

end

end Simpy
