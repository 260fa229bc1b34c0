import Verif.Spec.Closed
import Verif.Proofs.NFDiff
import Verif.Props.Factored

/-!
# C83: derivatives of polynomials that are multiplied out
# C84: sums and differences of polynomials that are multiplied out
# C85: products of numbers and powers of symbols put into polynomials that are multiplied out
-/

namespace Simpy
open Expr

variable {O : Oracle} {v w : Str} {e a b c : Expr}

namespace NF

theorem of_both (hO : O.Exact) {p : MvPolynomial Str ℚ} (hg : Good p) : PolyExpr O (polyE O p) ∧ MultipliedOut O (polyE O p) :=
  ⟨polyExpr_polyE hO hg, out_polyE hO _⟩

theorem good_add {p q : MvPolynomial Str ℚ} (hp : Good p) (hq : Good q) : Good (p + q) := by
  have := good_sum (l := [p, q]) (by intro r hr; simp at hr; rcases hr with rfl | rfl; exacts [hp, hq])
  simpa using this

theorem good_sub {p q : MvPolynomial Str ℚ} (hp : Good p) (hq : Good q) : Good (p - q) := by
  rw [sub_eq_add_neg]; exact good_add hp (good_neg hq)

theorem plus_polyE (hO : O.Exact) (n : Nat) {p q : MvPolynomial Str ℚ} (hp : Good p) (hq : Good q) :
    opAdd (ctors O (n + 8)) (polyE O p) (polyE O q) = .ok (polyE O (p + q)) := by
  have hadd := sum_polys hO (n + 2) [p, q] (by
    intro r hr
    simp at hr
    rcases hr with rfl | rfl
    · exact hp
    · exact hq)
  simp only [List.map_cons, List.map_nil, List.sum_cons, List.sum_nil, add_zero] at hadd
  rw [← hadd]
  unfold opAdd
  split
  · rename_i x y h1 h2
    have e1 := toMv_polyE hO hp
    have e2 := toMv_polyE hO hq
    rw [h1, toMv_rat] at e1
    rw [h2, toMv_rat] at e2
    rw [h1, h2, ← e1, ← e2, ← map_add, polyE_C] at hadd
    rw [h1, h2]; exact hadd.symm
  · rfl


theorem out_form (hO : O.Exact) (h : OutPoly O e) : e = polyE O (toMv e) := of_out hO h.poly h.out

theorem pderiv_comm (v w : Str) (p : MvPolynomial Str ℚ) : MvPolynomial.pderiv w (MvPolynomial.pderiv v p) = MvPolynomial.pderiv v (MvPolynomial.pderiv w p) := by
  induction p using MvPolynomial.induction_on with
  | C a => simp
  | add p q hp hq => simp only [map_add, hp, hq]
  | mul_X p s hp =>
    have hz : ∀ a b : Str, MvPolynomial.pderiv a (MvPolynomial.pderiv b (MvPolynomial.X s : MvPolynomial Str ℚ)) = 0 := by
      intro a b
      by_cases h : s = b
      · subst h; rw [MvPolynomial.pderiv_X_self, MvPolynomial.pderiv_one]
      · rw [MvPolynomial.pderiv_X_of_ne h, map_zero]
    simp only [MvPolynomial.pderiv_mul, map_add, hp, hz]
    ring

theorem pderiv_zero {p : MvPolynomial Str ℚ} : MvPolynomial.pderiv v p = 0 ↔ v ∉ p.vars := by
  refine ⟨fun h hv => ?_, MvPolynomial.pderiv_eq_zero_of_notMem_vars⟩
  obtain ⟨d, hd, hs⟩ := MvPolynomial.mem_vars v |>.1 hv
  have hd1 : d = (d - Finsupp.single v 1) + Finsupp.single v 1 := by
    ext s
    simp only [Finsupp.add_apply, Finsupp.tsub_apply]
    by_cases h' : v = s
    · subst h'
      have := Finsupp.mem_support_iff.1 hs
      simp; omega
    · simp [h']
  have := MvPolynomial.coeff_pderiv (i := v) p (d - Finsupp.single v 1)
  rw [h, ← hd1] at this
  have h0 := MvPolynomial.mem_support_iff.1 hd
  simp at this
  rcases this with h1 | h1
  · exact h0 h1
  · have : (0 : ℚ) < (↑(d v - 1) + 1) := by positivity
    rw [h1] at this
    exact lt_irrefl _ this

theorem syms_mono_sub {c : ℚ} {d : Str →₀ ℕ} {s : Str} (h : s ∈ syms (mono O c d)) : c ≠ 0 ∧ d s ≠ 0 := by
  by_cases h0 : c = 0
  · subst h0; rw [mono_zero] at h; simp [syms] at h
  refine ⟨h0, ?_⟩
  have key : ∀ f ∈ flatP (mono O c d), s ∈ syms f → d s ≠ 0 := by
    intro f hf hs
    rw [flat_mono h0] at hf
    rcases List.mem_append.1 hf with hf | hf
    · have : f = rat c := by split at hf <;> simp_all
      rw [this] at hs; simp [syms] at hs
    · obtain ⟨t, ht, rfl⟩ := mem_fs.1 hf
      have : s = t := by
        rcases vp_cases t (d t) with ⟨_, e⟩ | ⟨_, e⟩ <;> rw [e] at hs <;> simpa [syms] using hs
      rw [this]; omega
  rcases mono_split (O := O) (c := c) (d := d) with hl | ⟨_, _, e, _⟩
  · refine key (mono O c d) ?_ h
    clear key h
    generalize mono O c d = g at *
    cases hl with
    | num q => simp [flatP]
    | pow s k _ => rw [flat_vp]; simp
  · rw [e, syms] at h
    have : ∃ f ∈ flatP (mono O c d), s ∈ syms f := by
      generalize flatP (mono O c d) = L at h
      exact mem_symsL.1 h
    obtain ⟨f, h1, h2⟩ := this
    exact key f h1 h2

theorem syms_polyE_sub {p : MvPolynomial Str ℚ} {s : Str} (h : s ∈ syms (polyE O p)) : s ∈ p.vars := by
  rw [MvPolynomial.mem_vars]
  rcases polyE_cases (O := O) p with ⟨a, m, rfl⟩ | ⟨hp, hlen⟩
  · rw [polyE_mono] at h
    have := syms_mono_sub h
    exact ⟨m, by simp [this.1], by simp [this.2]⟩
  · obtain ⟨l, h1, h2, h3, -⟩ := terms_list (O := O) p
    rw [hp, h1, syms] at h
    obtain ⟨f, hf, hs⟩ := mem_symsL.1 h
    obtain ⟨q, hq, rfl⟩ := List.mem_map.1 hf
    have := syms_mono_sub hs
    exact ⟨q.2, by rw [MvPolynomial.mem_support_iff, ← (h3 q hq).1]; exact this.1, by simp [this.2]⟩

theorem out_of (hO : O.Exact) {p : MvPolynomial Str ℚ} (hg : Good p) : OutPoly O (polyE O p) := ⟨polyExpr_polyE hO hg, out_polyE hO _⟩

end NF

/-! ## C83 -/

/-- **C83** `diff` of a polynomial that is multiplied out returns the partial derivative, and it is multiplied out. -/
theorem diff_multiplied_out (hO : O.Exact) (h : OutPoly O e) {n : Nat} (hn : 9 ≤ n) : ∃ r, diffE O n v e = .ok r ∧ OutPoly O r ∧
    toMv r = MvPolynomial.pderiv v (toMv e) ∧ ∀ ρ : Str → ℝ, HasDerivAt (fnOf ρ v e) (den ρ r) (ρ v) := by
  obtain ⟨n, rfl⟩ : ∃ j, n = j + 9 := ⟨n - 9, by omega⟩
  have hg := NF.good_toMv h.poly
  have hd := NF.diff_polyE (v := v) hO hg n
  rw [← NF.out_form hO h] at hd
  refine ⟨_, hd.1, NF.out_of hO hd.2, NF.toMv_polyE hO hd.2, fun ρ => ?_⟩
  rw [NF.ev_polyE]
  refine (NF.deriv_ev (v := v) ρ (toMv e)).congr_of_eventuallyEq (Filter.Eventually.of_forall fun x => ?_)
  simp only [fnOf]
  rw [NF.den_toMv _ h.poly]

/-- **C83** the order of two partial derivatives does not matter: the results are literally the same. -/
theorem mixed_derivatives (hO : O.Exact) (h : OutPoly O e) {n n' : Nat} (hn : 9 ≤ n) (hn' : 9 ≤ n') :
    (diffE O n v e >>= diffE O n w) = (diffE O n' w e >>= diffE O n' v) := by
  obtain ⟨n, rfl⟩ : ∃ j, n = j + 9 := ⟨n - 9, by omega⟩
  obtain ⟨n', rfl⟩ : ∃ j, n' = j + 9 := ⟨n' - 9, by omega⟩
  have hg := NF.good_toMv h.poly
  have h1 := NF.diff_polyE (v := v) hO hg n
  have h2 := NF.diff_polyE (v := w) hO hg n'
  have e1 := (NF.diff_polyE (v := w) hO h1.2 n).1
  have e2 := (NF.diff_polyE (v := v) hO h2.2 n').1
  rw [← NF.out_form hO h] at h1 h2
  rw [h1.1, h2.1]
  show diffE O (n + 9) w _ = diffE O (n' + 9) v _
  rw [e1, e2]
  congr 2
  exact NF.pderiv_comm v w _

/-- **C83** `diff` of what `integrate` returns is literally the integrand. -/
theorem diff_of_integral (hO : O.Exact) (hv : goodName v = true) (h : OutPoly O e) {n m : Nat} (hn : (syms e).length + 11 ≤ n) (hm : 9 ≤ m) (ν : Supply)
    (bf final : Bool) (k : Nat) : ∃ F, Node.integrate O n ν bf k final v e = .ok (some F) ∧ diffE O m v F = .ok e := by
  obtain ⟨m, rfl⟩ : ∃ j, m = j + 9 := ⟨m - 9, by omega⟩
  have hg := NF.good_toMv h.poly
  refine ⟨_, (congrArg _ (NF.out_form hO h)).trans (NF.integrate_polyE hO hv hg (NF.width_poly h.poly fun _ h => h) hn ν bf final k), ?_⟩
  rw [(NF.diff_polyE hO (NF.good_A hv hg) m).1, NF.pderiv_A, ← NF.out_form hO h]

/-- **C83** the derivative is literally 0 if and only if the variable does not occur. -/
theorem diff_zero_iff (hO : O.Exact) (h : OutPoly O e) {n : Nat} (hn : 9 ≤ n) : diffE O n v e = .ok (rat 0) ↔ v ∉ syms e := by
  obtain ⟨n, rfl⟩ : ∃ j, n = j + 9 := ⟨n - 9, by omega⟩
  have hg := NF.good_toMv h.poly
  have hd := NF.diff_polyE (v := v) hO hg n
  rw [← NF.out_form hO h] at hd
  have hz : NF.polyE O 0 = rat 0 := by rw [← NF.polyE_C 0, map_zero]
  have h1 : v ∈ syms e ↔ v ∈ (toMv e).vars := ⟨fun hs => NF.syms_polyE_sub (O := O) (by rw [← NF.out_form hO h]; exact hs), NF.vars_le h.poly v⟩
  rw [h1, ← NF.pderiv_zero, hd.1]
  refine ⟨fun h' => ?_, fun h' => by rw [h', hz]⟩
  have := NF.toMv_polyE hO hd.2
  rw [Except.ok.inj h', NF.toMv_rat, map_zero] at this
  exact this.symm

/-! ## C84 -/

/-- **C84** the sum of polynomials that are multiplied out is multiplied out. -/
theorem add_multiplied_out (hO : O.Exact) (ha : OutPoly O a) (hb : OutPoly O b) {n : Nat} (hn : 8 ≤ n) : ∃ r, opAdd (ctors O n) a b = .ok r ∧
    OutPoly O r ∧ toMv r = toMv a + toMv b ∧ ∀ ρ, den ρ r = den ρ a + den ρ b := by
  obtain ⟨n, rfl⟩ : ∃ j, n = j + 8 := ⟨n - 8, by omega⟩
  have ga := NF.good_toMv ha.poly
  have gb := NF.good_toMv hb.poly
  have hs := NF.plus_polyE hO n ga gb
  rw [← NF.out_form hO ha, ← NF.out_form hO hb] at hs
  refine ⟨_, hs, NF.out_of hO (NF.good_add ga gb), NF.toMv_polyE hO (NF.good_add ga gb), fun ρ => ?_⟩
  rw [NF.ev_polyE, NF.den_toMv ρ ha.poly, NF.den_toMv ρ hb.poly]
  simp [NF.ev, MvPolynomial.eval₂_add]

/-- **C84** so is the difference. -/
theorem sub_multiplied_out (hO : O.Exact) (ha : OutPoly O a) (hb : OutPoly O b) {n : Nat} (hn : 8 ≤ n) : ∃ r, opSub (ctors O n) a b = .ok r ∧
    OutPoly O r ∧ toMv r = toMv a - toMv b ∧ ∀ ρ, den ρ r = den ρ a - den ρ b := by
  obtain ⟨n, rfl⟩ : ∃ j, n = j + 8 := ⟨n - 8, by omega⟩
  have ga := NF.good_toMv ha.poly
  have gb := NF.good_toMv hb.poly
  have hs := NF.minus_polyE hO n ga gb
  rw [← NF.out_form hO ha, ← NF.out_form hO hb] at hs
  refine ⟨_, hs, NF.out_of hO (NF.good_sub ga gb), NF.toMv_polyE hO (NF.good_sub ga gb), fun ρ => ?_⟩
  rw [NF.ev_polyE, NF.den_toMv ρ ha.poly, NF.den_toMv ρ hb.poly]
  simp [NF.ev, MvPolynomial.eval₂_sub]

/-- **C84** and the negative. -/
theorem neg_multiplied_out (hO : O.Exact) (ha : OutPoly O a) {n : Nat} (hn : 8 ≤ n) : ∃ r, opNeg (ctors O n) a = .ok r ∧
    OutPoly O r ∧ toMv r = - toMv a ∧ ∀ ρ, den ρ r = - den ρ a := by
  obtain ⟨n, rfl⟩ : ∃ j, n = j + 8 := ⟨n - 8, by omega⟩
  have ga := NF.good_toMv ha.poly
  have hs := NF.neg_polyE hO (n + 2) ga
  rw [← NF.out_form hO ha] at hs
  refine ⟨_, hs, NF.out_of hO (NF.good_neg ga), NF.toMv_polyE hO (NF.good_neg ga), fun ρ => ?_⟩
  rw [NF.ev_polyE, NF.den_toMv ρ ha.poly]
  simp [NF.ev, MvPolynomial.eval₂_neg]

/-- **C84** polynomials that are multiplied out are the same expression if they have the same value everywhere. -/
theorem out_unique (hO : O.Exact) (ha : OutPoly O a) (hb : OutPoly O b) (h : ∀ ρ, den ρ a = den ρ b) : a = b := by
  rw [NF.out_form hO ha, NF.out_form hO hb]
  congr 1
  refine NF.ev_inj fun ρ => ?_
  rw [← NF.den_toMv ρ ha.poly, ← NF.den_toMv ρ hb.poly, h]

/-- **C84** the result does not depend on the order and the grouping: it is literally the same. -/
theorem add_out_laws (hO : O.Exact) (ha : OutPoly O a) (hb : OutPoly O b) (hc : OutPoly O c) {n : Nat} (hn : 8 ≤ n) :
    opAdd (ctors O n) a b = opAdd (ctors O n) b a ∧
    (opAdd (ctors O n) a b >>= fun s => opAdd (ctors O n) s c) = (opAdd (ctors O n) b c >>= fun s => opAdd (ctors O n) a s) := by
  obtain ⟨ab, h1, o1, -, v1⟩ := add_multiplied_out hO ha hb hn
  obtain ⟨ba, h2, o2, -, v2⟩ := add_multiplied_out hO hb ha hn
  obtain ⟨bc, h3, o3, -, v3⟩ := add_multiplied_out hO hb hc hn
  obtain ⟨l, h4, o4, -, v4⟩ := add_multiplied_out hO o1 hc hn
  obtain ⟨r, h5, o5, -, v5⟩ := add_multiplied_out hO ha o3 hn
  refine ⟨?_, ?_⟩
  · rw [h1, h2, out_unique hO o1 o2 fun ρ => by rw [v1, v2, add_comm]]
  · rw [h1, h3]
    show opAdd _ ab c = opAdd _ a bc
    rw [h4, h5, out_unique hO o4 o5 fun ρ => by rw [v4, v5, v1, v3, add_assoc]]

/-- **C84** what is added can be taken away again, and nothing is left of `a - a`. -/
theorem sub_out_laws (hO : O.Exact) (ha : OutPoly O a) (hb : OutPoly O b) {n : Nat} (hn : 8 ≤ n) :
    (opAdd (ctors O n) a b >>= fun s => opSub (ctors O n) s b) = .ok a ∧ opSub (ctors O n) a a = .ok (rat 0) ∧
    (opNeg (ctors O n) a >>= opNeg (ctors O n)) = .ok a ∧ (opNeg (ctors O n) b >>= fun s => opAdd (ctors O n) a s) = opSub (ctors O n) a b := by
  obtain ⟨ab, h1, o1, -, v1⟩ := add_multiplied_out hO ha hb hn
  obtain ⟨l, h2, o2, -, v2⟩ := sub_multiplied_out hO o1 hb hn
  obtain ⟨z, h3, o3, -, v3⟩ := sub_multiplied_out hO ha ha hn
  obtain ⟨m, h4, o4, -, v4⟩ := neg_multiplied_out hO ha hn
  obtain ⟨mm, h5, o5, -, v5⟩ := neg_multiplied_out hO o4 hn
  obtain ⟨mb, h6, o6, -, v6⟩ := neg_multiplied_out hO hb hn
  obtain ⟨p, h7, o7, -, v7⟩ := add_multiplied_out hO ha o6 hn
  obtain ⟨q, h8, o8, -, v8⟩ := sub_multiplied_out hO ha hb hn
  refine ⟨?_, ?_, ?_, ?_⟩
  · rw [h1]
    show opSub _ ab b = _
    rw [h2, out_unique hO o2 ha fun ρ => by rw [v2, v1, add_sub_cancel_right]]
  · rw [h3, out_unique hO o3 ⟨.rat 0, .term (.num 0)⟩ fun ρ => by rw [v3]; simp [den]]
  · rw [h4]
    show opNeg _ m = _
    rw [h5, out_unique hO o5 ha fun ρ => by rw [v5, v4, neg_neg]]
  · rw [h6]
    show opAdd _ a mb = _
    rw [h7, h8, out_unique hO o7 o8 fun ρ => by rw [v7, v6, v8, sub_eq_add_neg]]

/-! ## C85 -/

/-- **C85** a number, a symbol or a product of a number and powers of symbols put in the place of a symbol in a polynomial that is
multiplied out gives the polynomial, multiplied out, with the value there. -/
theorem subs_multiplied_out (hO : O.Exact) (h : OutPoly O e) (ha : PolyExpr O a) (hta : PolyTerm a) {n : Nat} (hn : 8 ≤ n) :
    ∃ r, subsE O n (single v a) e = .ok r ∧ OutPoly O r ∧ ∀ ρ, den ρ r = den (Function.update ρ v (den ρ a)) e := by
  obtain ⟨n, rfl⟩ : ∃ j, n = j + 8 := ⟨n - 8, by omega⟩
  have hg := NF.good_toMv h.poly
  obtain ⟨ca, da, rfl, hda⟩ := NF.of_term hO ha hta
  obtain ⟨P, h1, h2, h3⟩ := NF.subs_polyE (O := O) (v := v) (c := ca) hO hda hg n
  rw [← NF.out_form hO h] at h1
  refine ⟨_, h1, NF.out_of hO h2, fun ρ => ?_⟩
  rw [NF.ev_polyE, h3, NF.den_toMv _ h.poly, NF.upd, NF.den_mono]

/-- **C85** putting in a new symbol and then the old one again gives back what was there, literally. -/
theorem subs_back (hO : O.Exact) (h : OutPoly O e) (hv : goodName v = true) (hw : goodName w = true) (hf : w ∉ syms e) {n : Nat} (hn : 8 ≤ n) :
    (subsE O n (single v (sym w)) e >>= subsE O n (single w (sym v))) = .ok e := by
  obtain ⟨r, h1, o1, v1⟩ := subs_multiplied_out (v := v) hO h (.sym w hw) (.power (.one w)) hn
  obtain ⟨s, h2, o2, v2⟩ := subs_multiplied_out (v := w) hO o1 (.sym v hv) (.power (.one v)) hn
  rw [h1]
  show subsE O n _ r = _
  rw [h2, out_unique hO o2 h fun ρ => ?_]
  rw [v2, v1]
  refine den_congr _ fun s hs => ?_
  have : s ≠ w := fun e => hf (e ▸ hs)
  by_cases h' : s = v
  · subst h'; simp [den]
  · simp [Function.update_of_ne h', Function.update_of_ne this]

/-! ## Cases -/

section
set_option maxRecDepth 10000
private abbrev x : Expr := sym ['x']
private abbrev y : Expr := sym ['y']

/-- `y*x**2 + 5` and `-y*x**2 + 2*x` are covered. -/
private abbrev p1 : Expr := sum [prod [y, pow x (rat 2)], rat 5]
private abbrev p2 : Expr := sum [prod [rat (-1), y, pow x (rat 2)], prod [rat 2, x]]

private theorem px : PolyExpr exactOracle x := .sym _ (by decide)
private theorem py : PolyExpr exactOracle y := .sym _ (by decide)
private theorem sq : PolyExpr exactOracle (pow x (rat 2)) := by
  have : PolyExpr exactOracle (pow x (rat ((2 : ℕ) : ℚ))) := .pow 20 2 px le_rfl (by decide +kernel) (fun h => absurd h (by decide))
  simpa using this
private theorem pp : PowerProduct [y, pow x (rat 2)] :=
  ⟨[['y'], ['x']], by decide, .cons (.one _) (.cons (by simpa using SymPower.power ['x'] 2 le_rfl) .nil)⟩

private theorem o1 : OutPoly exactOracle p1 where
  poly := .sum 20 (by
    simp only [List.mem_cons, List.not_mem_nil, or_false, forall_eq_or_imp, forall_eq]
    exact ⟨.prod 20 (by simp [py, sq]) (by simp [isProd]) (by decide +kernel), .rat 5⟩) (by decide +kernel)
  out := .sum le_rfl (by simp [PolyTerm.prod le_rfl pp, PolyTerm.num]) (by simp [Unlike, nonNumFactors, isAcc, beqL, beq]) (by decide)

private theorem o2 : OutPoly exactOracle p2 where
  poly := .sum 20 (by
    simp only [List.mem_cons, List.not_mem_nil, or_false, forall_eq_or_imp, forall_eq]
    exact ⟨.prod 20 (by simp [py, sq, PolyExpr.rat]) (by simp [isProd]) (by decide +kernel),
      .prod 20 (by simp [px, PolyExpr.rat]) (by simp [isProd]) (by decide +kernel)⟩) (by decide +kernel)
  out := .sum le_rfl (by
    simp only [List.mem_cons, List.not_mem_nil, or_false, forall_eq_or_imp, forall_eq]
    exact ⟨⟨.scaled (by norm_num) (by norm_num) (by simp) pp, by simp⟩,
      .scaled (by norm_num) (by norm_num) (by simp) ⟨[['x']], by decide, .cons (.one _) .nil⟩, by simp⟩)
    (by simp [Unlike, nonNumFactors, isAcc, beqL, beq]) (by decide)

example : ∃ r, diffE exactOracle 9 ['x'] p2 = .ok r ∧ ∀ ρ : Str → ℝ, den ρ r = -2 * ρ ['x'] * ρ ['y'] + 2 := by
  obtain ⟨r, h1, -, -, h2⟩ := diff_multiplied_out (v := ['x']) exactOracle_exact o2 le_rfl
  refine ⟨r, h1, fun ρ => (h2 ρ).unique ?_⟩
  have p2 : ∀ t : ℝ, pw t 2 = t ^ 2 := fun t => by have := pw_int t 2; norm_num at this; simpa using this
  have := ((((hasDerivAt_id' (ρ ['x'])).fun_pow 2).const_mul (-(ρ ['y']))).fun_add ((hasDerivAt_id' (ρ ['x'])).const_mul 2)).congr_deriv (g' := -2 * ρ ['x'] * ρ ['y'] + 2) (by ring)
  refine this.congr_of_eventuallyEq (Filter.Eventually.of_forall fun t => ?_)
  simp [fnOf, den, denS, denP, p2]
/-- What they are. -/
example : diffE exactOracle 9 ['x'] p2 = .ok (sum [prod [rat (-2), x, y], rat 2]) := by decide +kernel
example : diffE exactOracle 9 ['z'] p2 = .ok (rat 0) := (diff_zero_iff exactOracle_exact o2 le_rfl).2 (by decide)
example : (diffE exactOracle 9 ['x'] p2 >>= diffE exactOracle 9 ['y']) = .ok (prod [rat (-2), x]) ∧
    (diffE exactOracle 9 ['x'] p2 >>= diffE exactOracle 9 ['y']) = (diffE exactOracle 9 ['y'] p2 >>= diffE exactOracle 9 ['x']) :=
  ⟨by decide +kernel, mixed_derivatives exactOracle_exact o2 le_rfl le_rfl⟩
example : ∃ F, Node.integrate exactOracle 20 names false 5 true ['x'] p2 = .ok (some F) ∧ diffE exactOracle 9 ['x'] F = .ok p2 :=
  diff_of_integral exactOracle_exact (by decide) o2 (by decide) le_rfl _ _ _ _

/-- The terms with `y` cancel. -/
example : opAdd (ctors exactOracle 8) p1 p2 = .ok (sum [prod [rat 2, x], rat 5]) ∧ opAdd (ctors exactOracle 8) p1 p2 = opAdd (ctors exactOracle 8) p2 p1 ∧
    (opAdd (ctors exactOracle 8) p1 p2 >>= fun s => opSub (ctors exactOracle 8) s p2) = .ok p1 :=
  ⟨by decide +kernel, (add_out_laws exactOracle_exact o1 o2 o1 le_rfl).1, (sub_out_laws exactOracle_exact o1 o2 le_rfl).1⟩

/-- `x/y`... is not a term; `3*y` is: `x = 3*y` in `y*x**2 + 5` is `9*y**3 + 5`. -/
example : subsE exactOracle 8 (single ['x'] (prod [rat 3, y])) p1 = .ok (sum [prod [rat 9, pow y (rat 3)], rat 5]) := by decide +kernel
example : ∃ r, subsE exactOracle 8 (single ['x'] (prod [rat 3, y])) p1 = .ok r ∧ OutPoly exactOracle r := by
  obtain ⟨r, h1, h2, -⟩ := subs_multiplied_out (v := ['x']) exactOracle_exact o1 (a := prod [rat 3, y])
    (.prod 20 (by simp [py, PolyExpr.rat]) (by simp [isProd]) (by decide +kernel)) (.scaled (by norm_num) (by norm_num) (by simp) ⟨[['y']], by decide, .cons (.one _) .nil⟩) le_rfl
  exact ⟨r, h1, h2⟩
example : (subsE exactOracle 8 (single ['x'] (sym ['z'])) p1 >>= subsE exactOracle 8 (single ['z'] (sym ['x']))) = .ok p1 :=
  subs_back exactOracle_exact o1 (by decide) (by decide) (by decide) le_rfl

end

end Simpy
