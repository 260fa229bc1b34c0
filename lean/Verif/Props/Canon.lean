import Verif.Proofs.Comm
import Verif.Proofs.Canon
import Verif.Proofs.Check
import Verif.Proofs.ExactOracle
import Verif.Proofs.Level

/-!
# C07-C11, C56: canonical form
-/

namespace Simpy
open Expr

variable {O : Oracle}

/-! ## C07 -/

/-- **C07** A sum returned by `Sum()` has at least two terms, at most one of which is a number, and that is not 0. -/
theorem sum_canonical (hO : O.Exact) {n : Nat} {ts rs : List Expr} (hts : ∀ t ∈ ts, Built O t)
    (h : (ctors O n).sum ts = .ok (sum rs)) :
    2 ≤ rs.length ∧ (rs.filter isAcc).length ≤ 1 ∧ ∀ c ∈ rs, c.isAcc = true → c ≠ rat 0 := by
  obtain ⟨⟨h1, h2, h3, -⟩, -⟩ := (Built.sum n hts h).canon hO
  exact ⟨h1, h2, fun c hc ha e => by have := h3 c hc ha; rw [e] at this; simp [beq] at this⟩

/-- **C07** A product returned by `Prod()` has at least two factors, at most one of which is a number, and that is neither
0 nor 1. -/
theorem prod_canonical (hO : O.Exact) {n : Nat} {ts rs : List Expr} (hts : ∀ t ∈ ts, Built O t)
    (h : (ctors O n).prod ts = .ok (prod rs)) :
    2 ≤ rs.length ∧ (rs.filter isAcc).length ≤ 1 ∧ ∀ c ∈ rs, c.isAcc = true → c ≠ rat 0 ∧ c ≠ rat 1 := by
  obtain ⟨⟨h1, h2, h3⟩, -⟩ := (Built.prod n hts h).canon hO
  exact ⟨h1, h2, fun c hc ha => ⟨fun e => by have := (h3 c hc ha).1; rw [e] at this; simp [beq] at this,
    fun e => by have := (h3 c hc ha).2; rw [e] at this; simp [beq] at this⟩⟩

/-- **C07** The same holds for every sum, product and power anywhere inside any expression a user can build. -/
theorem built_canonical (hO : O.Exact) {e : Expr} (h : Built O e) : Canon O e := h.canon hO

set_option maxRecDepth 10000 in
example : ∃ n rs, (ctors exactOracle n).sum [sym ['x'], rat 2, sym ['y'], sym ['x'], rat 3] = .ok (sum rs) ∧
    ∀ t ∈ [sym ['x'], rat 2, sym ['y'], sym ['x'], rat 3], Built exactOracle t :=
  ⟨30, [sym ['y'], prod [rat 2, sym ['x']], rat 5], by decide +kernel, by
    intro t ht; simp at ht; rcases ht with rfl | rfl | rfl | rfl | rfl <;> constructor⟩

set_option maxRecDepth 10000 in
example : ∃ n rs, (ctors exactOracle n).prod [rat 2, sym ['x'], sym ['y'], sym ['x'], rat (1/2), rat 3] = .ok (prod rs) :=
  ⟨30, [rat 3, sym ['y'], pow (sym ['x']) (rat 2)], by decide +kernel⟩

/-! ## C09 -/

/-- **C09** In a sum returned by `Sum()` no two non-numeric terms have the same non-numeric factors. -/
theorem like_terms_collected (hO : O.Exact) {n : Nat} {ts rs : List Expr} (hts : ∀ t ∈ ts, Built O t)
    (hf : floatFree (sum rs) = true) (h : (ctors O n).sum ts = .ok (sum rs)) :
    (rs.filter fun t => !t.isAcc).Pairwise fun a b => nonNumFactors a ≠ nonNumFactors b := by
  obtain ⟨⟨-, -, -, h4⟩, -⟩ := (Built.sum n hts h).canon hO
  have hf := (NoFltL_iff _).1 ((floatFree_iff _).1 hf)
  refine h4.imp_of_mem ?_
  intro a b ha hb hu e
  refine hu ⟨?_, ?_⟩
  · rw [e]; exact beqL_refl _ (nonNum_noFlt (hf b (List.mem_of_mem_filter hb)))
  · rw [e]; exact beqL_refl _ (nonNum_noFlt (hf b (List.mem_of_mem_filter hb)))

/-- a term that is neither a number, a sum nor a product -/
def Single (e : Expr) : Prop := e.isAcc = false ∧ e.isSum = false ∧ e.isProd = false

theorem Single.decon {e : Expr} (h : Single e) : deconProd e = ([rat 1], [e]) := by
  cases e <;> first | rfl | (have := h.2.2; simp [isProd] at this)

theorem Single.flat {e : Expr} (h : Single e) : flatS e = [e] ∧ flatP e = [e] := by
  cases e <;> first | exact ⟨rfl, rfl⟩ | exact nomatch (h.2.2 : true = false) | exact nomatch (h.2.1 : true = false)

/-- **C09** `x + x` is `2*x`, for every float-free `x` that is not itself a number, a sum or a product. -/
theorem add_self_partial {n : Nat} {x r : Expr} (hx : Single x) (hf : floatFree x = true)
    (h : opAdd (ctors O (n + 1)) x x = .ok r) : r = prod [rat 2, x] := by
  have hne : ∀ q, x ≠ rat q := by rintro q rfl; simpa [isAcc] using hx.1
  have h : sumCtor O (ctors O n) [x, x] = .ok r := by
    cases x <;> first | exact h | exact absurd rfl (hne _)
  unfold sumCtor at h
  obtain ⟨fs, hfs, h⟩ := bind_ok.1 h
  have hb : beqL O [x] [x] = true := beqL_refl _ ⟨(floatFree_iff _).1 hf, trivial⟩
  have e : combineSum O (flatSL [x, x]) = .ok [prod [rat 2, x]] := by
    simp only [flatSL, hx.flat.1, List.append_nil, List.singleton_append]
    have h2 : (1 : ℚ) + 1 = 2 := by norm_num
    simp [combineSum, combineSumLoop, hx.1, hx.decon, hb, likeTerm, accumulateSum, foldNum, numAdd, value, const, beq,
      mkProdSkip, bind, Except.bind, pure, Except.pure, h2]
  rw [e] at hfs
  cases hfs
  exact (pure_ok.1 h).symm

/-- **C09** `x - x` is `0`, for every float-free `x` that is not itself a number, a sum or a product, nor a power of -1. -/
theorem sub_self_partial {n : Nat} (hO : O.NoConfusion) {x r : Expr} (hx : Single x) (hf : floatFree x = true)
    (hb1 : (deconPow x).1 ≠ rat (-1)) (h : opSub (ctors O (n + 1)) x x = .ok r) : r = rat 0 := by
  have hne : ∀ q, x ≠ rat q := by rintro q rfl; simpa [isAcc] using hx.1
  have nf := (floatFree_iff _).1 hf
  have h : (prodCtor O (ctors O n) [rat (-1), x] >>= fun m => sumCtor O (ctors O n) [x, m]) = .ok r := by
    cases x <;> first | exact h | exact absurd rfl (hne _)
  obtain ⟨m, hm, h⟩ := bind_ok.1 h
  unfold prodCtor at hm
  obtain ⟨fs, hfs, hm⟩ := bind_ok.1 hm
  have hb : beq O (deconPow x).1 (rat (-1)) = false := by
    by_contra hc
    exact hb1 (beq_eq hO.isPi hO.isE _ _ (deconPow_noFlt nf) trivial (by simpa using hc))
  have e : combineProd O (ctors O n) (flatPL [rat (-1), x]) = .ok [x, rat (-1)] := by
    simp only [flatPL, hx.flat.2, List.append_nil, List.singleton_append, flatP]
    have hd : deconPow (rat (-1)) = (rat (-1), rat 1) := rfl
    simp only [combineProd, combineProdLoop, List.length_cons, List.length_nil, hd, List.filter_cons, hb, Bool.not_false,
      List.filter_nil, if_true, Bool.false_eq_true, if_false, List.isEmpty_nil]
    have b0 : beq O (rat (-1)) (rat 0) = false := by simp [beq]
    have b1 : beq O (rat (-1)) (rat 1) = false := by simp only [beq, beq_eq_false_iff_ne]; norm_num
    have ha : isAcc (rat (-1)) = true := rfl
    simp [hx.1, ha, accumulateProd, b0, b1, bind, Except.bind, pure, Except.pure]
  rw [e] at hfs
  cases hfs
  obtain ⟨s, hs, hm⟩ := bind_ok.1 hm
  have hp := sortTerms_perm hs
  have hm : m = prod s := by
    have hns : ∀ us, sum us ∉ s := by
      intro us hu
      have := hp.mem_iff.1 hu
      simp only [List.mem_cons, reduceCtorEq, List.not_mem_nil, or_false] at this
      rw [← this] at hx
      simpa [isSum] using hx.2.1
    split at hm
    · next c us => exact absurd (by simp) (hns us)
    · exact (pure_ok.1 hm).symm
  subst hm
  unfold sumCtor at h
  obtain ⟨fs, hfs, h⟩ := bind_ok.1 h
  have f1 : s.filter isAcc = [rat (-1)] := by
    have := hp.filter isAcc
    have ha : isAcc (rat (-1)) = true := rfl
    simp only [List.filter_cons, hx.1, ha, Bool.false_eq_true, if_false, if_true, List.filter_nil] at this
    exact List.perm_singleton.1 this
  have f2 : s.filter (fun t => !t.isAcc) = [x] := by
    have := hp.filter fun t => !t.isAcc
    have ha : isAcc (rat (-1)) = true := rfl
    simp only [List.filter_cons, hx.1, ha, Bool.not_true, Bool.not_false, Bool.false_eq_true, if_false, if_true,
      List.filter_nil] at this
    exact List.perm_singleton.1 this
  have hd : deconProd (prod s) = ([rat (-1)], [x]) := by
    simp only [deconProd, f1, f2]; rfl
  have hbl : beqL O [x] [x] = true := beqL_refl _ ⟨nf, trivial⟩
  have e : combineSum O (flatSL [x, prod s]) = .ok [] := by
    simp only [flatSL, hx.flat.1, List.append_nil, List.singleton_append, flatS]
    have h2 : (1 : ℚ) + -1 = 0 := by norm_num
    simp [combineSum, combineSumLoop, hx.1, hx.decon, hd, hbl, likeTerm, accumulateSum, foldNum, numAdd, value, const, beq,
      bind, Except.bind, pure, Except.pure, h2]
  rw [e] at hfs
  cases hfs
  exact (pure_ok.1 h).symm

set_option maxRecDepth 10000 in
example : opSub (ctors exactOracle 30) (pow (sym ['x']) (sym ['y'])) (pow (sym ['x']) (sym ['y'])) = .ok (rat 0) := by
  decide +kernel
example : Single (pow (sym ['x']) (sym ['y'])) := ⟨rfl, rfl, rfl⟩
set_option maxRecDepth 10000 in
example : opAdd (ctors exactOracle 30) (sym ['x']) (sym ['x']) = .ok (prod [rat 2, sym ['x']]) := by decide +kernel

set_option maxRecDepth 10000 in
/-- **C09** fails for powers of -1: with `x = (-1)^y`, `x - x` is `(-1)^(y+1) + (-1)^y`. -/
theorem sub_self_fails : ∃ n x r, (ctors exactOracle n).pow (rat (-1)) (sym ['y']) = .ok x ∧
    opSub (ctors exactOracle n) x x = .ok r ∧ r ≠ rat 0 :=
  ⟨30, pow (rat (-1)) (sym ['y']),
    sum [pow (rat (-1)) (sum [sym ['y'], rat 1]), pow (rat (-1)) (sym ['y'])], by decide +kernel, by decide +kernel, by simp⟩

/-! ## C11 -/

/-- **C11** The ordering pass returns a permutation of its input, ordered by the sort keys (complexity; depth or constant
exponent; printed form). -/
theorem sort_sorted (C : Ctors) {ts s : List Expr} (h : sortTerms C ts = .ok s) :
    s.Perm ts ∧ s.Pairwise fun a b => keyLe (sortKey C a) (sortKey C b) :=
  ⟨sortTerms_perm h, pySorted_sorted (cmpLt_agrees C) h⟩

/-- **C11** For any comparison (of any kind of elements) that never contradicts a transitive relation. -/
theorem sort_sorted_any {α : Type} {lt : α → α → R Bool} {le : α → α → Prop} (hl : Agrees lt le) {ts s : List α}
    (h : pySorted lt ts = .ok s) : s.Perm ts ∧ s.Pairwise le :=
  ⟨pySorted_perm h, pySorted_sorted hl h⟩

/-- the keys are compared by a linear order -/
theorem key_order : (∀ a, keyLe a a) ∧ (∀ a b c, keyLe a b → keyLe b c → keyLe a c) ∧
    (∀ a b, keyLe a b → keyLe b a → a = b) ∧ (∀ a b, keyLe a b ∨ keyLe b a) := by
  refine ⟨keyLe_refl, fun _ _ _ => keyLe_trans, fun _ _ => keyLe_antisymm, ?_⟩
  rintro ⟨a1, a2, a3⟩ ⟨b1, b2, b3⟩
  unfold keyLe
  simp only
  rcases lt_trichotomy a1 b1 with h | rfl | h
  · exact .inl (.inl h)
  · rcases lt_trichotomy a2 b2 with h | rfl | h
    · exact .inl (.inr ⟨rfl, .inl h⟩)
    · rcases le_total (a3.map Char.toNat) (b3.map Char.toNat) with h | h
      · exact .inl (.inr ⟨rfl, .inr ⟨rfl, strLe_iff.2 h⟩⟩)
      · exact .inr (.inr ⟨rfl, .inr ⟨rfl, strLe_iff.2 h⟩⟩)
    · exact .inr (.inr ⟨rfl, .inl h⟩)
  · exact .inr (.inl h)

/-- **C11** In the order of any list of terms that can be ordered, of two terms the one whose symbols lie deeper comes later; of two with
equally deep symbols the one with the greater exponent; and terms without symbols come first, ordered by their own depth. -/
theorem canonical_order (C : Ctors) {ts s : List Expr} (h : sortTerms C ts = .ok s) : s.Perm ts ∧ s.Pairwise Before :=
  ⟨sortTerms_perm h, sortTerms_before C h⟩

/-- **C11** In every sum and product anywhere inside any expression a user can build the factors stand in this order, and the terms of a
sum in the reverse of it. -/
theorem built_ordered (hO : O.Exact) {e : Expr} (h : Built O e) : Ordered e := (h.ordered hO).2

set_option maxRecDepth 10000 in
example : sortTerms (ctors exactOracle 30) [sym ['y'], rat 2, pow (sym ['x']) (rat 2), sym ['x']] =
    .ok [rat 2, sym ['x'], sym ['y'], pow (sym ['x']) (rat 2)] := by decide +kernel

example : Before (pow pi (rat 2)) (sym ['x']) ∧ Before (prod [rat 3, sym ['x']]) (pow (sym ['x']) (rat 2)) ∧
    Before (pow (sym ['x']) (rat 2)) (pow (sym ['y']) (rat 3)) ∧ ¬ Before (pow (sym ['y']) (rat 3)) (pow (sym ['x']) (rat 2)) := by
  norm_num [Before, symDepth, symDepths, greatest, deeper, ownExponent]

set_option maxRecDepth 10000 in
example : ∃ n, (ctors exactOracle n).sum [sym ['x'], rat 2, pow (sym ['x']) (rat 2)] = .ok (sum [pow (sym ['x']) (rat 2), sym ['x'], rat 2]) ∧
    Ordered (sum [pow (sym ['x']) (rat 2), sym ['x'], rat 2]) ∧ ¬ Ordered (sum [sym ['x'], rat 2, pow (sym ['x']) (rat 2)]) :=
  ⟨30, by decide +kernel, built_ordered (exactOracle_exact) (.sum 30 (ts := [sym ['x'], rat 2, pow (sym ['x']) (rat 2)]) (by
    intro t ht; simp at ht; rcases ht with rfl | rfl | rfl
    · exact .sym _
    · exact .rat _
    · exact .pow 30 (.sym ['x']) (.rat 2) (by decide +kernel)) (by decide +kernel)),
   by norm_num [Ordered, Before, symDepth, symDepths, greatest, deeper, ownExponent]⟩

/-! ## C10 -/

theorem ratNumsL_iff : ∀ {ts : List Expr}, ratNumsL ts = true ↔ ∀ t ∈ ts, ratNums t = true
  | [] => by simp [ratNumsL]
  | t :: r => by simp [ratNumsL, ratNumsL_iff (ts := r)]

mutual
theorem ratNums_noFlt : ∀ {e : Expr}, ratNums e = true → NoFlt e := by
  intro e h
  cases e <;> simp_all [ratNums, NoFlt]
  · exact ratNumsL_noFlt h
  · exact ratNumsL_noFlt h
  · exact ⟨ratNums_noFlt h.1, ratNums_noFlt h.2⟩
  · exact ⟨ratNums_noFlt h.1, ratNums_noFlt h.2⟩
  · exact ratNums_noFlt h
  · exact ratNums_noFlt h
theorem ratNumsL_noFlt : ∀ {ts : List Expr}, ratNumsL ts = true → NoFltL ts := by
  intro ts h
  cases ts with
  | nil => trivial
  | cons t r =>
    simp only [ratNumsL, Bool.and_eq_true] at h
    exact ⟨ratNums_noFlt h.1, ratNumsL_noFlt h.2⟩
end

theorem ratNums_acc {e : Expr} (h : ratNums e = true) (ha : e.isAcc = true) : ∃ q, e = rat q := by
  cases e <;> simp_all [ratNums, isAcc]

theorem ratNums_coef {t : Expr} (h : ratNums t = true) : ∀ c ∈ (deconProd t).1, ∃ q, c = rat q := by
  have leaf : ∀ c ∈ [rat 1], ∃ q, c = rat q := by intro c hc; exact ⟨1, by simpa using hc⟩
  intro c hc
  cases t with
  | prod ts =>
    simp only [deconProd] at hc
    split at hc
    · exact leaf c hc
    · have hm := List.mem_filter.1 hc
      exact ratNums_acc (ratNumsL_iff.1 (by simpa [ratNums] using h) c hm.1) hm.2
  | _ => exact leaf c hc

mutual
theorem flatS_ratNums : ∀ {e : Expr}, ratNums e = true → ∀ u ∈ flatS e, ratNums u = true := by
  intro e h
  cases e with
  | sum ts => exact flatSL_ratNums (by simpa [ratNums] using h)
  | _ => intro u hu; simp only [flatS, List.mem_singleton] at hu; exact hu ▸ h
theorem flatSL_ratNums : ∀ {ts : List Expr}, ratNumsL ts = true → ∀ u ∈ flatSL ts, ratNums u = true := by
  intro ts h
  cases ts with
  | nil => simp [flatSL]
  | cons t r =>
    simp only [ratNumsL, Bool.and_eq_true] at h
    intro u hu
    simp only [flatSL, List.mem_append] at hu
    exact hu.elim (flatS_ratNums h.1 u) (flatSL_ratNums h.2 u)
end

/-- **C10** Reordering the terms given to `Sum()` does not change the returned expression, provided that all numbers in the
terms are rational and that the terms of the returned sum have different sort keys. -/
theorem sum_comm (hO : O.NoConfusion) {n : Nat} {ts ts' : List Expr} {r r' : Expr} (hp : ts.Perm ts')
    (hq : ∀ t ∈ ts, ratNums t = true) (h : (ctors O (n + 1)).sum ts = .ok r) (h' : (ctors O (n + 1)).sum ts' = .ok r')
    (hd : ∀ rs, r = sum rs → ∀ a ∈ rs, ∀ b ∈ rs, sortKey (ctors O n) a = sortKey (ctors O n) b → a = b) : r = r' := by
  change sumCtor O (ctors O n) ts = _ at h
  change sumCtor O (ctors O n) ts' = _ at h'
  unfold sumCtor at h h'
  obtain ⟨fs, e1, h⟩ := bind_ok.1 h
  obtain ⟨fs', e2, h'⟩ := bind_ok.1 h'
  have hq' := flatSL_ratNums (ratNumsL_iff.2 hq)
  have hfp := combineSum_perm hO (perm_flatSL hp) (fun t ht => ratNums_noFlt (hq' t ht)) (fun t ht => ratNums_coef (hq' t ht))
    (fun t ht => ratNums_acc (hq' t ht)) e1 e2
  match fs, fs', hfp, h, h' with
  | [], fs', hfp, h, h' =>
    rw [← hfp.nil_eq] at h'
    exact (pure_ok.1 h).symm.trans (pure_ok.1 h')
  | [t], fs', hfp, h, h' =>
    have := List.singleton_perm.1 hfp
    subst this
    exact (pure_ok.1 h).symm.trans (pure_ok.1 h')
  | a :: b :: l, [], hfp, h, h' => exact absurd hfp.length_eq (by simp)
  | a :: b :: l, [t], hfp, h, h' => exact absurd hfp.length_eq (by simp)
  | a :: b :: l, c :: d :: l', hfp, h, h' =>
    obtain ⟨s, hs, h⟩ := bind_ok.1 h
    obtain ⟨s', hs', h'⟩ := bind_ok.1 h'
    have hr := (pure_ok.1 h).symm
    have : s = s' := sortTerms_unique hfp hs hs' fun a ha b hb => hd _ hr a (by simpa using ha) b (by simpa using hb)
    rw [hr, ← pure_ok.1 h', this]

theorem sumKey_ne (C : Ctors) (q : ℚ) (us : List Expr) : sortKey C (rat q) ≠ sortKey C (sum us) := by
  intro h
  simp only [sortKey, Prod.mk.injEq] at h
  obtain ⟨h1, h2, -⟩ := h
  have h0 : R.get 0 (nwf (rat q)) = 0 := rfl
  rw [h0] at h1 h2
  rw [← h1] at h2
  simp only [if_true, symbolessNest] at h2
  have : (1 : ℚ) < ((2 + symbolessNestL us : Nat) : ℚ) := by exact_mod_cast (by omega : 1 < 2 + symbolessNestL us)
  rw [← h2] at this
  norm_num at this

/-- **C10** for products: reordering the factors given to `Prod()` does not change the returned expression, provided that
the factors are all defined at some point, their exponents are rational, and the factors of the returned product have
different sort keys. Missing: symbolic exponents. -/
theorem prod_comm_partial (hO : O.Exact) {n : Nat} {ts ts' : List Expr} {r r' : Expr} (hp : ts.Perm ts')
    (hts : ∀ t ∈ ts, Built O t) {ρ : Str → ℝ} (hD : ∀ t ∈ ts, Dom ρ t)
    (hx : ∀ t ∈ ts, ∀ b x, Factor (pow b x) t → ∃ q, x = rat q)
    (h : (ctors O (n + 1)).prod ts = .ok r) (h' : (ctors O (n + 1)).prod ts' = .ok r')
    (hd : ∀ rs, r = prod rs → ∀ a ∈ rs, ∀ b ∈ rs, sortKey (ctors O n) a = sortKey (ctors O n) b → a = b) : r = r' := by
  change prodCtor O (ctors O n) ts = _ at h
  change prodCtor O (ctors O n) ts' = _ at h'
  unfold prodCtor at h h'
  obtain ⟨fs, e1, h⟩ := bind_ok.1 h
  obtain ⟨fs', e2, h'⟩ := bind_ok.1 h'
  have hN : O.NoConfusion := ⟨hO.isPi, hO.isE⟩
  have hW : ∀ u ∈ flatPL ts, WF u := flatPL_WF ts ((WFL_iff _).2 fun t ht => (hts t ht).wf hO)
  have hDf : ∀ u ∈ flatPL ts, Dom ρ u := (flatPL_val (s := false) (ρ := ρ) ts).2 hD
  have hfp := combineProd_perm hN (perm_flatPL hp) (fun u hu => (hDf u hu).noFlt) (by
      intro u hu
      obtain ⟨t, ht, hf, -⟩ := flatPL_factor hu
      cases u with
      | pow b x => exact hx t ht b x hf
      | _ => exact ⟨1, rfl⟩) (by
      intro nc cs hl c hc
      obtain ⟨-, -, h3⟩ := combineProdLoop_V hO (ctors_sound hO n) _ _ _ _ le_rfl hW hDf hl
      have hca := (combineProdLoop_W (ctors_sound hO n) _ _ _ _ hW hl).2 c hc
      exact (h3 c hc).isAcc_rat hca) e1 e2
  have hfD := (combineProd_V hO (ctors_sound hO n) hW hDf e1).2
  match fs, fs', hfp, hfD, h, h' with
  | [], fs', hfp, _, h, h' =>
    rw [← hfp.nil_eq] at h'
    exact (pure_ok.1 h).symm.trans (pure_ok.1 h')
  | [t], fs', hfp, _, h, h' =>
    have := List.singleton_perm.1 hfp
    subst this
    exact (pure_ok.1 h).symm.trans (pure_ok.1 h')
  | a :: b :: l, [], hfp, _, h, h' => exact absurd hfp.length_eq (by simp)
  | a :: b :: l, [t], hfp, _, h, h' => exact absurd hfp.length_eq (by simp)
  | a :: b :: l, c :: d :: l', hfp, hfD, h, h' =>
    obtain ⟨s, hs, h⟩ := bind_ok.1 h
    obtain ⟨s', hs', h'⟩ := bind_ok.1 h'
    have hse : s = s' := by
      refine sortTerms_unique hfp hs hs' ?_
      split at h
      · next c us =>
        split at h
        · next hb =>
          have hDc : Dom ρ c := hfD c ((sortTerms_perm hs).mem_iff.1 (by simp))
          have hacc : c = rat (-1) := Exact.beq_eq hO hDc (by simp [DomS]) hb
          subst hacc
          intro a ha b hb he
          simp only [List.mem_cons, List.not_mem_nil, or_false] at ha hb
          rcases ha with rfl | rfl <;> rcases hb with rfl | rfl
          · rfl
          · exact absurd he (sumKey_ne _ _ _)
          · exact absurd he.symm (sumKey_ne _ _ _)
          · rfl
        · exact hd _ (pure_ok.1 h).symm
      · exact hd _ (pure_ok.1 h).symm
    rw [hse] at h
    rw [h] at h'
    cases h'; rfl

set_option maxRecDepth 10000 in
example : ∃ r, (ctors exactOracle 30).sum [sym ['x'], rat 2, sym ['y'], sym ['x']] = .ok r ∧
    (ctors exactOracle 30).sum [sym ['y'], sym ['x'], rat 2, sym ['x']] = .ok r ∧
    ∀ rs, r = sum rs → ∀ a ∈ rs, ∀ b ∈ rs, sortKey (ctors exactOracle 29) a = sortKey (ctors exactOracle 29) b → a = b :=
  ⟨sum [sym ['y'], prod [rat 2, sym ['x']], rat 2], by decide +kernel, by decide +kernel, by
    intro rs h; cases h; decide +kernel⟩

set_option maxRecDepth 10000 in
example : ∃ r, (ctors exactOracle 30).prod [sym ['x'], rat 2, sym ['y'], sym ['x']] = .ok r ∧
    (ctors exactOracle 30).prod [sym ['y'], sym ['x'], rat 2, sym ['x']] = .ok r ∧
    ∀ rs, r = prod rs → ∀ a ∈ rs, ∀ b ∈ rs, sortKey (ctors exactOracle 29) a = sortKey (ctors exactOracle 29) b → a = b :=
  ⟨prod [rat 2, sym ['y'], pow (sym ['x']) (rat 2)], by decide +kernel, by decide +kernel, by
    intro rs h; cases h; decide +kernel⟩

/-! ## C08 -/

/-- **C08** A sum returned by `Sum()` has no sum among its terms, provided that no summand given to it is a number times a
sum. Missing: that case, in which the property fails (`sum_flat_fails`). -/
theorem sum_flat_partial {n : Nat} {ts rs : List Expr}
    (hn : ∀ t ∈ ts, ∀ u, Summand u t → ∀ us, nonNumFactors u ≠ [sum us])
    (h : (ctors O n).sum ts = .ok (sum rs)) : ∀ t ∈ rs, t.isSum = false := by
  cases n with
  | zero => simp [ctors] at h
  | succ n =>
    change sumCtor O (ctors O n) ts = _ at h
    unfold sumCtor at h
    obtain ⟨fs, e1, h⟩ := bind_ok.1 h
    have hf := combineSum_flat (fun u hu => (flatSL_summand hu).elim fun t ht => ht.2.2)
      (fun u hu => (flatSL_summand hu).elim fun t ht => hn t ht.1 u ht.2.1) e1
    match fs, hf, h with
    | [], _, h => cases pure_ok.1 h
    | [t], hf, h =>
      have := pure_ok.1 h; subst this
      exact absurd (hf _ (List.mem_cons_self ..)) (by simp [isSum])
    | a :: b :: l, hf, h =>
      obtain ⟨s, hs, h⟩ := bind_ok.1 h
      have h := pure_ok.1 h
      simp only [sum.injEq] at h
      rw [← h]
      intro t ht
      exact hf t ((sortTerms_perm hs).mem_iff.1 (by simpa using ht))

/-- **C08** A product returned by `Prod()` has no product among its factors, provided that factors with the same base are
powers of a symbol with rational exponents (unless -1 was distributed over a sum). Missing: other repeated bases, where the
property fails (`prod_flat_fails`). -/
theorem prod_flat_partial (hO : O.NoConfusion) {n : Nat} {ts rs : List Expr}
    (hn : (flatPL ts).Pairwise fun u v => beq O (deconPow v).1 (deconPow u).1 = true →
      (∃ s, (deconPow u).1 = sym s) ∧ (∃ p, (deconPow u).2 = rat p) ∧ ∃ q, (deconPow v).2 = rat q)
    (h : (ctors O (n + 1)).prod ts = .ok (prod rs)) :
    (∀ t ∈ rs, t.isProd = false) ∨ ∃ us, opNeg (ctors O n) (sum us) = .ok (prod rs) := by
  change prodCtor O (ctors O n) ts = _ at h
  unfold prodCtor at h
  obtain ⟨fs, e1, h⟩ := bind_ok.1 h
  have hf := combineProd_flat hO (fun u hu => (flatPL_factor hu).elim fun t ht => ht.2.2) hn e1
  match fs, hf, h with
  | [], _, h => cases pure_ok.1 h
  | [t], hf, h =>
    have := pure_ok.1 h; subst this
    exact absurd (hf _ (List.mem_cons_self ..)) (by simp [isProd])
  | a :: b :: l, hf, h =>
    obtain ⟨s, hs, h⟩ := bind_ok.1 h
    have fin : s = rs → ∀ t ∈ rs, t.isProd = false := by
      rintro rfl t ht
      exact hf t ((sortTerms_perm hs).mem_iff.1 ht)
    split at h
    · next c us =>
      split at h
      · exact .inr ⟨_, h⟩
      · have h := pure_ok.1 h
        simp only [prod.injEq] at h
        exact .inl (fin h)
    · have h := pure_ok.1 h
      simp only [prod.injEq] at h
      exact .inl (fin h)

set_option maxRecDepth 10000 in
example : (ctors exactOracle 30).sum [sum [sym ['x'], rat 2], sym ['y'], sym ['x']] =
    .ok (sum [sym ['y'], prod [rat 2, sym ['x']], rat 2]) ∧
    ∀ t ∈ [sum [sym ['x'], rat 2], sym ['y'], sym ['x']], ∀ u, Summand u t → ∀ us, nonNumFactors u ≠ [sum us] := by
  refine ⟨by decide +kernel, ?_⟩
  intro t ht u hu us
  simp only [List.mem_cons, List.not_mem_nil, or_false] at ht
  have leaf : ∀ {u v : Expr}, Summand u v → v.isSum = false → u = v := by
    intro u v h hv; cases h with
    | self => rfl
    | term => simp [isSum] at hv
  rcases ht with rfl | rfl | rfl
  · cases hu with
    | self h => simp [isSum] at h
    | term ht h =>
      simp only [List.mem_cons, List.not_mem_nil, or_false] at ht
      rcases ht with rfl | rfl
      · rw [leaf h rfl]; simp [nonNumFactors]
      · rw [leaf h rfl]; simp [nonNumFactors]
  · rw [leaf hu rfl]; simp [nonNumFactors]
  · rw [leaf hu rfl]; simp [nonNumFactors]

set_option maxRecDepth 10000 in
example : (ctors exactOracle 30).prod [prod [rat 2, sym ['x']], sym ['y'], pow (sym ['x']) (rat 3)] =
    .ok (prod [rat 2, sym ['y'], pow (sym ['x']) (rat 4)]) := by decide +kernel

/-- `3*(x+2) - 2*(x+2) + y` -/
def nestedSum : R Expr := do
  let C := ctors exactOracle 30
  let s ← C.sum [sym ['x'], rat 2]
  let a ← C.prod [rat 3, s]
  let b ← C.prod [rat (-2), s]
  C.sum [a, b, sym ['y']]

set_option maxRecDepth 10000 in
/-- **C08** fails: `3*(x+2) - 2*(x+2) + y` is the sum of the sum `x+2` and `y`. -/
theorem sum_flat_fails : nestedSum = .ok (sum [sum [sym ['x'], rat 2], sym ['y']]) := by decide +kernel

/-- `(4/3)^(1/3) * (4/3)^(1/6) * x` -/
def nestedProd : R Expr := do
  let C := ctors exactOracle 30
  let a ← C.pow (rat (4/3)) (rat (1/3))
  let b ← C.pow (rat (4/3)) (rat (1/6))
  C.prod [a, b, sym ['x']]

set_option maxRecDepth 10000 in
/-- **C08** fails: `(4/3)^(1/3) * (4/3)^(1/6) * x` is the product of the product `2 * 3^(-1/2)` and `x`. -/
theorem prod_flat_fails : nestedProd = .ok (prod [prod [rat 2, pow (rat 3) (rat (-1/2))], sym ['x']]) := by decide +kernel

/-! ## C56 -/

/-- **C56** `Sum(s.terms)` returns `s`, for `s` returned by `Sum()` from summands none of which is a number times a sum, if
the terms of `s` have different sort keys. Missing: nested sums, where the property fails (`sum_idempotent_fails`), and equal
keys. -/
theorem sum_idempotent_partial (hO : O.Exact) {n : Nat} {ts rs : List Expr} {r : Expr} (hts : ∀ t ∈ ts, Built O t)
    (hf : floatFree (sum rs) = true) (h : (ctors O (n + 1)).sum ts = .ok (sum rs))
    (hn : ∀ t ∈ ts, ∀ u, Summand u t → ∀ us, nonNumFactors u ≠ [sum us])
    (hd : ∀ a ∈ rs, ∀ b ∈ rs, sortKey (ctors O n) a = sortKey (ctors O n) b → a = b)
    (h' : (ctors O (n + 1)).sum rs = .ok r) : r = sum rs := by
  have hns := sum_flat_partial hn h
  obtain ⟨⟨c1, c2, c3, -⟩, -⟩ := (Built.sum _ hts h).canon hO
  have hu := like_terms_collected hO hts hf h
  have hnf := (NoFltL_iff _).1 ((floatFree_iff _).1 hf)
  have hs : rs.reverse.Pairwise fun a b => keyLe (sortKey (ctors O n) a) (sortKey (ctors O n) b) := by
    change sumCtor O (ctors O n) ts = _ at h
    unfold sumCtor at h
    obtain ⟨fs, e1, h⟩ := bind_ok.1 h
    have hfl := combineSum_flat (fun u hu => (flatSL_summand hu).elim fun t ht => ht.2.2)
      (fun u hu => (flatSL_summand hu).elim fun t ht => hn t ht.1 u ht.2.1) e1
    match fs, hfl, h with
    | [], _, h => cases pure_ok.1 h
    | [t], hfl, h =>
      have := pure_ok.1 h; subst this
      exact absurd (hfl _ (List.mem_cons_self ..)) (by simp [isSum])
    | a :: b :: l, _, h =>
      obtain ⟨s, hs, h⟩ := bind_ok.1 h
      have h := pure_ok.1 h
      simp only [sum.injEq] at h
      rw [← h, List.reverse_reverse]
      exact (sort_sorted _ hs).2
  change sumCtor O (ctors O n) rs = _ at h'
  unfold sumCtor at h'
  obtain ⟨fs, e1, h'⟩ := bind_ok.1 h'
  have hfp : fs.Perm rs := by
    rw [flatSL_id hns] at e1
    unfold combineSum at e1
    have hne : ∀ a ∈ rs, ∀ b ∈ rs, nonNumFactors a ≠ nonNumFactors b →
        beqL O (nonNumFactors a) (nonNumFactors b) = false := by
      intro a ha b hb hab
      by_contra hc
      exact hab (beqL_eq hO.isPi hO.isE _ _ (nonNum_noFlt (hnf a ha)) (nonNum_noFlt (hnf b hb)) (by simpa using hc))
    rw [combineSumLoop_id _ rs le_rfl (hu.imp_of_mem fun {a b} ha hb hab =>
        hne a (List.mem_of_mem_filter ha) b (List.mem_of_mem_filter hb) hab)
      (fun t ht hta c hc hca => hne t ht c hc (nonNum_ne_acc hta hca).symm)] at e1
    have hperm := perm_filter_append isAcc rs
    dsimp only [bind, Except.bind] at e1
    generalize hcs : rs.filter isAcc = cs at e1 c2 hperm
    match cs, c2, hcs with
    | [], _, _ =>
      rw [if_pos (by rfl)] at e1
      rw [← pure_ok.1 e1]
      simpa using hperm
    | [c], _, hcs =>
      have hc := List.mem_filter.1 (hcs ▸ List.mem_cons_self .. : c ∈ rs.filter isAcc)
      rw [if_neg (by simp)] at e1
      simp only [accumulateSum, c3 c hc.1 hc.2, Bool.false_eq_true, if_false] at e1
      rw [← pure_ok.1 e1]
      exact hperm
  match fs, hfp, h' with
  | [], hfp, _ => exact absurd hfp.length_eq (by simp; omega)
  | [t], hfp, _ => exact absurd hfp.length_eq (by simp; omega)
  | a :: b :: l, hfp, h' =>
    obtain ⟨s, hs', h'⟩ := bind_ok.1 h'
    have ⟨p, q⟩ := sort_sorted _ hs'
    have : s = rs.reverse := by
      refine List.Perm.eq_of_pairwise (fun a b ha hb h1 h2 => ?_) q hs (p.trans (hfp.trans (List.reverse_perm _).symm))
      exact hd a (hfp.mem_iff.1 (p.mem_iff.1 ha)) b (by simpa using hb) (keyLe_antisymm h1 h2)
    rw [← pure_ok.1 h', this, List.reverse_reverse]

/-- **C56** `Prod(p.factors)` returns `p`, for `p` returned by `Prod()` from factors of which repeated bases are symbols with
rational exponents, if the factors of `p` have different bases and different sort keys (unless -1 was distributed over a
sum). Missing: other products; the property fails for some of them (`prod_idempotent_fails`). -/
theorem prod_idempotent_partial (hO : O.Exact) {n : Nat} {ts rs : List Expr} {r : Expr} (hts : ∀ t ∈ ts, Built O t)
    (h : (ctors O (n + 1)).prod ts = .ok (prod rs)) (hneg : ∀ us, opNeg (ctors O n) (sum us) ≠ .ok (prod rs))
    (hn : (flatPL ts).Pairwise fun u v => beq O (deconPow v).1 (deconPow u).1 = true →
      (∃ s, (deconPow u).1 = sym s) ∧ (∃ p, (deconPow u).2 = rat p) ∧ ∃ q, (deconPow v).2 = rat q)
    (hb : rs.Pairwise fun u v => beq O (deconPow v).1 (deconPow u).1 = false)
    (hd : ∀ a ∈ rs, ∀ b ∈ rs, sortKey (ctors O n) a = sortKey (ctors O n) b → a = b)
    (h' : (ctors O (n + 1)).prod rs = .ok r) : r = prod rs := by
  have hN : O.NoConfusion := ⟨hO.isPi, hO.isE⟩
  have hns := (prod_flat_partial hN hn h).resolve_right fun ⟨us, e⟩ => hneg us e
  obtain ⟨⟨c1, c2, c3⟩, -⟩ := (Built.prod _ hts h).canon hO
  have hs : (rs.Pairwise fun a b => keyLe (sortKey (ctors O n) a) (sortKey (ctors O n) b)) ∧
      ∀ c us, rs = [c, sum us] → beq O c (rat (-1)) = false := by
    change prodCtor O (ctors O n) ts = _ at h
    unfold prodCtor at h
    obtain ⟨fs, e1, h⟩ := bind_ok.1 h
    have hfl := combineProd_flat hN (fun u hu => (flatPL_factor hu).elim fun t ht => ht.2.2) hn e1
    match fs, hfl, h with
    | [], _, h => cases pure_ok.1 h
    | [t], hfl, h =>
      have := pure_ok.1 h; subst this
      exact absurd (hfl _ (List.mem_cons_self ..)) (by simp [isProd])
    | a :: b :: l, _, h =>
      obtain ⟨s, hs, h⟩ := bind_ok.1 h
      have hso := (sort_sorted _ hs).2
      split at h
      · next c us =>
        split at h
        · exact absurd h (hneg us)
        · next hcb =>
          have h := pure_ok.1 h
          simp only [prod.injEq] at h
          rw [← h]
          refine ⟨hso, ?_⟩
          intro c us e
          simp only [List.cons.injEq] at e
          rw [← e.1]; simpa using hcb
      · next hne =>
        have h := pure_ok.1 h
        simp only [prod.injEq] at h
        subst h
        exact ⟨hso, fun c us e => absurd e (hne c us)⟩
  change prodCtor O (ctors O n) rs = _ at h'
  unfold prodCtor at h'
  obtain ⟨fs, e1, h'⟩ := bind_ok.1 h'
  have hfp : fs.Perm rs := by
    rw [flatPL_id hns] at e1
    unfold combineProd at e1
    rw [combineProdLoop_id _ rs le_rfl hb] at e1
    have hperm := perm_filter_append isAcc rs
    dsimp only [bind, Except.bind] at e1
    generalize hcs : rs.filter isAcc = cs at e1 c2 hperm
    match cs, c2, hcs with
    | [], _, _ =>
      rw [if_pos (by rfl)] at e1
      rw [← pure_ok.1 e1]
      simpa using hperm
    | [c], _, hcs =>
      have hc := List.mem_filter.1 (hcs ▸ List.mem_cons_self .. : c ∈ rs.filter isAcc)
      rw [if_neg (by simp)] at e1
      simp only [accumulateProd, c3 c hc.1 hc.2, Bool.false_eq_true, if_false] at e1
      rw [← pure_ok.1 e1]
      exact hperm
  match fs, hfp, h' with
  | [], hfp, _ => exact absurd hfp.length_eq (by simp; omega)
  | [t], hfp, _ => exact absurd hfp.length_eq (by simp; omega)
  | a :: b :: l, hfp, h' =>
    obtain ⟨s, hs', hk⟩ := bind_ok.1 h'
    have ⟨p, q⟩ := sort_sorted _ hs'
    have : s = rs := by
      refine List.Perm.eq_of_pairwise (fun a b ha hb h1 h2 => ?_) q hs.1 (p.trans hfp)
      exact hd a (hfp.mem_iff.1 (p.mem_iff.1 ha)) b hb (keyLe_antisymm h1 h2)
    subst this
    clear h'
    rename' hk => h'
    split at h'
    · rw [if_neg (by simp [hs.2 _ _ rfl])] at h'
      exact (pure_ok.1 h').symm
    · exact (pure_ok.1 h').symm

set_option maxRecDepth 10000 in
example : (ctors exactOracle 30).sum [sym ['y'], prod [rat 2, sym ['x']], rat 2] =
    .ok (sum [sym ['y'], prod [rat 2, sym ['x']], rat 2]) := by decide +kernel

set_option maxRecDepth 10000 in
/-- the hypotheses of `prod_idempotent_partial` are met by `2*x*y*x` -/
example : ∃ rs, (ctors exactOracle 30).prod [rat 2, sym ['x'], sym ['y'], sym ['x']] = .ok (prod rs) ∧
    (rs.Pairwise fun u v => beq exactOracle (deconPow v).1 (deconPow u).1 = false) ∧
    (∀ a ∈ rs, ∀ b ∈ rs, sortKey (ctors exactOracle 29) a = sortKey (ctors exactOracle 29) b → a = b) ∧
    (ctors exactOracle 30).prod rs = .ok (prod rs) :=
  ⟨[rat 2, sym ['y'], pow (sym ['x']) (rat 2)], by decide +kernel, by decide +kernel, by decide +kernel, by decide +kernel⟩

set_option maxRecDepth 10000 in
/-- **C56** fails: the sum `(x+2) + y` returned for `3*(x+2) - 2*(x+2) + y` is rebuilt as `x + y + 2`. -/
theorem sum_idempotent_fails : nestedSum = .ok (sum [sum [sym ['x'], rat 2], sym ['y']]) ∧
    ∃ r, (ctors exactOracle 30).sum [sum [sym ['x'], rat 2], sym ['y']] = .ok r ∧
      r ≠ sum [sum [sym ['x'], rat 2], sym ['y']] :=
  ⟨sum_flat_fails, sum [sym ['y'], sym ['x'], rat 2], by decide +kernel, by simp⟩

set_option maxRecDepth 10000 in
/-- **C56** fails: the product returned for `(4/3)^(1/3) * (4/3)^(1/6) * x` is rebuilt without the nested product. -/
theorem prod_idempotent_fails : nestedProd = .ok (prod [prod [rat 2, pow (rat 3) (rat (-1/2))], sym ['x']]) ∧
    ∃ r, (ctors exactOracle 30).prod [prod [rat 2, pow (rat 3) (rat (-1/2))], sym ['x']] = .ok r ∧
      r ≠ prod [prod [rat 2, pow (rat 3) (rat (-1/2))], sym ['x']] :=
  ⟨prod_flat_fails, prod [rat 2, pow (rat 3) (rat (-1/2)), sym ['x']], by decide +kernel, by simp⟩

end Simpy
