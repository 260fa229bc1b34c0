import Verif.Spec.Combination
import Verif.Proofs.Total
import Verif.Proofs.Basic
import Verif.Proofs.TotalRun

/-! # Lemmas: linear arguments -/

namespace Simpy
namespace LinearArg
open Expr

variable {O : Oracle} {C : Ctors} {v : Str} {L : Expr}

theorem nwf_times (a : ℚ) : Simpy.nwf (prod [rat a, sym v]) = .ok 1 := rfl

theorem nwf (h : LinearArg v L) : ∃ k, Simpy.nwf L = .ok (k + 1) := by
  cases h with
  | var => exact ⟨0, rfl⟩
  | times a h0 h1 => exact ⟨0, nwf_times a⟩
  | plus b h0 => exact ⟨1, by simp [Simpy.nwf, Expr.varies, syms, symsL, nwfAll, maxNat, bind, Except.bind, pure, Except.pure]⟩
  | both a b h0 h1 h2 =>
    refine ⟨1, ?_⟩
    have hv : Expr.varies (sum [prod [rat a, sym v], rat b]) = true := by simp [Expr.varies, syms, symsL]
    rw [Simpy.nwf.eq_def]
    simp only [hv, if_true, nwfAll, nwf_times, bind, Except.bind, pure, Except.pure]
    rfl

theorem mem (h : LinearArg v L) : v ∈ syms L := by cases h <;> simp [syms, symsL]

theorem only (h : LinearArg v L) : ∀ x ∈ syms L, x = v := by cases h <;> simp [syms, symsL]

theorem varies (h : LinearArg v L) : Expr.varies L = true := by
  have := h.mem
  have hne : syms L ≠ [] := fun h => by rw [h] at this; cases this
  simp [Expr.varies, hne]

theorem beqR (h : LinearArg v L) (c : ℚ) : beq O L (rat c) = false := by cases h <;> rfl

theorem self (h : LinearArg v L) : beq O L L = true := by cases h <;> simp [beq, beqL]

theorem isAcc (h : LinearArg v L) : L.isAcc = false := by cases h <;> rfl

theorem wf (h : LinearArg v L) : WF L := by
  cases h <;> simp [WF, WFL, Expr.isAcc, List.filter]

theorem noCls {p : Expr → Bool} (h : LinearArg v L) (hs : p (sym v) = false) (hr : ∀ c, p (rat c) = false)
    (hm : ∀ ts, p (prod ts) = false) (ha : ∀ ts, p (sum ts) = false) : containsCls p L = false := by
  cases h <;> simp [containsCls, containsClsL, hs, hr, hm, ha]

theorem dom (h : LinearArg v L) (s : Bool) (ρ : Str → ℝ) : DomS s ρ L := by
  cases h <;> simp [DomS, DomSL]

/-! ## The constructors give it back -/

theorem prod_times {a : ℚ} (h0 : a ≠ 0) (h1 : a ≠ 1) : prodCtor O C [rat a, sym v] = .ok (prod [rat a, sym v]) := by
  rw [prod_rat_unit .var]; simp [scale, h0, h1]

theorem sum_rebuild (h : LinearArg v (sum ts)) : sumCtor O C ts = .ok (sum ts) := by
  cases h with
  | plus b h0 =>
    have : sortTerms C [sym v, rat b] = .ok [rat b, sym v] := sort_unit_rat .var b
    have hl : combineSumLoop O 2 [sym v, rat b] = .ok ([sym v], [rat b]) := rfl
    have hf : flatSL [sym v, rat b] = [sym v, rat b] := rfl
    simp [sumCtor, hf, combineSum, hl, bind, Except.bind, pure, Except.pure, accumulateSum, beq, h0, this]
  | both a b h0 h1 h2 =>
    have hc : cmpLt C (rat b) (prod [rat a, sym v]) = .ok true := by
      unfold cmpLt
      rw [nwf_times]
      simp [Simpy.nwf, bind, Except.bind, pure, Except.pure]
    have : sortTerms C [prod [rat a, sym v], rat b] = .ok [rat b, prod [rat a, sym v]] := by
      simp [sortTerms, pySorted, countRun, hc, runTail, binarySort, bind, Except.bind, pure, Except.pure]
    have hl : combineSumLoop O 2 [prod [rat a, sym v], rat b] = .ok ([prod [rat a, sym v]], [rat b]) := rfl
    have hf : flatSL [prod [rat a, sym v], rat b] = [prod [rat a, sym v], rat b] := rfl
    simp [sumCtor, hf, combineSum, hl, bind, Except.bind, pure, Except.pure, accumulateSum, beq, h2, this]

/-- Going through it without replacing anything. -/
theorem replace_id {perf : Nat → Expr → R Rep} (h : LinearArg v L) (hm : ∀ n ts, perf n (prod ts) = .ok .pass)
    (ha : ∀ n ts, perf n (sum ts) = .ok .pass) (hs : ∀ n, perf n (sym v) = .ok .pass) (hr : ∀ n c, perf n (rat c) = .ok .pass) (n : Nat) :
    replaceE O perf (n + 3) L = .ok L := by
  have es : ∀ n, replaceE O perf (n + 1) (sym v) = .ok (sym v) := fun n => by rw [replaceE.eq_def]; simp only [hs, bind, Except.bind]
  have er : ∀ n c, replaceE O perf (n + 1) (rat c) = .ok (rat c) := fun n c => by rw [replaceE.eq_def]; simp only [hr, bind, Except.bind]
  have em : ∀ n a, a ≠ 0 → a ≠ 1 → replaceE O perf (n + 2) (prod [rat a, sym v]) = .ok (prod [rat a, sym v]) := fun n a h0 h1 => by
    rw [replaceE.eq_def]
    simp only [hm, bind, Except.bind, mapR, es, er]
    exact prod_times h0 h1
  cases h with
  | var => exact es _
  | times a h0 h1 => exact em _ a h0 h1
  | plus b h0 =>
    rw [replaceE.eq_def]
    simp only [ha, bind, Except.bind, mapR, es, er]
    exact sum_rebuild (.plus b h0)
  | both a b h0 h1 h2 =>
    rw [replaceE.eq_def]
    simp only [ha, bind, Except.bind, mapR, em _ a h0 h1, er]
    exact sum_rebuild (.both a b h0 h1 h2)

theorem trig_ctor {f : TrigFn} (hf : f = .sin ∨ f = .cos) (h : LinearArg v L) (hs : L.isSubtraction = false) (n : Nat) :
    trigCtor O (n + 1) f L = .ok (trig f L) := by
  have hn : trigNew O (ctors O n) f L = .ok (trig f L) := by
    rcases hf with rfl | rfl <;> cases h <;> rfl
  rcases hf with rfl | rfl <;> simp [trigCtor, hs, hn, bind, Except.bind, pure, Except.pure]

theorem pow_euler (h : LinearArg v L) (n : Nat) : (ctors O (n + 1)).pow euler L = .ok (pow euler L) := by
  show powCtor O (ctors O n) euler L = _
  cases h <;> simp [powCtor, beq, Expr.isAcc, powLog, powTail, findLog, logWithBase, isSubtraction, powInf, numericBase, Expr.isNum]

/-! ## repr -/

theorem repr (h : LinearArg v L) (hv : v ≠ []) (n : Nat) : ∃ s, (ctors O (n + 6)).repr L = .ok s ∧ s ≠ [] := by
  have hprod : ∀ a m, ∃ s, (ctors O (m + 5)).repr (prod [rat a, sym v]) = .ok s ∧ s ≠ [] := by
    intro a m
    obtain ⟨s, hs⟩ := repr_scaled (O := O) (v := v) .var a m
    refine ⟨s, hs, ?_⟩
    have hs' : prodRepr O (ctors O (m + 4)) [rat a, sym v] = .ok s := hs
    unfold prodRepr at hs'
    split at hs'
    · obtain ⟨p, _, hs'⟩ := bind_ok.1 hs'
      split at hs'
      · obtain ⟨p, _, hs'⟩ := bind_ok.1 hs'; cases hs'; simp
      · split at hs'
        · cases hs'
        · obtain ⟨p, _, hs'⟩ := bind_ok.1 hs'; cases hs'; simp
    · obtain ⟨p, _, hs'⟩ := bind_ok.1 hs'
      dsimp only at hs'
      split at hs'
      · split at hs' <;> obtain ⟨p, _, hs'⟩ := bind_ok.1 hs' <;> split at hs' <;> obtain ⟨p, _, hs'⟩ := bind_ok.1 hs' <;> cases hs' <;> simp
      · obtain ⟨ss, hss, hs'⟩ := bind_ok.1 hs'
        cases hs'
        simp only [mapR] at hss
        split at hss
        · cases hss
        · split at hss
          · cases hss
          · rename_i hss2
            split at hss2
            · cases hss2
            · cases hss2; cases hss; simp [joinStr]
  have hsum : ∀ t b m, (∃ s, (ctors O (m + 5)).repr t = .ok s ∧ s ≠ []) → ∃ s, (ctors O (m + 6)).repr (sum [t, rat b]) = .ok s ∧ s ≠ [] := by
    rintro t b m ⟨s, hs, hn⟩
    have key : ∃ r, sumReprRest (ctors O (m + 5)) [rat b] = .ok r := by
      unfold sumReprRest
      split
      · exact ⟨_, rfl⟩
      · exact ⟨_, rfl⟩
    obtain ⟨r, hr⟩ := key
    refine ⟨s ++ r, ?_, by simp [hn]⟩
    show sumRepr (ctors O (m + 5)) [t, rat b] = _
    simp only [sumRepr, hs, hr, bind, Except.bind, pure, Except.pure]
  cases h with
  | var => exact ⟨v, rfl, hv⟩
  | times a h0 h1 => exact hprod a (n + 1)
  | plus b h0 => exact hsum _ b n ⟨v, rfl, hv⟩
  | both a b h0 h1 h2 => exact hsum _ b n (hprod a n)

end LinearArg
end Simpy
