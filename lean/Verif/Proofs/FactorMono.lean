import Verif.Proofs.MonoArith
import Verif.Proofs.LinSimp
import Verif.Spec.Factor
import Verif.Proofs.Canon

/-! # Lemmas: `Sum.factor` on monomials in one variable -/

namespace Simpy
namespace Mono1
open Expr Lin TakenOut

variable {O : Oracle} {C : Ctors} {v : Str}

theorem mq_eq {c : ℚ} (h : c ≠ 0) (q : ℚ) : mq v c q = monomial v c q := by
  simp [mq, monomial, scale, h, Lin.varPow]

/-- The factor that `_df` finds in a monomial. -/
def facOf (v : Str) (c q : ℚ) : Fac := if q = 0 then ⟨rat c, 1, true⟩ else ⟨sym v, |q|, decide (0 < q)⟩

theorem dfHead_var {q : ℚ} (h : q ≠ 0) : dfHead (Lin.varPow v q) = .ok ⟨sym v, |q|, decide (0 < q)⟩ := by
  unfold Lin.varPow
  split
  · rename_i h1; subst h1; simp [dfHead]
  · rfl

theorem dfTerm_mq {c q : ℚ} (hc : c ≠ 0) : dfTerm (mq v c q) = .ok (rat c, [facOf v c q]) := by
  unfold mq facOf
  split
  · rfl
  · rename_i hq
    have hp := varPow_piece (v := v) hq
    have hh := dfHead_var (v := v) hq
    have ha := acc_varPow (v := v) q
    unfold scale
    simp only [hc, if_false]
    split
    · rename_i h1; subst h1
      have e : dfTerm (Lin.varPow v q) = (do
          let f ← dfHead (Lin.varPow v q)
          return (rat 1, [f])) := by
        generalize Lin.varPow v q = u at hp
        cases hp <;> rfl
      rw [e, hh]
      rfl
    · have hr : (rat c).isAcc = true := rfl
      simp only [dfTerm, deconProd, List.filter_cons, List.filter_nil, hr, ha, dfHeads, hh, bind, Except.bind, pure, Except.pure,
        if_true, Bool.false_eq_true, if_false, List.isEmpty_cons, mkProdSkip]
      rfl

/-! ### the powers -/

theorem commonLoop_nil : ∀ gs : List (List Fac), commonLoop C [] gs = .ok []
  | [] => rfl
  | g :: r => by simp [commonLoop, commonFacs, bind, Except.bind, commonLoop_nil r]

theorem match_var (m : Nat) (hv : ∀ q, ratStr q ≠ v) (j : ℚ) (s : Bool) (c q : ℚ) :
    commonFacs (ctors O (m + 1)) [facOf v c q] [⟨sym v, j, s⟩] =
      .ok (if q ≠ 0 ∧ s = decide (0 < q) then [⟨sym v, min j |q|, s⟩] else []) := by
  unfold facOf
  by_cases hq : q = 0
  · have : ¬ (v = ratStr c) := fun h => hv c h.symm
    simp [hq, commonFacs, matchFac, repr_rat, repr_sym, bind, Except.bind, pure, Except.pure, this]
  · by_cases hs : s = decide (0 < q)
    · simp [hq, commonFacs, matchFac, repr_sym, bind, Except.bind, pure, Except.pure, hs]
    · simp [hq, commonFacs, matchFac, repr_sym, bind, Except.bind, pure, Except.pure, hs]

theorem match_rat (m : Nat) (hv : ∀ q, ratStr q ≠ v) (a c q : ℚ) (hq : q ≠ 0) :
    commonFacs (ctors O (m + 1)) [facOf v c q] [⟨rat a, 1, true⟩] = .ok [] := by
  have : ¬ (ratStr a = v) := hv a
  simp [facOf, hq, commonFacs, matchFac, repr_rat, repr_sym, bind, Except.bind, pure, Except.pure, this]

theorem match_rat0 (m : Nat) (a c : ℚ) :
    commonFacs (ctors O (m + 1)) [facOf v c 0] [⟨rat a, 1, true⟩] = .ok [⟨rat a, 1, true⟩] ∨
    commonFacs (ctors O (m + 1)) [facOf v c 0] [⟨rat a, 1, true⟩] = .ok [] := by
  by_cases h : ratStr a = ratStr c
  · left; simp [facOf, commonFacs, matchFac, repr_rat, bind, Except.bind, pure, Except.pure, h]
  · right; simp [facOf, commonFacs, matchFac, repr_rat, bind, Except.bind, pure, Except.pure, h]

theorem loop_rat (m : Nat) (hv : ∀ q, ratStr q ≠ v) (a : ℚ) : ∀ ps : List (ℚ × ℚ), (∃ p ∈ ps, p.2 ≠ 0) →
    commonLoop (ctors O (m + 1)) [⟨rat a, 1, true⟩] (ps.map fun p => [facOf v p.1 p.2]) = .ok []
  | [], h => by simp at h
  | p :: r, h => by
    simp only [List.map_cons, commonLoop]
    by_cases hq : p.2 = 0
    · have hr : ∃ p ∈ r, p.2 ≠ 0 := by
        obtain ⟨p', hp, h0⟩ := h
        rcases List.mem_cons.1 hp with rfl | hp
        · exact absurd hq h0
        · exact ⟨p', hp, h0⟩
      rw [hq]
      rcases match_rat0 (O := O) (v := v) m a p.1 with h1 | h1
      · rw [h1]; exact loop_rat m hv a r hr
      · rw [h1]; exact commonLoop_nil _
    · rw [match_rat m hv a p.1 p.2 hq]; exact commonLoop_nil _

/-- The least absolute value. -/
def low : ℚ → List (ℚ × ℚ) → ℚ
  | j, [] => j
  | j, p :: r => low (min j |p.2|) r

theorem loop_var (m : Nat) (hv : ∀ q, ratStr q ≠ v) (s : Bool) : ∀ (ps : List (ℚ × ℚ)) (j : ℚ),
    commonLoop (ctors O (m + 1)) [⟨sym v, j, s⟩] (ps.map fun p => [facOf v p.1 p.2]) =
      .ok (if ∀ p ∈ ps, p.2 ≠ 0 ∧ s = decide (0 < p.2) then [⟨sym v, low j ps, s⟩] else [])
  | [], j => by simp [commonLoop, low]
  | p :: r, j => by
    simp only [List.map_cons, commonLoop, match_var m hv]
    by_cases h : p.2 ≠ 0 ∧ s = decide (0 < p.2)
    · have := loop_var m hv s r (min j |p.2|)
      rw [if_pos h]
      simp only [bind, Except.bind]
      rw [this]
      have hiff : (∀ q ∈ p :: r, q.2 ≠ 0 ∧ s = decide (0 < q.2)) ↔ ∀ q ∈ r, q.2 ≠ 0 ∧ s = decide (0 < q.2) := by
        constructor
        · intro k q hq; exact k q (by simp [hq])
        · intro k q hq
          rcases List.mem_cons.1 hq with rfl | hq
          exacts [h, k q hq]
      by_cases hr : ∀ q ∈ r, q.2 ≠ 0 ∧ s = decide (0 < q.2)
      · rw [if_pos hr, if_pos (hiff.2 hr)]; rfl
      · rw [if_neg hr, if_neg (fun k => hr (hiff.1 k))]
    · have h' : ¬ ∀ q ∈ p :: r, q.2 ≠ 0 ∧ s = decide (0 < q.2) := fun k => h (k p (by simp))
      rw [if_neg h, if_neg h']
      simp only [bind, Except.bind]
      exact commonLoop_nil _

theorem low_mem : ∀ (ps : List (ℚ × ℚ)) (j : ℚ), (low j ps = j ∨ ∃ p ∈ ps, low j ps = |p.2|) ∧ low j ps ≤ j ∧
    ∀ p ∈ ps, low j ps ≤ |p.2|
  | [], j => by simp [low]
  | p :: r, j => by
    obtain ⟨h1, h2, h3⟩ := low_mem r (min j |p.2|)
    refine ⟨?_, h2.trans (min_le_left _ _), ?_⟩
    · rcases h1 with h1 | ⟨p', hp, h1⟩
      · rcases min_choice j |p.2| with h | h
        · left; simp only [low]; rw [h1, h]
        · right; exact ⟨p, by simp, by simp only [low]; rw [h1, h]⟩
      · right; exact ⟨p', by simp [hp], h1⟩
    · intro p' hp
      rcases List.mem_cons.1 hp with rfl | hp
      · exact h2.trans (min_le_right _ _)
      · exact h3 p' hp

theorem prod_one (m : Nat) {q : ℚ} (hq : q ≠ 0) : (ctors O (m + 2)).prod [Lin.varPow v q] = .ok (Lin.varPow v q) := by
  have := prodCtor_mq (O := O) (C := ctors O (m + 1)) (v := v) (ts := [Lin.varPow v q]) (a := 1) (s := q) (cs := []) (by norm_num)
    (by simp [flatPL, flat_varPow, combineProdLoop, hq, acc_varPow, bind, Except.bind, pure, Except.pure]) (by simp)
  have e : mq v 1 q = Lin.varPow v q := by simp [mq, hq, scale]
  rw [e] at this
  exact this

/-- The common power. -/
theorem common_power (m : Nat) (hv : ∀ q, ratStr q ≠ v) {p : ℚ × ℚ} {ps : List (ℚ × ℚ)} (h : ∃ x ∈ p :: ps, x.2 ≠ 0) :
    ∃ fs e, commonLoop (ctors O (m + 2)) [facOf v p.1 p.2] (ps.map fun p => [facOf v p.1 p.2]) = .ok fs ∧
      makeProd (ctors O (m + 2)) fs = .ok (mq v 1 e) ∧ CommonExponent ((p :: ps).map Prod.snd) e := by
  by_cases hp : p.2 = 0
  · have h' : ∃ x ∈ ps, x.2 ≠ 0 := by
      obtain ⟨p', hp', h0⟩ := h
      rcases List.mem_cons.1 hp' with rfl | hp'
      · exact absurd hp h0
      · exact ⟨p', hp', h0⟩
    refine ⟨[], 0, ?_, by simp [makeProd, mq], ?_⟩
    · have : facOf v p.1 p.2 = ⟨rat p.1, 1, true⟩ := by simp [facOf, hp]
      rw [this]
      exact loop_rat (m + 1) hv p.1 ps h'
    · refine ⟨fun k => ?_, fun k => ?_, fun _ _ => rfl⟩
      · have := k p.2 (by simp); linarith
      · have := k p.2 (by simp); linarith
  · have e0 : facOf v p.1 p.2 = ⟨sym v, |p.2|, decide (0 < p.2)⟩ := by simp [facOf, hp]
    rw [e0, loop_var (m + 1) hv]
    have hpos : 0 < |p.2| := abs_pos.2 hp
    obtain ⟨l1, l2, l3⟩ := low_mem ps |p.2|
    by_cases hall : ∀ x ∈ ps, x.2 ≠ 0 ∧ decide (0 < p.2) = decide (0 < x.2)
    · rw [if_pos hall]
      have hl0 : 0 < low |p.2| ps := by
        rcases l1 with l1 | ⟨x, hx, l1⟩
        · rw [l1]; exact hpos
        · rw [l1]; exact abs_pos.2 (hall x hx).1
      by_cases hs : 0 < p.2
      · have hx : ∀ x ∈ p :: ps, 0 < x.2 := by
          intro x hx
          rcases List.mem_cons.1 hx with rfl | hx
          · exact hs
          · have := (hall x hx).2; simpa [hs] using this
        refine ⟨_, low |p.2| ps, rfl, ?_, ?_, ?_, ?_⟩
        · simp only [makeProd, hs, decide_true, mapR, pow_var' (m + 1) hl0.ne', bind, Except.bind, List.isEmpty_cons,
            Bool.false_eq_true, if_false, if_true]
          rw [prod_one m hl0.ne']
          simp [mq, hl0.ne', scale]
        · intro _
          refine ⟨?_, ?_⟩
          · rcases l1 with l1 | ⟨x, hx', l1⟩
            · rw [l1, abs_of_pos hs]; simp
            · rw [l1, abs_of_pos (hx x (by simp [hx']))]; exact List.mem_map.2 ⟨x, by simp [hx'], rfl⟩
          · intro q hq
            obtain ⟨x, hx', rfl⟩ := List.mem_map.1 hq
            have := hx x hx'
            rw [← abs_of_pos this]
            rcases List.mem_cons.1 hx' with rfl | hx'
            · exact l2
            · exact l3 x hx'
        · intro k; have := k p.2 (by simp); linarith
        · rintro ⟨q, hq, h0⟩ _
          obtain ⟨x, hx', rfl⟩ := List.mem_map.1 hq
          have := hx x hx'; linarith
      · have hs' : p.2 < 0 := lt_of_le_of_ne (not_lt.1 hs) hp
        have hx : ∀ x ∈ p :: ps, x.2 < 0 := by
          intro x hx
          rcases List.mem_cons.1 hx with rfl | hx
          · exact hs'
          · obtain ⟨h1, h2⟩ := hall x hx
            have : ¬ 0 < x.2 := by simpa [hs] using h2
            exact lt_of_le_of_ne (not_lt.1 this) h1
        have hl1 : -low |p.2| ps ≠ 0 := by simpa using hl0.ne'
        refine ⟨_, -low |p.2| ps, rfl, ?_, ?_, ?_, ?_⟩
        · simp only [makeProd, hs, decide_false, mapR, pow_var' (m + 1) hl1, bind, Except.bind, List.isEmpty_cons,
            Bool.false_eq_true, if_false]
          rw [prod_one m hl1]
          simp [mq, hl0.ne', scale]
        · intro k; have := k p.2 (by simp); linarith
        · intro _
          refine ⟨?_, ?_⟩
          · rcases l1 with l1 | ⟨x, hx', l1⟩
            · rw [l1, abs_of_neg hs']; simp
            · rw [l1, abs_of_neg (hx x (by simp [hx'])), neg_neg]; exact List.mem_map.2 ⟨x, by simp [hx'], rfl⟩
          · intro q hq
            obtain ⟨x, hx', rfl⟩ := List.mem_map.1 hq
            have hlt := hx x hx'
            have : low |p.2| ps ≤ |x.2| := by
              rcases List.mem_cons.1 hx' with rfl | hx'
              · exact l2
              · exact l3 x hx'
            rw [abs_of_neg hlt] at this
            linarith
        · rintro _ ⟨q, hq, h0⟩
          obtain ⟨x, hx', rfl⟩ := List.mem_map.1 hq
          have := hx x hx'; linarith
    · rw [if_neg hall]
      refine ⟨[], 0, rfl, by simp [makeProd, mq], ?_, ?_, fun _ _ => rfl⟩
      · intro k
        exact absurd (fun x hx => by
          have h1 : 0 < p.2 := k p.2 (by simp)
          have h2 : 0 < x.2 := k x.2 (List.mem_map.2 ⟨x, by simp [hx], rfl⟩)
          exact ⟨h2.ne', by simp [h1, h2]⟩) hall
      · intro k
        exact absurd (fun x hx => by
          have h1 : p.2 < 0 := k p.2 (by simp)
          have h2 : x.2 < 0 := k x.2 (List.mem_map.2 ⟨x, by simp [hx], rfl⟩)
          exact ⟨h2.ne, by simp [not_lt.2 h1.le, not_lt.2 h2.le]⟩) hall

/-! ### the number -/

theorem div_rat (a : ℚ) {b : ℚ} (h : b ≠ 0) : opDiv C (rat a) (rat b) = .ok (rat (a / b)) := by simp [opDiv, h]

theorem divides_of_den {a b : ℚ} (ha : a ≠ 0) (h : (b / a).den = 1) : Divides a b :=
  ⟨(b / a).num, by
    have : ((b / a).num : ℚ) = b / a := Rat.coe_int_num_of_den_eq_one h
    rw [this]; field_simp⟩

theorem not_divides_of_den {a b : ℚ} (ha : a ≠ 0) (h : (b / a).den ≠ 1) : ¬ Divides a b := by
  rintro ⟨z, hz⟩
  apply h
  rw [hz, mul_div_assoc, div_self ha, mul_one]
  simp

theorem _root_.Simpy.TakenOut.Divides.trans {a b c : ℚ} (h : Divides a b) (k : Divides b c) : Divides a c := by
  obtain ⟨y, rfl⟩ := h; obtain ⟨z, rfl⟩ := k
  exact ⟨z * y, by push_cast; ring⟩

theorem _root_.Simpy.TakenOut.Divides.abs_left {a b : ℚ} (h : Divides a b) : Divides |a| b := by
  obtain ⟨z, rfl⟩ := h
  rcases abs_choice a with h | h
  · exact ⟨z, by rw [h]⟩
  · exact ⟨-z, by rw [h]; push_cast; ring⟩

theorem _root_.Simpy.TakenOut.Divides.abs_of {a b : ℚ} (h : Divides |a| b) : Divides a b := by
  obtain ⟨z, rfl⟩ := h
  rcases abs_choice a with h | h
  · exact ⟨z, by rw [h]⟩
  · exact ⟨-z, by rw [h]; push_cast; ring⟩

theorem _root_.Simpy.TakenOut.Divides.le {a b : ℚ} (h : Divides a b) (hb : b ≠ 0) : |a| ≤ |b| := by
  obtain ⟨z, rfl⟩ := h
  have hz : z ≠ 0 := by rintro rfl; simp at hb
  have : (1 : ℚ) ≤ |(z : ℚ)| := by exact_mod_cast Int.one_le_abs hz
  rw [abs_mul]
  nlinarith [abs_nonneg a]

theorem coeff_loop : ∀ (cs seen : List ℚ) (k : ℚ), (∀ c ∈ cs, c ≠ 0) → 0 < k → (∃ c ∈ seen, k = |c|) → (∀ c ∈ seen, Divides k c) →
    (∃ k', coeffLoop C k (cs.map rat) = .ok (some k') ∧ 0 < k' ∧ (∃ c ∈ seen ++ cs, k' = |c|) ∧ ∀ c ∈ seen ++ cs, Divides k' c) ∨
    (coeffLoop C k (cs.map rat) = .ok none ∧ ∃ a ∈ seen ++ cs, ∃ b ∈ seen ++ cs, ¬ Divides a b ∧ ¬ Divides b a)
  | [], seen, k, _, h0, h1, h2 => .inl ⟨k, rfl, h0, by simpa using h1, by simpa using h2⟩
  | c :: r, seen, k, hc, h0, h1, h2 => by
    have hc0 : c ≠ 0 := hc c (by simp)
    have hstep : coeffLoop C k ((c :: r).map rat) = if (c / k).den = 1 ∨ (k / c).den = 1 then
        coeffLoop C (min |c| |k|) (r.map rat) else .ok none := by
      simp [coeffLoop, div_rat c h0.ne', div_rat k hc0, ratOf, bind, Except.bind, pure, Except.pure]
    rw [hstep]
    have app : seen ++ c :: r = (seen ++ [c]) ++ r := by simp
    rw [app]
    by_cases hd : Divides k c
    · have hle := hd.le hc0
      have hk : min |c| |k| = k := by rw [min_eq_right hle, abs_of_pos h0]
      have hden : (c / k).den = 1 := by
        obtain ⟨z, hz⟩ := hd
        rw [hz, mul_div_assoc, div_self h0.ne', mul_one]; simp
      rw [if_pos (.inl hden), hk]
      refine coeff_loop r (seen ++ [c]) k (fun x hx => hc x (by simp [hx])) h0 ?_ ?_
      · obtain ⟨x, hx, e⟩ := h1; exact ⟨x, by simp [hx], e⟩
      · intro x hx
        rcases List.mem_append.1 hx with hx | hx
        · exact h2 x hx
        · simp at hx; subst hx; exact hd
    · by_cases hd' : Divides c k
      · have hle := hd'.le h0.ne'
        have hk : min |c| |k| = |c| := min_eq_left hle
        have hden : (k / c).den = 1 := by
          obtain ⟨z, hz⟩ := hd'
          rw [hz, mul_div_assoc, div_self hc0, mul_one]; simp
        rw [if_pos (.inr hden), hk]
        refine coeff_loop r (seen ++ [c]) |c| (fun x hx => hc x (by simp [hx])) (abs_pos.2 hc0) ⟨c, by simp, rfl⟩ ?_
        intro x hx
        rcases List.mem_append.1 hx with hx | hx
        · exact hd'.abs_left.trans (h2 x hx)
        · simp at hx; subst hx; exact Divides.abs_left ⟨1, by simp⟩
      · have n1 : ¬ (c / k).den = 1 := fun h => hd (divides_of_den h0.ne' h)
        have n2 : ¬ (k / c).den = 1 := fun h => hd' (divides_of_den hc0 h)
        rw [if_neg (by simp [n1, n2])]
        right
        obtain ⟨x, hx, e⟩ := h1
        refine ⟨rfl, x, by simp [hx], c, by simp, ?_, ?_⟩
        · intro h; apply hd; rw [e]; exact h.abs_left
        · rintro ⟨z, hz⟩
          apply hd'
          rw [e, hz]
          rcases abs_choice ((z : ℚ) * c) with h | h
          · exact ⟨z, h⟩
          · exact ⟨-z, by rw [h]; push_cast; ring⟩

/-- The common number. -/
theorem common_number (c : ℚ) (cs : List ℚ) (h : ∀ x ∈ c :: cs, x ≠ 0) :
    (∃ k, commonCoeff C ((c :: cs).map rat) = .ok (some k) ∧ k ≠ 0 ∧ CommonNumber (c :: cs) k) ∨
    (commonCoeff C ((c :: cs).map rat) = .ok none ∧ ∃ a ∈ c :: cs, ∃ b ∈ c :: cs, ¬ Divides a b ∧ ¬ Divides b a) := by
  have hc : c ≠ 0 := h c (by simp)
  have hall : ((c :: cs).map rat).all negNum = decide (∀ x ∈ c :: cs, x < 0) := by
    rw [Bool.eq_iff_iff]; simp [negNum]
  rcases coeff_loop (C := C) cs [c] |c| (fun x hx => h x (by simp [hx])) (abs_pos.2 hc) ⟨c, by simp, rfl⟩
    (by simpa using Divides.abs_left ⟨1, by simp⟩) with ⟨k, e, h0, h1, h2⟩ | ⟨e, h1⟩
  · left
    simp only [List.cons_append, List.nil_append] at h1 h2
    refine ⟨if ∀ x ∈ c :: cs, x < 0 then -k else k, ?_, ?_, ?_, ?_, ?_⟩
    · simp only [List.map_cons] at hall ⊢
      simp only [commonCoeff, ratOf, bind, Except.bind, e, pure, Except.pure, Option.map, hall]
      simp
    · split <;> simp [h0.ne']
    · intro x hx
      obtain ⟨z, hz⟩ := h2 x hx
      split
      · exact ⟨-z, by rw [hz]; push_cast; ring⟩
      · exact ⟨z, hz⟩
    · obtain ⟨x, hx, e⟩ := h1
      refine ⟨x, hx, ?_⟩
      split
      · rw [abs_neg, e, abs_abs]
      · rw [e, abs_abs]
    · split
      · rename_i hn; exact ⟨fun _ => hn, fun _ => by linarith⟩
      · rename_i hn; exact ⟨fun hk => absurd hk (by linarith), fun hk => absurd hk hn⟩
  · right
    simp only [List.cons_append, List.nil_append] at h1
    refine ⟨?_, h1⟩
    simp only [List.map_cons, commonCoeff, ratOf, bind, Except.bind, e, pure, Except.pure, Option.map]

/-! ### together -/

theorem mapR_df : ∀ ps : List (ℚ × ℚ), (∀ p ∈ ps, p.1 ≠ 0) →
    mapR dfTerm (ps.map fun p => mq v p.1 p.2) = .ok (ps.map fun p => (rat p.1, [facOf v p.1 p.2]))
  | [], _ => rfl
  | p :: r, h => by
    simp only [List.map_cons, mapR, dfTerm_mq (h p (by simp)), mapR_df r fun q hq => h q (by simp [hq])]

theorem factorCommon_mq (m : Nat) (hv : ∀ q, ratStr q ≠ v) {ps : List (ℚ × ℚ)} (hc : ∀ p ∈ ps, p.1 ≠ 0) (hx : ∃ p ∈ ps, p.2 ≠ 0) :
    ∃ k e, factorCommon (ctors O (m + 2)) (ps.map fun p => mq v p.1 p.2) = .ok (mq v k e) ∧ k ≠ 0 ∧
      CommonExponent (ps.map Prod.snd) e ∧
      (CommonNumber (ps.map Prod.fst) k ∨
        k = 1 ∧ ∃ a ∈ ps.map Prod.fst, ∃ b ∈ ps.map Prod.fst, ¬ Divides a b ∧ ¬ Divides b a) := by
  cases ps with
  | nil => simp at hx
  | cons p ps =>
    obtain ⟨fs, e, l1, l2, l3⟩ := common_power (O := O) m hv hx
    have hm := mapR_df (v := v) (p :: ps) hc
    have e1 : (List.map Prod.snd ((p :: ps).map fun p => (rat p.1, [facOf v p.1 p.2]))) =
      [facOf v p.1 p.2] :: ps.map fun p => [facOf v p.1 p.2] := by simp
    have e2 : (List.map Prod.fst ((p :: ps).map fun p => (rat p.1, [facOf v p.1 p.2]))) =
      ((p.1 :: ps.map Prod.fst).map rat) := by simp
    have hcs : ∀ x ∈ p.1 :: ps.map Prod.fst, x ≠ 0 := by
      intro x hx
      rcases List.mem_cons.1 hx with rfl | hx
      · exact hc p (by simp)
      · obtain ⟨y, hy, rfl⟩ := List.mem_map.1 hx; exact hc y (by simp [hy])
    rcases common_number (C := ctors O (m + 2)) p.1 (ps.map Prod.fst) hcs with ⟨k, n1, n2, n3⟩ | ⟨n1, n2⟩
    · refine ⟨k, e, ?_, n2, l3, .inl n3⟩
      unfold factorCommon
      rw [hm]
      simp only [bind, Except.bind, e1, e2, l1, l2, n1]
      have := prod_mq (O := O) (v := v) m (a := 1) (b := k) (i := e) (j := 0) one_ne_zero n2
      have ek : mq v k 0 = rat k := by simp [mq]
      rw [one_mul, add_zero, ek] at this
      by_cases he : e = 0
      · subst he; simp [mq, opMul]
      · rw [← this]
        have hp := varPow_piece (v := v) he
        simp only [mq, he, if_false, scale, one_ne_zero, if_true]
        generalize Lin.varPow v e = u at hp
        cases hp <;> rfl
    · refine ⟨1, e, ?_, one_ne_zero, l3, .inr ⟨rfl, n2⟩⟩
      unfold factorCommon
      rw [hm]
      simp only [bind, Except.bind, e1, e2, l1, l2, n1]
      rfl

theorem mapR_div (m : Nat) {k e : ℚ} (hk : k ≠ 0) : ∀ ps : List (ℚ × ℚ), (∀ p ∈ ps, p.1 ≠ 0) →
    mapR (fun t => opDiv (ctors O (m + 5)) t (mq v k e)) (ps.map fun p => mq v p.1 p.2) =
      .ok (ps.map fun p => mq v (p.1 / k) (p.2 - e))
  | [], _ => rfl
  | p :: r, h => by
    simp only [List.map_cons, mapR, div_mq m (h p (by simp)) hk, mapR_div m hk r fun q hq => h q (by simp [hq])]

/-! ### the last product -/

theorem Ok.of {α : Type} {x : R α} {a : α} (h : x = .ok a) : Ok x := ⟨a, h⟩

/-- The pieces here are powers of the variable. -/
def Power1 (v : Str) (u : Expr) : Prop := ∃ q, q ≠ 0 ∧ u = Lin.varPow v q

theorem mq_term {c : ℚ} (q : ℚ) : PTerm v (Power1 v) (mq v c q) := by
  unfold mq
  split
  · exact .inl ⟨c, rfl⟩
  · rename_i h
    exact pscale (varPow_piece h) ⟨q, h, rfl⟩ c

theorem mq_canon (c q : ℚ) : Canon O (mq v c q) := by
  unfold mq
  split
  · trivial
  · rename_i h
    have hv : Canon O (Lin.varPow v q) := by
      unfold Lin.varPow
      split
      · trivial
      · rename_i h1; exact ⟨by simp [PowCanon, beq, h, h1], trivial, trivial⟩
    unfold scale
    split
    · trivial
    split
    · exact hv
    · rename_i h0 h1
      refine ⟨⟨by simp, ?_, ?_⟩, trivial, hv, trivial⟩
      · have : (rat c).isAcc = true := rfl
        simp [List.filter_cons, this, acc_varPow]
      · intro x hx ha
        rcases List.mem_cons.1 hx with rfl | hx
        · simp [beq, h0, h1]
        · simp at hx; subst hx; rw [acc_varPow] at ha; cases ha

/-- A canonical term is a monomial. -/
theorem term_mq {t : Expr} (hc : Canon O t) (h : PTerm v (Power1 v) t) : t = rat 0 ∨ ∃ c q, c ≠ 0 ∧ t = mq v c q := by
  rcases h with ⟨c, rfl⟩ | ⟨u, -, ⟨q, h0, rfl⟩, rfl⟩ | ⟨c, u, -, ⟨q, h0, rfl⟩, rfl⟩
  · by_cases h : c = 0
    · exact .inl (by rw [h])
    · exact .inr ⟨c, 0, h, by simp [mq]⟩
  · exact .inr ⟨1, q, one_ne_zero, by simp [mq, h0, scale]⟩
  · have := hc.1.2.2 (rat c) (by simp) rfl
    simp [beq] at this
    exact .inr ⟨c, q, this.1, by simp [mq, h0, scale, this.1, this.2]⟩

theorem neg_term {t : Expr} (hc : Canon O t) (h : PTerm v (Power1 v) t) (m : Nat) :
    ∃ t', opNeg (ctors O (m + 2)) t = .ok t' ∧ PTerm v (Power1 v) t' := by
  rcases term_mq hc h with rfl | ⟨c, q, h0, rfl⟩
  · exact ⟨rat (-0), by simp [opNeg], .inl ⟨_, rfl⟩⟩
  · exact ⟨_, neg_mq m h0, mq_term q⟩

theorem negL_terms (m : Nat) : ∀ {ts : List Expr}, (∀ t ∈ ts, Canon O t) → (∀ t ∈ ts, PTerm v (Power1 v) t) →
    ∃ ts', opNegL (ctors O (m + 2)) ts = .ok ts' ∧ ∀ t ∈ ts', PTerm v (Power1 v) t
  | [], _, _ => ⟨[], rfl, by simp⟩
  | t :: r, hc, h => by
    obtain ⟨t', e, h1⟩ := neg_term (hc t (by simp)) (h t (by simp)) m
    obtain ⟨r', er, h2⟩ := negL_terms m (ts := r) (fun x hx => hc x (by simp [hx])) fun x hx => h x (by simp [hx])
    refine ⟨t' :: r', by simp [opNegL, e, er], ?_⟩
    intro x hx
    rcases List.mem_cons.1 hx with rfl | hx
    exacts [h1, h2 x hx]

theorem neg_sum (hO : O.Exact) (hv : v ≠ []) {ts : List Expr} (hc : Canon O (sum ts)) (h : ∀ t ∈ ts, PTerm v (Power1 v) t) (m : Nat) :
    Ok (opNeg (ctors O (m + 11)) (sum ts)) := by
  obtain ⟨ts', e, h'⟩ := negL_terms (O := O) (m + 9) (canonL_iff.1 hc.2) h
  obtain ⟨S, hS, -⟩ := sum_combs (P := Power1 v) hO hv (ts := ts') (fun t ht => .inl (h' t ht)) m
  exact ⟨S, by simp only [opNeg, e]; exact hS⟩

theorem repr_sum (hO : O.Exact) (hv : v ≠ []) {ts : List Expr} (hc : Canon O (sum ts)) (h : ∀ t ∈ ts, PTerm v (Power1 v) t) (m : Nat) :
    Ok ((ctors O (m + 11)).repr (sum ts)) := by
  have rest : ∀ {l : List Expr}, (∀ t ∈ l, Canon O t) → (∀ t ∈ l, PTerm v (Power1 v) t) → Ok (sumReprRest (ctors O (m + 10)) l) := by
    intro l
    induction l with
    | nil => intro _ _; exact ⟨_, rfl⟩
    | cons t r ih =>
      intro hc h
      have i := ih (fun x hx => hc x (by simp [hx])) fun x hx => h x (by simp [hx])
      unfold sumReprRest
      refine Ok.ite ?_ ?_
      · obtain ⟨t', e, h1⟩ := neg_term (hc t (by simp)) (h t (by simp)) (m + 8)
        exact Ok.bind ⟨t', e⟩ fun a ha => by
          rw [e] at ha; cases ha
          exact Ok.bind (repr_term hO hv h1.term m) fun _ _ => Ok.bind i fun _ _ => ⟨_, rfl⟩
      · exact Ok.bind (repr_term hO hv (h t (by simp)).term m) fun _ _ => Ok.bind i fun _ _ => ⟨_, rfl⟩
  show Ok (sumRepr (ctors O (m + 10)) ts)
  have hc' := canonL_iff.1 hc.2
  cases ts with
  | nil => exact ⟨_, rfl⟩
  | cons t r =>
    exact Ok.bind (repr_term hO hv (h t (by simp)).term m) fun _ _ =>
      Ok.bind (rest (fun x hx => hc' x (by simp [hx])) fun x hx => h x (by simp [hx])) fun _ _ => ⟨_, rfl⟩

theorem nwf_sum {ts : List Expr} (hn : ts ≠ []) (h : ∀ t ∈ ts, Term v t) : Ok (Simpy.nwf (sum ts)) := by
  have all : ∀ {l : List Expr}, (∀ t ∈ l, Term v t) → ∃ ns, nwfAll l = .ok ns ∧ (l ≠ [] → ns ≠ []) := by
    intro l
    induction l with
    | nil => intro _; exact ⟨[], rfl, by simp⟩
    | cons t r ih =>
      intro h
      obtain ⟨a, ha⟩ := (h t (by simp)).nwf
      obtain ⟨ns, e, -⟩ := ih fun x hx => h x (by simp [hx])
      exact ⟨a :: ns, by simp [nwfAll, ha, e, bind, Except.bind, pure, Except.pure], by simp⟩
  obtain ⟨ns, e, hne⟩ := all h
  rw [Simpy.nwf]
  refine Ok.ite (Ok.bind ⟨ns, e⟩ fun a ha => ?_) ⟨_, rfl⟩
  rw [e] at ha; cases ha
  cases ns with
  | nil => exact absurd rfl (hne hn)
  | cons b r => exact ⟨_, rfl⟩

/-- The ordering is defined on a monomial and a sum of monomials. -/
theorem cmp_any (hO : O.Exact) (hv : v ≠ []) {ts : List Expr} (hc : Canon O (sum ts)) (hn : ts ≠ [])
    (h : ∀ t ∈ ts, PTerm v (Power1 v) t) (m : Nat) {a b : Expr} (ha : Term v a ∨ a = sum ts) (hb : Term v b ∨ b = sum ts) :
    Ok (cmpLt (ctors O (m + 11)) a b) := by
  have hr := repr_sum hO hv hc h m
  have hw := nwf_sum hn fun t ht => (h t ht).term
  have hp : Ok (Simpy.constPower (sum ts)) := ⟨1, rfl⟩
  have all : ∀ {x}, (Term v x ∨ x = sum ts) → Ok (Simpy.nwf x) ∧ Ok (Simpy.constPower x) ∧ Ok ((ctors O (m + 11)).repr x) := by
    rintro x (hx | rfl)
    · exact ⟨hx.nwf, hx.constPower, repr_term hO hv hx (m + 1)⟩
    · exact ⟨hw, hp, hr⟩
  obtain ⟨n1, p1, r1⟩ := all ha
  obtain ⟨n2, p2, r2⟩ := all hb
  unfold cmpLt
  refine Ok.bind n1 fun a _ => Ok.bind n2 fun b _ => ?_
  refine Ok.ite ?_ (Ok.ite ⟨_, rfl⟩ ?_)
  · refine Ok.ite ⟨_, rfl⟩ ?_
    exact Ok.bind r1 fun _ _ => Ok.bind r2 fun _ _ => ⟨_, rfl⟩
  · refine Ok.bind p1 fun _ _ => Ok.bind p2 fun _ _ => Ok.ite ⟨_, rfl⟩ ?_
    exact Ok.bind r1 fun _ _ => Ok.bind r2 fun _ _ => ⟨_, rfl⟩

/-- A monomial times a sum of monomials. -/
theorem prod_sum (hO : O.Exact) (hv : v ≠ []) {ts : List Expr} (hc : Canon O (sum ts)) (hn : ts ≠ [])
    (h : ∀ t ∈ ts, PTerm v (Power1 v) t) {k e : ℚ} (hk : k ≠ 0) (m : Nat) : Ok ((ctors O (m + 12)).prod [mq v k e, sum ts]) := by
  show Ok (prodCtor O (ctors O (m + 11)) [mq v k e, sum ts])
  have hf : flatPL [mq v k e, sum ts] = flatP (mq v k e) ++ [sum ts] := by simp [flatPL, flatP]
  have r1 : ∀ (x : ℚ), beq O (sum ts) (rat x) = false := fun x => rfl
  have r2 : beq O (sum ts) (sym v) = false := rfl
  have r3 : ∀ (x : ℚ), beq O (sym v) (rat x) = false := fun x => rfl
  have r5 : ∀ (x : ℚ), deconPow (rat x) = (rat x, rat 1) := fun x => rfl
  have r6 : ∀ (x : ℚ), (rat x).isAcc = true := fun x => rfl
  have r7 : deconPow (sum ts) = (sum ts, rat 1) := rfl
  have r8 : (sum ts).isAcc = false := rfl
  have hcomb : ∃ fs, combineProd O (ctors O (m + 11)) (flatPL [mq v k e, sum ts]) = .ok fs ∧
      ∀ x ∈ fs, Term v x ∨ x = sum ts := by
    rw [hf, flat_mq hk]
    have hl : ∃ (nc : List Expr) (cs : List ℚ), combineProdLoop O (ctors O (m + 11))
        ((if e = 0 then [rat k] else if k = 1 then [Lin.varPow v e] else [rat k, Lin.varPow v e]) ++ [sum ts]).length
        ((if e = 0 then [rat k] else if k = 1 then [Lin.varPow v e] else [rat k, Lin.varPow v e]) ++ [sum ts]) =
          .ok (nc, cs.map rat) ∧ (cs = [] ∨ cs = [k]) ∧ ∀ x ∈ nc, Term v x ∨ x = sum ts := by
      by_cases he : e = 0
      · refine ⟨[sum ts], [k], ?_, .inr rfl, by simp⟩
        simp [he, combineProdLoop, r1, r5, r6, r7, r8, bind, Except.bind, pure, Except.pure]
      · have hp := Term.unit (varPow_piece (v := v) he)
        by_cases h1 : k = 1
        · refine ⟨[Lin.varPow v e, sum ts], [], ?_, .inl rfl, ?_⟩
          · simp [he, h1, combineProdLoop, decon_varPow, acc_varPow, r2, r7, r8, bind, Except.bind, pure, Except.pure]
          · intro x hx
            rcases List.mem_cons.1 hx with rfl | hx
            · exact .inl hp
            · exact .inr (by simpa using hx)
        · refine ⟨[Lin.varPow v e, sum ts], [k], ?_, .inr rfl, ?_⟩
          · simp [he, h1, combineProdLoop, decon_varPow, acc_varPow, r1, r2, r3, r5, r6, r7, r8, bind, Except.bind, pure, Except.pure]
          · intro x hx
            rcases List.mem_cons.1 hx with rfl | hx
            · exact .inl hp
            · exact .inr (by simpa using hx)
    obtain ⟨nc, cs, hl, hcs, hnc⟩ := hl
    unfold combineProd
    rw [hl]
    simp only [bind, Except.bind, pure, Except.pure]
    rcases hcs with rfl | rfl
    · exact ⟨nc, rfl, hnc⟩
    · simp only [List.map_cons, List.map_nil, List.isEmpty_cons, Bool.false_eq_true, if_false, accumulateProd]
      split
      · exact ⟨[rat k], rfl, fun x hx => .inl (by simp at hx; subst hx; exact .const k)⟩
      · split
        · exact ⟨nc, rfl, hnc⟩
        · refine ⟨nc ++ [rat k], rfl, fun x hx => ?_⟩
          rcases List.mem_append.1 hx with hx | hx
          · exact hnc x hx
          · exact .inl (by simp at hx; subst hx; exact .const k)
  obtain ⟨fs, hfs, hmem⟩ := hcomb
  unfold prodCtor
  rw [hfs]
  simp only [bind, Except.bind, pure, Except.pure]
  match fs, hmem with
  | [], _ => exact ⟨_, rfl⟩
  | [t], _ => exact ⟨_, rfl⟩
  | a :: b :: r, hmem =>
    obtain ⟨s, hs⟩ := pySorted_total (lt := cmpLt (ctors O (m + 11))) (l := a :: b :: r)
      fun x hx y hy => cmp_any hO hv hc hn h m (hmem x hx) (hmem y hy)
    have hperm := pySorted_perm hs
    have hs' : sortTerms (ctors O (m + 11)) (a :: b :: r) = .ok s := hs
    simp only [hs']
    split
    · rename_i us
      split
      · have : sum us = sum ts := by
          rcases hmem (sum us) (hperm.subset (by simp)) with hx | hx
          · generalize hg : sum us = g at hx
            cases hx with
            | const c => cases hg
            | unit hp => cases hp <;> cases hg
            | scaled c hp => cases hg
          · exact hx
        rw [this]
        exact neg_sum hO hv hc h m
      · exact ⟨_, rfl⟩
    · exact ⟨_, rfl⟩

/-- A monomial times a sum or a monomial. -/
theorem prod_comb (hO : O.Exact) (hv : v ≠ []) {S : Expr} (hc : Canon O S) (h : PComb v (Power1 v) S) {k e : ℚ} (hk : k ≠ 0) (m : Nat) :
    Ok (opMul (ctors O (m + 12)) (mq v k e) S) := by
  have gen : Ok ((ctors O (m + 12)).prod [mq v k e, S]) → Ok (opMul (ctors O (m + 12)) (mq v k e) S) := by
    intro h
    unfold opMul
    split
    · exact ⟨_, rfl⟩
    · exact h
  apply gen
  rcases h with h | ⟨ts, rfl, hn, h⟩
  · rcases term_mq hc h with rfl | ⟨c, q, h0, rfl⟩
    · show Ok (prodCtor O (ctors O (m + 11)) [mq v k e, rat 0])
      have hf : flatPL [mq v k e, rat 0] = flatP (mq v k e) ++ [rat 0] := by simp [flatPL, flatP]
      have r2 : ∀ x : ℚ, beq O (rat x) (sym v) = false := fun x => rfl
      have r3 : ∀ (x : ℚ), beq O (sym v) (rat x) = false := fun x => rfl
      have r5 : ∀ (x : ℚ), deconPow (rat x) = (rat x, rat 1) := fun x => rfl
      have r6 : ∀ (x : ℚ), (rat x).isAcc = true := fun x => rfl
      have r4 : beq O (rat 0) (rat k) = false := by simp [beq]; exact fun h => hk h.symm
      refine ⟨rat 0, ?_⟩
      have hcomb : combineProd O (ctors O (m + 11)) (flatPL [mq v k e, rat 0]) = .ok [rat 0] := by
        rw [hf, flat_mq hk]
        have r9 : beq O (rat 0) (rat 0) = true := by simp [beq]
        by_cases he : e = 0
        · simp [he, combineProd, combineProdLoop, r4, r5, r6, bind, Except.bind, pure, Except.pure, accumulateProd, value, foldNum, numMul, const, r9]
        · by_cases h1 : k = 1
          · simp [he, h1, combineProd, combineProdLoop, decon_varPow, acc_varPow, r2, r5, r6, bind, Except.bind, pure, Except.pure, accumulateProd, r9]
          · simp [he, h1, combineProd, combineProdLoop, decon_varPow, acc_varPow, r2, r3, r4, r5, r6, bind, Except.bind, pure, Except.pure, accumulateProd, value, foldNum, numMul, const, r9]
      unfold prodCtor
      rw [hcomb]
      rfl
    · exact ⟨_, prod_mq (m + 10) hk h0⟩
  · exact prod_sum hO hv hc hn h hk m

end Mono1
end Simpy
