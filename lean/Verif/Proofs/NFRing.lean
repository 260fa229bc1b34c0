import Verif.Proofs.NFDiff
import Verif.Proofs.NFRun

/-! Products and powers of polynomials that are multiplied out. -/

namespace Simpy
open Expr

namespace NF

variable {O : Oracle}

/-- Polynomials with the same key are the same. -/
theorem polyE_key (hO : O.Exact) {p q : MvPolynomial Str ℚ} (hp : Good p) (hq : Good q) (h : key O (polyE O p) = key O (polyE O q)) : p = q := by
  obtain ⟨c1, s, hs⟩ := cr_polyE (O := O) 0 p
  obtain ⟨c2, t, ht⟩ := cr_polyE (O := O) 0 q
  have : s = t := by
    have h3 : text O (polyE O p) = text O (polyE O q) := congrArg (fun k => k.2.2) h
    rwa [text_eq hs, text_eq ht] at h3
  subst this
  refine ev_inj fun ρ => ?_
  rw [← ev_polyE (O := O), ← ev_polyE (O := O)]
  exact same_text_same_value_partial hO (built_polyE hO hp) (built_polyE hO hq) (dom_polyE ρ p) (dom_polyE ρ q)
    (syms_polyE hp) (syms_polyE hq) c1 c2 hs ht

/-- The factors of a product of polynomials that are multiplied out. -/
inductive Atom (O : Oracle) : Expr → Prop
  | num (c : ℚ) : c ≠ 0 → c ≠ 1 → Atom O (rat c)
  | pow (s : Str) (k : ℕ) : goodName s = true → 1 ≤ k → Atom O (vp s k)
  | sum {p : MvPolynomial Str ℚ} {ws : List Expr} : Good p → polyE O p = sum ws → Atom O (sum ws)

/-- The base of a factor. -/
def base (t : Expr) : Expr := (deconPow t).1

theorem good_vp {s : Str} (h : goodName s = true) (k : ℕ) : Good (MvPolynomial.monomial (Finsupp.single s k) (1 : ℚ)) := by
  refine good_mono fun t ht => ?_
  by_cases e : s = t
  · exact e ▸ h
  · rw [Finsupp.single_eq_of_ne' e] at ht; exact absurd rfl ht

theorem Atom.poly (h : Atom O t) : ∃ p, Good p ∧ polyE O p = t := by
  cases h with
  | num c h0 h1 => exact ⟨MvPolynomial.C c, good_C c, polyE_C c⟩
  | pow s k hs hk => exact ⟨_, good_vp hs k, by rw [polyE_mono, ← vp_mono s hk]⟩
  | sum hg h => exact ⟨_, hg, h⟩

theorem Atom.isProd (h : Atom O t) : t.isProd = false := by
  cases h with
  | num c h0 h1 => rfl
  | pow s k hs hk => exact prod_vp s k
  | sum hg h => rfl

theorem Atom.fine (n : Nat) (h : Atom O t) : Fine O (n + 6) t := by
  cases h with
  | num c h0 h1 => exact fine_rat _ c
  | pow s k hs hk => exact fine_vp _ s hk
  | sum hg h =>
    obtain ⟨m, hm⟩ := nwf_poly h
    refine ⟨⟨_, hm⟩, ⟨1, rfl⟩, ?_⟩
    rw [← h]; exact (cr_polyE n _).2

theorem Atom.inj (hO : O.Exact) (ha : Atom O a) (hb : Atom O b) (h : key O a = key O b) : a = b := by
  obtain ⟨p, gp, rfl⟩ := ha.poly
  obtain ⟨q, gq, rfl⟩ := hb.poly
  rw [polyE_key hO gp gq h]

theorem noFlt_polyE (p : MvPolynomial Str ℚ) : NoFlt (polyE O p) := by
  have hm : ∀ c d, NoFlt (mono O c d) := by
    intro c d
    rcases mono_split (O := O) (c := c) (d := d) with h | ⟨_, _, e, _⟩
    · generalize mono O c d = t at *
      cases h with
      | num q => simp [NoFlt]
      | pow s k _ => rcases vp_cases s k with ⟨_, h⟩ | ⟨_, h⟩ <;> rw [h] <;> simp [NoFlt]
    · have hl : ∀ f ∈ flatP (mono O c d), Leaf f := mono_leaves
      generalize flatP (mono O c d) = L at *
      rw [e, NoFlt, NoFltL_iff]
      intro f hf
      cases hl f hf with
      | num q => simp [NoFlt]
      | pow s k _ => rcases vp_cases s k with ⟨_, h⟩ | ⟨_, h⟩ <;> rw [h] <;> simp [NoFlt]
  rcases polyE_cases (O := O) p with ⟨c, d, rfl⟩ | ⟨h, hlen⟩
  · rw [polyE_mono]; exact hm c d
  · obtain ⟨l, h1, h2, h3, h4⟩ := terms_list (O := O) p
    rw [h, h1, NoFlt, NoFltL_iff]
    intro f hf
    obtain ⟨q, _, rfl⟩ := List.mem_map.1 hf
    exact hm _ _

theorem Atom.base_noFlt (h : Atom O t) : NoFlt (base t) := by
  cases h with
  | num c h0 h1 => simp [base, deconPow, NoFlt]
  | pow s k hs hk => rw [base, decon_vp]; simp [NoFlt]
  | sum hg h => rw [base, deconPow, ← h]; exact noFlt_polyE _; simp

theorem Atom.acc (h : Atom O t) : t.isAcc = true → ∃ c, c ≠ 0 ∧ c ≠ 1 ∧ t = rat c := by
  cases h with
  | num c h0 h1 => exact fun _ => ⟨c, h0, h1, rfl⟩
  | pow s k hs hk => rw [acc_vp]; intro h; cases h
  | sum hg h => intro h; cases h

theorem Atom.poly' (hO : O.Exact) (h : Atom O t) : PolyExpr O t := by
  obtain ⟨p, gp, rfl⟩ := h.poly
  exact polyExpr_polyE hO gp

/-- A product of factors with different bases is kept, in order. -/
theorem prod_atoms (hO : O.Exact) (n : Nat) {L ts : List Expr} (ha : ∀ t ∈ L, Atom O t) (hb : (L.map base).Nodup) (hc : (L.filter isAcc).length ≤ 1)
    (h2 : 2 ≤ L.length) (hne : ∀ us, ¬ L.Perm [rat (-1), sum us]) (hts : (flatPL ts).Perm L) :
    (ctors O (n + 7)).prod ts = .ok (prod (sorted O L)) := by
  show prodCtor O (ctors O (n + 6)) ts = _
  unfold prodCtor
  generalize flatPL ts = M at *
  have hm : ∀ t ∈ M, Atom O t := fun t ht => ha t (hts.mem_iff.1 ht)
  have hb' : (M.map base).Nodup := (hts.map base).nodup_iff.2 hb
  have hpw : M.Pairwise fun a b => beq O (deconPow b).1 (deconPow a).1 = false := by
    rw [List.Nodup, List.pairwise_map] at hb'
    refine hb'.imp_of_mem fun {a b} h1 h3 h => ?_
    rw [Bool.eq_false_iff]
    intro hq
    exact h ((beq_iff hO (hm b h3).base_noFlt (hm a h1).base_noFlt).1 hq).symm
  have hcomb : ∃ N, combineProd O (ctors O (n + 6)) M = .ok N ∧ N.Perm M := by
    unfold combineProd
    rw [combineProdLoop_id _ _ le_rfl hpw, ok_bind]
    have hl : (M.filter isAcc).length ≤ 1 := by rw [(hts.filter isAcc).length_eq]; exact hc
    have hp : (M.filter (fun t => !t.isAcc) ++ M.filter isAcc).Perm M := by
      refine List.perm_append_comm.trans (List.filter_append_perm isAcc M)
    match hf : M.filter isAcc, hl with
    | [], _ =>
      refine ⟨_, rfl, ?_⟩
      rw [hf, List.append_nil] at hp; exact hp
    | [t], _ =>
      have ht : t ∈ M.filter isAcc := by rw [hf]; simp
      rw [List.mem_filter] at ht
      obtain ⟨c, h0, h1, rfl⟩ := (hm t ht.1).acc ht.2
      refine ⟨M.filter (fun t => !t.isAcc) ++ [rat c], ?_, by rw [hf] at hp; exact hp⟩
      simp [accumulateProd, beq, h0, h1, bind, Except.bind, pure, Except.pure]
  obtain ⟨N, h3, h4⟩ := hcomb
  rw [h3, ok_bind]
  have h5 : N.Perm L := h4.trans hts
  have hn : ∀ t ∈ N, Atom O t := fun t ht => ha t (h5.mem_iff.1 ht)
  have hs : sortTerms (ctors O (n + 6)) N = .ok (sorted O L) := by
    refine sort_is (fun a h => (hn a h).fine n) (fun a h b h' hk => (hn a h).inj hO (hn b h') hk) ((sorted_perm L).trans h5.symm) (sorted_le _)
  have hfin : ∀ s : List Expr, (∀ t ∈ s, NoFlt t) → (∀ us, s ≠ [rat (-1), sum us]) → (match s with
      | [c, sum us] => if beq O c (rat (-1)) then opNeg (ctors O (n + 6)) (sum us) else return prod s
      | _ => return prod s : R Expr) = .ok (prod s) := by
    intro s hno h
    split
    · rename_i c us
      by_cases hq : beq O c (rat (-1)) = true
      · exfalso
        have := (beq_iff hO (hno c (by simp)) (by simp [NoFlt])).1 hq
        rw [this] at h
        exact h us rfl
      · rw [if_neg hq]; rfl
    · rfl
  have hl := h5.length_eq
  match N, hl with
  | [], hl => simp at hl; omega
  | [_], hl => simp at hl; omega
  | a :: b :: r, _ =>
    simp only []
    rw [hs, ok_bind]
    refine hfin _ (fun t ht => ?_) fun us e => hne us ?_
    · obtain ⟨p, _, rfl⟩ := (ha t ((sorted_perm L).mem_iff.1 ht)).poly
      exact noFlt_polyE p
    rw [← e]; exact (sorted_perm L).symm

theorem atoms_poly (hO : O.Exact) {L : List Expr} (ha : ∀ t ∈ L, Atom O t) (hb : (L.map base).Nodup) (hc : (L.filter isAcc).length ≤ 1)
    (h2 : 2 ≤ L.length) (hne : ∀ us, ¬ L.Perm [rat (-1), sum us]) : PolyExpr O (prod (sorted O L)) ∧ toMv (prod (sorted O L)) = (L.map toMv).prod := by
  have hp := sorted_perm (O := O) L
  have hs : ∀ t ∈ sorted O L, Atom O t := fun t ht => ha t (hp.mem_iff.1 ht)
  refine ⟨.prod 7 (fun t ht => (hs t ht).poly' hO) (fun t ht => (hs t ht).isProd) (prod_atoms hO 0 ha hb hc h2 hne ?_), ?_⟩
  · rw [flatPL_id fun t ht => (hs t ht).isProd]; exact hp
  · rw [toMv_prod]; exact (hp.map toMv).prod_eq

theorem nwf_pow_sum {ws : List Expr} {m : ℕ} (hm : Simpy.nwf (sum ws) = .ok (m + 1)) (q : ℚ) : Simpy.nwf (pow (sum ws) (rat q)) = .ok (m + 2) := by
  have hv : varies (sum ws) = true := by
    by_contra h
    rw [Simpy.nwf, if_neg h] at hm
    simp at hm
  have hv' : varies (pow (sum ws) (rat q)) = true := by
    simpa [varies, syms, anys] using hv
  rw [Simpy.nwf, if_pos hv', hm]
  simp [Simpy.nwf, bind, Except.bind, pure, Except.pure]
  omega

theorem prod_rat_pow {C : Ctors} {ws : List Expr} {q : ℚ} {m : ℕ} (hn : Simpy.nwf (pow (sum ws) (rat q)) = .ok (m + 2)) :
    prodCtor O C [rat (-1), pow (sum ws) (rat q)] = .ok (prod [rat (-1), pow (sum ws) (rat q)]) := by
  have hc : combineProd O C (flatPL [rat (-1), pow (sum ws) (rat q)]) = .ok [pow (sum ws) (rat q), rat (-1)] := by
    simp [flatPL, Simpy.flatP, combineProd, combineProdLoop, deconPow, beq, isAcc, bind, Except.bind, pure, Except.pure,
      show accumulateProd O [rat (-1)] = .ok (rat (-1)) from by simpa using accumulateProd_rat (O := O) (qs := [-1])]
    norm_num
  have hr : Simpy.nwf (rat (-1)) = .ok 0 := by simp [Simpy.nwf]
  have hlt : cmpLt C (rat (-1)) (pow (sum ws) (rat q)) = .ok true := by
    unfold cmpLt
    rw [hr, hn]
    simp [bind, Except.bind, pure, Except.pure]
  have hs : sortTerms C [pow (sum ws) (rat q), rat (-1)] = .ok [rat (-1), pow (sum ws) (rat q)] := by
    unfold sortTerms pySorted
    simp only [countRun, hlt, ok_bind]
    simp [runTail, binarySort, bind, Except.bind, pure, Except.pure]
  unfold prodCtor
  rw [hc, ok_bind]
  dsimp only
  rw [hs, ok_bind]
  rfl

/-- A power of a sum. -/
theorem pow_polyS (hO : O.Exact) (n : Nat) {p : MvPolynomial Str ℚ} (hg : Good p) {ws : List Expr} (h : polyE O p = sum ws) {k : ℕ} (hk : 2 ≤ k) :
    ∃ c, (ctors O (n + 7)).pow (sum ws) (rat k) = .ok c ∧ PolyExpr O c ∧ toMv c = p ^ k ∧ height c ≤ 5 ∧ c.isAcc = false := by
  have ht : toMv (sum ws) = p := by rw [← h]; exact toMv_polyE hO hg
  have hp : PolyExpr O (sum ws) := by rw [← h]; exact polyExpr_polyE hO hg
  have p0 : p ≠ 0 := by
    rintro rfl
    rw [← map_zero MvPolynomial.C, polyE_C] at h; cases h
  have hh : ∀ {us : List Expr} {q : MvPolynomial Str ℚ}, polyE O q = sum us → height (pow (sum us) (rat (k : ℚ))) ≤ 4 := by
    intro us q e
    have := height_polyE (O := O) q
    rw [e] at this
    rw [height]
    have : height (rat (k : ℚ)) = 0 := rfl
    omega
  have keep : ∀ {q : MvPolynomial Str ℚ} {us : List Expr} (m : Nat), Good q → q ≠ 0 → ¬ AllNeg q → polyE O q = sum us →
      (ctors O (m + 1)).pow (sum us) (rat k) = .ok (pow (sum us) (rat k)) ∧ PolyExpr O (pow (sum us) (rat k)) ∧ toMv (pow (sum us) (rat k)) = q ^ k := by
    intro q us m gq q0 hq e
    have hs : (sum us).isSubtraction = false := by
      rw [Bool.eq_false_iff, ← e]; exact fun h => hq ((sub_polyE q0).1 h)
    have et : toMv (sum us) = q := by rw [← e]; exact toMv_polyE hO gq
    refine ⟨pow_sum_keep m hs hk, .pow 1 k ?_ hk (pow_sum_keep 0 hs hk) fun _ _ => ?_, ?_⟩
    · rw [← e]; exact polyExpr_polyE hO gq
    · rw [AllNeg] at hq
      push Not at hq
      obtain ⟨d, hd, h1⟩ := hq
      rw [et]
      exact ⟨d, lt_of_le_of_ne h1 (Ne.symm (MvPolynomial.mem_support_iff.1 hd))⟩
    · rw [toMv_pow, et]
  by_cases hq : AllNeg p
  · have hs : (sum ws).isSubtraction = true := by rw [← h]; exact (sub_polyE p0).2 hq
    have hn := neg_polyE hO n hg
    rw [h] at hn
    have hnn : ¬ AllNeg (-p) := by
      intro h'
      obtain ⟨d, hd⟩ := MvPolynomial.support_nonempty.2 p0
      have h1 := hq d hd
      have h2 := h' d (by rwa [MvPolynomial.support_neg])
      rw [MvPolynomial.coeff_neg] at h2
      linarith
    have hsum : ∃ us, polyE O (-p) = sum us := by
      rcases polyE_cases (O := O) (-p) with ⟨c, d, e⟩ | ⟨e, -⟩
      · have : p = MvPolynomial.monomial d (-c) := by rw [map_neg, ← e, neg_neg]
        rw [this, polyE_mono] at h
        have := sum_mono (O := O) (-c) d
        rw [h] at this; cases this
      · exact ⟨_, e⟩
    obtain ⟨us, hu⟩ := hsum
    obtain ⟨k1, k2, k3⟩ := keep (n + 5) (good_neg hg) (neg_ne_zero.2 p0) hnn hu
    rw [hu] at hn
    rcases Nat.even_or_odd k with he | ho
    · refine ⟨_, (pow_sum_even (n + 6) hs hk he hn).trans k1, k2, ?_, ?_, rfl⟩
      · rw [k3, he.neg_pow]
      · have := hh hu; omega
    · obtain ⟨m, hm⟩ := nwf_poly hu
      have hmk := nwf_pow_sum hm (k : ℚ)
      have hprod : ∀ C : Ctors, prodCtor O C [rat (-1), pow (sum us) (rat (k : ℚ))] = .ok (prod [rat (-1), pow (sum us) (rat (k : ℚ))]) :=
        fun C => prod_rat_pow hmk
      refine ⟨prod [rat (-1), pow (sum us) (rat (k : ℚ))], ?_, .prod 1 ?_ ?_ (hprod _), ?_, ?_, rfl⟩
      · have k0 : ¬ ((k : ℚ) = 0) := by exact_mod_cast (by omega : k ≠ 0)
        have k1' : ¬ ((k : ℚ) = 1) := by exact_mod_cast (by omega : k ≠ 1)
        show powCtor O (ctors O (n + 6)) (sum ws) (rat k) = _
        have hb : beq O (sum ws) (rat 1) = false := rfl
        have hx0 : beq O (rat (k : ℚ)) (rat 0) = false := by simpa [beq] using k0
        have hx1 : beq O (rat (k : ℚ)) (rat 1) = false := by simpa [beq] using k1'
        have ha : (sum ws).isAcc = false := rfl
        have hden : ((k : ℚ).den == 1) = true := by simp
        have hmod : ¬ (k : ℚ).num % 2 = 0 := by
          obtain ⟨j, rfl⟩ := ho
          have : ((2 * j + 1 : ℕ) : ℚ).num = ((2 * j + 1 : ℕ) : ℤ) := Rat.num_natCast _
          rw [this]; omega
        unfold powCtor
        simp only [hx0, hx1, hb, ha, hs, Bool.false_and, Bool.false_eq_true, if_false, powLog, powTail, hden, Bool.and_self, if_true]
        rw [hn, ok_bind, if_neg hmod, k1, ok_bind]
        exact hprod _
      · simp [k2, PolyExpr.rat]
      · simp [Expr.isProd]
      · rw [toMv_prod]
        simp only [List.map_cons, List.map_nil, List.prod_cons, List.prod_nil, mul_one, k3, toMv_rat]
        rw [ho.neg_pow]
        simp
      · have := hh hu
        simp only [height, heightL] at this ⊢
        omega
  · obtain ⟨k1, k2, k3⟩ := keep (n + 6) hg p0 hq h
    exact ⟨_, k1, k2, k3, (hh h).trans (by omega), rfl⟩

theorem comb_rat_sum {C : Ctors} {c : ℚ} {ws ts : List Expr} (hts : ts = [rat c, sum ws] ∨ ts = [sum ws, rat c]) :
    combineProd O C (flatPL ts) = .ok (if c = 0 then [rat 0] else if c = 1 then [sum ws] else [sum ws, rat c]) := by
  have ha : accumulateProd O [rat c] = .ok (rat c) := by simpa using accumulateProd_rat (O := O) (qs := [c])
  by_cases c0 : c = 0
  · subst c0
    rcases hts with rfl | rfl <;>
    simp [flatPL, Simpy.flatP, combineProd, combineProdLoop, deconPow, beq, isAcc, bind, Except.bind, pure, Except.pure, ha]
  by_cases c1 : c = 1
  · subst c1
    rcases hts with rfl | rfl <;>
    simp [flatPL, Simpy.flatP, combineProd, combineProdLoop, deconPow, beq, isAcc, bind, Except.bind, pure, Except.pure, ha]
  rcases hts with rfl | rfl <;>
  simp [flatPL, Simpy.flatP, combineProd, combineProdLoop, deconPow, beq, isAcc, bind, Except.bind, pure, Except.pure, ha, c0, c1]

/-- The product of a sum with itself. -/
theorem prod_same (hO : O.Exact) (n : Nat) {p : MvPolynomial Str ℚ} (hg : Good p) {ws : List Expr} (h : polyE O p = sum ws) :
    ∃ c, (ctors O (n + 8)).prod [sum ws, sum ws] = .ok c ∧ PolyExpr O c ∧ toMv c = p * p ∧ height c ≤ 5 := by
  obtain ⟨c, h1, h2, h3, h4, h5⟩ := pow_polyS hO n hg h (le_refl 2)
  refine ⟨c, ?_, h2, by rw [h3, sq], h4⟩
  show prodCtor O (ctors O (n + 7)) _ = _
  have hb : beq O (sum ws) (sum ws) = true := (beq_iff hO (h ▸ noFlt_polyE p) (h ▸ noFlt_polyE p)).2 rfl
  have hc : combineProd O (ctors O (n + 7)) (flatPL [sum ws, sum ws]) = .ok [c] := by
    have h22 : (1 : ℚ) + 1 = ((2 : ℕ) : ℚ) := by norm_num
    have e0 : ¬ ((1 : ℚ) + 1 = 0) := by norm_num
    have e1 : beq O (rat (1 + 1)) (rat 0) = false := by simp [beq]
    have e2 : beq O (rat (1 + 1)) (rat 1) = false := by simp [beq]
    rw [h22] at e1 e2
    simp only [flatPL, Simpy.flatP, combineProd, combineProdLoop, deconPow, hb, foldAdd, opAdd, likeFactor, bind, Except.bind, pure, Except.pure,
      List.append_nil, List.cons_append, List.nil_append, List.length_cons, List.length_nil, List.filter_cons, List.filter_nil, if_true, Bool.not_true,
      List.isEmpty_cons, Bool.false_eq_true, if_false, List.map_cons, List.map_nil, e1, e2, h22, h1, h5, List.isEmpty_nil]
  unfold prodCtor
  rw [hc, ok_bind]
  rfl

/-- A product of a monomial and a sum. -/
theorem prod_mono_sum (hO : O.Exact) (n : Nat) {c : ℚ} {d : Str →₀ ℕ} (hd : GoodD d) {p : MvPolynomial Str ℚ} (hg : Good p) {ws : List Expr}
    (h : polyE O p = sum ws) {ts : List Expr} (hts : ts = [mono O c d, sum ws] ∨ ts = [sum ws, mono O c d]) :
    ∃ r, (ctors O (n + 8)).prod ts = .ok r ∧ PolyExpr O r ∧ toMv r = mon (c, d) * p ∧ height r ≤ 5 := by
  have ht : toMv (sum ws) = p := by rw [← h]; exact toMv_polyE hO hg
  have hp : PolyExpr O (sum ws) := by rw [← h]; exact polyExpr_polyE hO hg
  have hh : height (sum ws) ≤ 3 := by rw [← h]; exact height_polyE p
  by_cases d0 : d = 0
  · subst d0
    rw [mono_const] at hts
    have e : mon (c, 0) = MvPolynomial.C c := rfl
    rw [e]
    obtain ⟨m, hm⟩ := nwf_poly h
    have hx : (ctors O (n + 8)).prod ts = prodCtor O (ctors O (n + 7)) [rat c, sum ws] := by
      show prodCtor O (ctors O (n + 7)) ts = _
      unfold prodCtor
      rw [comb_rat_sum hts, comb_rat_sum (.inl rfl)]
    rw [hx]
    by_cases c0 : c = 0
    · subst c0
      refine ⟨rat 0, ?_, .rat 0, by rw [toMv_rat]; simp, by simp [height]⟩
      unfold prodCtor
      rw [comb_rat_sum (.inl rfl), if_pos rfl]
      rfl
    by_cases c1 : c = 1
    · subst c1
      refine ⟨sum ws, ?_, hp, by rw [ht]; simp, hh.trans (by omega)⟩
      unfold prodCtor
      rw [comb_rat_sum (.inl rfl), if_neg one_ne_zero, if_pos rfl]
      rfl
    rw [prod_rat_sum c0 c1 hm]
    by_cases cm : c = -1
    · rw [if_pos cm, ← h, neg_polyE hO (n + 1) hg]
      exact ⟨_, rfl, polyExpr_polyE hO (good_neg hg), by rw [toMv_polyE hO (good_neg hg), cm]; simp, (height_polyE _).trans (by omega)⟩
    · rw [if_neg cm]
      refine ⟨_, rfl, .prod (n + 8) ?_ ?_ ((prod_rat_sum c0 c1 hm).trans (if_neg cm)), ?_, ?_⟩
      · simp [hp, PolyExpr.rat]
      · simp [Expr.isProd]
      · rw [toMv_prod]; simp [ht, toMv_rat]
      · simp only [height, heightL] at hh ⊢; omega
  by_cases c0 : c = 0
  · subst c0
    rw [mono_zero] at hts
    refine ⟨rat 0, ?_, .rat 0, by rw [toMv_rat]; simp [mon], by simp [height]⟩
    show prodCtor O (ctors O (n + 7)) ts = _
    unfold prodCtor
    rw [comb_rat_sum hts, if_pos rfl]
    rfl
  have hL : (flatPL ts).Perm (flatP (mono O c d) ++ [sum ws]) := by
    rcases hts with rfl | rfl
    · simp [flatPL, Simpy.flatP]
    · simp only [flatPL, Simpy.flatP, List.append_nil]
      exact List.perm_append_comm
  have hfl := flat_mono (O := O) (d := d) c0
  have ha : ∀ t ∈ flatP (mono O c d) ++ [sum ws], Atom O t := by
    intro t ht
    rcases List.mem_append.1 ht with ht | ht
    · rw [hfl] at ht
      rcases List.mem_append.1 ht with ht | ht
      · split at ht
        · simp at ht
        · rename_i hc
          simp at ht; subst ht
          exact .num c c0 fun h => hc ⟨h, d0⟩
      · obtain ⟨s, h1, rfl⟩ := mem_fs.1 ht
        exact .pow s _ (hd s (by omega)) h1
    · simp at ht; subst ht
      exact .sum hg h
  have hfs : ((fs O d).map base).Nodup := by
    have hq : ∀ f ∈ fs O d, ∃ s k, f = vp s k := fs_vp
    refine List.Nodup.map_on (fun f hf g hg e => ?_) ?_
    · obtain ⟨s, h1, rfl⟩ := mem_fs.1 hf
      obtain ⟨t, h2, rfl⟩ := mem_fs.1 hg
      rw [base, base, decon_vp, decon_vp] at e
      simp only [sym.injEq] at e
      rw [e]
    · refine (sorted_perm _).nodup_iff.2 ?_
      exact List.Nodup.map_on (fun p hp q hq h => (vp_inj h).1) (Finset.nodup_toList _)
  have hbs : ∀ f ∈ fs O d, ∃ s, base f = sym s := by
    intro f hf
    obtain ⟨s, h1, rfl⟩ := mem_fs.1 hf
    exact ⟨s, by rw [base, decon_vp]⟩
  have hb : ((flatP (mono O c d) ++ [sum ws]).map base).Nodup := by
    rw [hfl]
    have b1 : base (sum ws) = sum ws := rfl
    have b2 : base (rat c) = rat c := rfl
    have n1 : ∀ x : Expr, x ∈ (fs O d).map base → ∃ s, x = sym s := by
      intro x hx
      obtain ⟨f, hf, rfl⟩ := List.mem_map.1 hx
      exact hbs f hf
    have n2 : (List.map base (fs O d) ++ [sum ws]).Nodup := by
      refine List.nodup_append.2 ⟨hfs, by simp, ?_⟩
      intro a ha b hb e
      simp at hb
      obtain ⟨s, rfl⟩ := n1 a ha
      rw [hb] at e; cases e
    split
    · simpa [b1] using n2
    · simp only [List.map_append, List.map_cons, List.map_nil, b1, b2, List.singleton_append, List.cons_append, List.nil_append]
      refine List.nodup_cons.2 ⟨?_, n2⟩
      intro hx
      rcases List.mem_append.1 hx with hx | hx
      · obtain ⟨s, e⟩ := n1 _ hx; cases e
      · simp at hx
  have hfa := filter_acc (O := O) d
  have hc : ((flatP (mono O c d) ++ [sum ws]).filter isAcc).length ≤ 1 := by
    rw [hfl, List.filter_append, List.filter_append, hfa.1]
    have : [sum ws].filter isAcc = [] := rfl
    rw [this]
    split <;> simp [List.filter_cons, isAcc]
  have hne0 : fs O d ≠ [] := by
    intro e
    have := fs_lx (O := O) d
    rw [e] at this
    exact d0 this.symm
  have h2 : 2 ≤ (flatP (mono O c d) ++ [sum ws]).length := by
    have := List.length_pos_iff.2 hne0
    rw [hfl]; simp; omega
  have hne : ∀ us, ¬ (flatP (mono O c d) ++ [sum ws]).Perm [rat (-1), sum us] := by
    intro us hp
    obtain ⟨f, hf⟩ := List.exists_mem_of_ne_nil _ hne0
    have : f ∈ [rat (-1), sum us] := hp.mem_iff.1 (by rw [hfl]; simp [hf])
    obtain ⟨s, h1, rfl⟩ := mem_fs.1 hf
    simp only [List.mem_cons, List.not_mem_nil, or_false] at this
    rcases vp_cases s (d s) with ⟨_, e⟩ | ⟨_, e⟩ <;> rw [e] at this <;> simp at this
  obtain ⟨q1, q2⟩ := atoms_poly hO ha hb hc h2 hne
  refine ⟨_, prod_atoms hO (n + 1) ha hb hc h2 hne hL, q1, ?_, ?_⟩
  · rw [q2, List.map_append, List.prod_append]
    have : ((flatP (mono O c d)).map toMv).prod = mon (c, d) := by
      have hm := toMv_mono (O := O) (c := c) hd
      rw [← hm]
      rcases mono_split (O := O) (c := c) (d := d) with hl | ⟨_, _, e, _⟩
      · generalize mono O c d = g at *
        cases hl with
        | num q => simp [Simpy.flatP]
        | pow s k _ => rw [flat_vp]; simp
      · generalize flatP (mono O c d) = L at *
        rw [e, toMv_prod]
    rw [this]
    simp [ht]
  · have : ∀ t ∈ sorted O (flatP (mono O c d) ++ [sum ws]), height t ≤ 3 := by
      intro t ht
      rcases List.mem_append.1 ((sorted_perm _).mem_iff.1 ht) with ht | ht
      · exact (height_leaf (mono_leaves t ht)).trans (by omega)
      · simp at ht; subst ht; exact hh
    have := heightL_le this
    rw [height]; omega

/-- A product of two polynomials. -/
theorem mul_polyE (hO : O.Exact) (n : Nat) {p q : MvPolynomial Str ℚ} (hp : Good p) (hq : Good q) :
    ∃ r, opMul (ctors O (n + 8)) (polyE O p) (polyE O q) = .ok r ∧ PolyExpr O r ∧ toMv r = p * q ∧ height r ≤ 5 := by
  have num : ∀ {a b : Expr} {r : Expr}, (ctors O (n + 8)).prod [a, b] = .ok r → (a.isSum = true ∨ b.isSum = true) → opMul (ctors O (n + 8)) a b = .ok r := by
    intro a b r h hs
    unfold opMul
    split
    · rcases hs with hs | hs <;> cases hs
    · exact h
  rcases polyE_cases (O := O) p with ⟨c, d, rfl⟩ | ⟨h, -⟩ <;> rcases polyE_cases (O := O) q with ⟨c', d', rfl⟩ | ⟨h', -⟩
  · have hm := prod_mono2 (O := O) (n + 5) c c' d d'
    refine ⟨mono O (c * c') (d + d'), ?_, ?_, ?_, (height_mono _ _).trans (by omega)⟩
    · rw [polyE_mono, polyE_mono]
      unfold opMul
      split
      · rename_i x y h1 h2
        rw [h1, h2] at hm
        rw [← hm]
        have := prod_mons (O := O) (n + 5) [(x, 0), (y, 0)]
        simp only [monos, List.map_cons, List.map_nil, mono_const, mon, List.prod_cons, List.prod_nil, mul_one] at this
        rw [this, ← MvPolynomial.C_apply, ← MvPolynomial.C_apply, ← map_mul, polyE_C]
      · exact hm
    · rw [← polyE_mono]
      refine polyExpr_polyE hO ?_
      have := good_mul hp hq
      rwa [MvPolynomial.monomial_mul] at this
    · rw [← polyE_mono, toMv_polyE hO, MvPolynomial.monomial_mul]
      have := good_mul hp hq
      rwa [MvPolynomial.monomial_mul] at this
  · by_cases c0 : c = 0
    · subst c0
      obtain ⟨r, h1, h2, h3, h4⟩ := prod_mono_sum (c := 0) (d := 0) hO n (by intro s hs; simp at hs) hq h' (.inl rfl)
      refine ⟨r, ?_, h2, by rw [h3]; simp [mon], h4⟩
      rw [polyE_mono, h']
      rw [mono_zero] at h1 ⊢
      exact num h1 (.inr rfl)
    · obtain ⟨r, h1, h2, h3, h4⟩ := prod_mono_sum (c := c) (d := d) hO n (good_of_mono c0 hp) hq h' (.inl rfl)
      refine ⟨r, ?_, h2, h3, h4⟩
      rw [polyE_mono, h']
      exact num h1 (.inr rfl)
  · by_cases c0 : c' = 0
    · subst c0
      obtain ⟨r, h1, h2, h3, h4⟩ := prod_mono_sum (c := 0) (d := 0) hO n (by intro s hs; simp at hs) hp h (.inr rfl)
      refine ⟨r, ?_, h2, by rw [h3]; simp [mon], h4⟩
      rw [polyE_mono, h]
      rw [mono_zero] at h1 ⊢
      exact num h1 (.inl rfl)
    · obtain ⟨r, h1, h2, h3, h4⟩ := prod_mono_sum (c := c') (d := d') hO n (good_of_mono c0 hq) hp h (.inr rfl)
      refine ⟨r, ?_, h2, by rw [h3, mul_comm]; rfl, h4⟩
      rw [polyE_mono, h]
      exact num h1 (.inl rfl)
  · by_cases e : p = q
    · subst e
      obtain ⟨r, h1, h2, h3, h4⟩ := prod_same hO n hp h
      refine ⟨r, ?_, h2, h3, h4⟩
      rw [h]
      exact num h1 (.inl rfl)
    · rw [h, h']
      have hws := h
      have hws' := h'
      generalize (sorted O (terms O p)).reverse = ws at *
      generalize (sorted O (terms O q)).reverse = ws' at *
      have hne : sum ws ≠ sum ws' := by
        intro e'
        refine e ?_
        rw [← toMv_polyE hO hp, ← toMv_polyE hO hq, h, h', e']
      have ha : ∀ t ∈ [sum ws, sum ws'], Atom O t := by
        intro t ht
        simp only [List.mem_cons, List.not_mem_nil, or_false] at ht
        rcases ht with rfl | rfl
        · exact .sum hp h
        · exact .sum hq h'
      have hb : ([sum ws, sum ws'].map base).Nodup := by
        have b1 : ∀ l, base (sum l) = sum l := fun _ => rfl
        simpa [b1] using hne
      have hc : ([sum ws, sum ws'].filter isAcc).length ≤ 1 := by simp [List.filter_cons, isAcc]
      have hn : ∀ us, ¬ [sum ws, sum ws'].Perm [rat (-1), sum us] := by
        intro us hp
        have := hp.mem_iff (a := rat (-1))
        simp at this
      obtain ⟨q1, q2⟩ := atoms_poly hO ha hb hc le_rfl hn
      refine ⟨_, num (prod_atoms hO (n + 1) ha hb hc le_rfl hn ?_) (.inl rfl), q1, ?_, ?_⟩
      · simp [flatPL, Simpy.flatP]
      · rw [q2]
        simp only [List.map_cons, List.map_nil, List.prod_cons, List.prod_nil, mul_one]
        rw [← h, ← h', toMv_polyE hO hp, toMv_polyE hO hq]
      · have : ∀ t ∈ sorted O [sum ws, sum ws'], height t ≤ 3 := by
          intro t ht
          obtain ⟨p, _, rfl⟩ := (ha t ((sorted_perm _).mem_iff.1 ht)).poly
          exact height_polyE p
        have := heightL_le this
        rw [height]; omega

/-- A natural power of a polynomial. -/
theorem pow_polyE (hO : O.Exact) (n : Nat) {p : MvPolynomial Str ℚ} (hp : Good p) (k : ℕ) :
    ∃ r, opPow O (ctors O (n + 8)) (polyE O p) (rat k) = .ok r ∧ PolyExpr O r ∧ toMv r = p ^ k ∧ height r ≤ 5 := by
  rcases polyE_cases (O := O) p with ⟨c, d, rfl⟩ | ⟨h, -⟩
  · have hm := pow_mono (O := O) (n + 3) c d k
    have hg := good_pow hp k
    rw [MvPolynomial.monomial_pow] at hg
    refine ⟨mono O (c ^ k) (k • d), ?_, ?_, ?_, (height_mono _ _).trans (by omega)⟩
    · rw [polyE_mono]
      unfold opPow
      split
      · rename_i x y h1 h2
        cases h2
        rw [h1] at hm
        rw [if_pos (by simp), ← hm, pow_num]
        have : (k : ℚ).num = k := Rat.num_natCast k
        rw [this]
        simp [fracPowInt, bind, Except.bind, pure, Except.pure, show ¬ ((k : ℤ) < 0) by omega]
      · exact hm
    · rw [← polyE_mono]; exact polyExpr_polyE hO hg
    · rw [← polyE_mono, toMv_polyE hO hg, MvPolynomial.monomial_pow]
  · have hop : opPow O (ctors O (n + 8)) (polyE O p) (rat k) = (ctors O (n + 8)).pow (polyE O p) (rat k) := by
      rw [h]; rfl
    rw [hop]
    match k with
    | 0 => exact ⟨rat 1, by rw [Nat.cast_zero]; exact pow_zero' (n + 7) _, .rat 1, by rw [toMv_rat]; simp, by simp [height]⟩
    | 1 => exact ⟨polyE O p, by rw [Nat.cast_one]; exact pow_one' (n + 7) _, polyExpr_polyE hO hp, by rw [toMv_polyE hO hp, pow_one], (height_polyE p).trans (by omega)⟩
    | k + 2 =>
      obtain ⟨r, h1, h2, h3, h4, -⟩ := pow_polyS hO (n + 1) hp h (k := k + 2) (by omega)
      exact ⟨r, by rw [h]; exact h1, h2, h3, h4⟩

end NF
end Simpy
