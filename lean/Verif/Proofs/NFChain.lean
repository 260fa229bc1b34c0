import Verif.Proofs.NFInt

/-! # Lemmas: the search on a monomial in several symbols -/

namespace Simpy
open Expr
namespace NF

variable {O : Oracle} {v : Str} {n k : Nat} {ν : Supply} {as : List Node} {tr : Option Transf} {e : Expr}

theorem leaf_mono {f : Expr} (h : Leaf f) : f = mono O (lc f) (lx f) := by
  cases h with
  | num q => rw [lc_rat, lx_rat, mono_const]
  | pow s k hk => rw [lc_vp, lx_vp]; exact vp_mono s hk

/-- The table. -/
theorem table_leaf {f : Expr} (h : Leaf f) (n : Nat) : checkTable O (n + 8) v f = .ok (some (mono O (I v (lc f, lx f)).1 (I v (lc f, lx f)).2)) := by
  have hx : sym v = mono O 1 (Finsupp.single v 1) := by
    rw [← vp_mono v le_rfl]; simp [vp, Lin.varPow]
  have const : ∀ {f : Expr}, Leaf f → f.contains v = false → lx f v = 0 →
      checkTable O (n + 8) v f = .ok (some (mono O (I v (lc f, lx f)).1 (I v (lc f, lx f)).2)) := by
    intro f h hc hl
    have hm : opMul (ctors O (n + 8)) f (sym v) = .ok (mono O (lc f) (lx f + Finsupp.single v 1)) := by
      have := prod_mono2 (O := O) (n + 5) (lc f) 1 (lx f) (Finsupp.single v 1)
      rw [← leaf_mono h, ← hx, mul_one] at this
      have hs : opMul (ctors O (n + 8)) f (sym v) = (ctors O (n + 8)).prod [f, sym v] := by
        cases f <;> rfl
      rw [hs, this]
    rw [checkTable, hc]
    simp only [Bool.not_false, if_true, hm, ok_bind, I, hl]
    simp [pure, Except.pure]
  cases h with
  | num q => exact const (.num q) rfl rfl
  | pow s k hk =>
    by_cases hs : s = v
    · subst hs
      rw [lc_vp, lx_vp]
      simp only [I, Finsupp.single_eq_same]
      rcases vp_cases s k with ⟨h1, e⟩ | ⟨h1, e⟩
      · rw [e]
        subst h1
        have hp : (ctors O (n + 8)).pow (sym s) (rat 2) = .ok (vp s 2) := by
          have := pow_var (O := O) (v := s) (n + 7) (k := 2) le_rfl
          simpa [vp, Lin.varPow] using this
        have hm : opMul (ctors O (n + 8)) (rat (1 / 2)) (vp s 2) = .ok (mono O (1 / 2) (Finsupp.single s 2)) := by
          have := prod_mono2 (O := O) (n + 5) (1 / 2) 1 0 (Finsupp.single s 2)
          rw [mono_const, ← vp_mono s (by omega), mul_one, zero_add] at this
          rw [← this]
          rcases vp_cases s 2 with ⟨_, e⟩ | ⟨_, e⟩ <;> rw [e] <;> rfl
        simp only [checkTable, Expr.contains, tablePower, hp, hm, bind, Except.bind, pure, Except.pure, beq_self_eq_true,
          Bool.not_true, Bool.false_eq_true, if_false, if_true]
        rw [← Finsupp.single_add]
        norm_num
      · rw [e]
        have hk1 : ((k : ℚ) + 1) = ((k + 1 : ℕ) : ℚ) := by push_cast; ring
        have hp : (ctors O (n + 8)).pow (sym s) (rat ((k : ℚ) + 1)) = .ok (vp s (k + 1)) := by
          rw [hk1, pow_var (O := O) (v := s) (n + 7) (k := k + 1) (by omega)]
          rcases vp_cases s (k + 1) with ⟨h2, _⟩ | ⟨_, e⟩
          · omega
          · rw [e]
        have hm : opMul (ctors O (n + 8)) (rat (1 / ((k : ℚ) + 1))) (vp s (k + 1)) = .ok (mono O (1 / ((k : ℚ) + 1)) (Finsupp.single s (k + 1))) := by
          have := prod_mono2 (O := O) (n + 5) (1 / ((k : ℚ) + 1)) 1 0 (Finsupp.single s (k + 1))
          rw [mono_const, ← vp_mono s (by omega), mul_one, zero_add] at this
          rw [← this]
          rcases vp_cases s (k + 1) with ⟨_, e⟩ | ⟨_, e⟩ <;> rw [e] <;> rfl
        have hk0 : (0 : ℚ) < k := by exact_mod_cast (by omega : 0 < k)
        have hkp : ((k : ℚ) + 1) ≠ 0 := by linarith
        have hneg : ¬ ((k : ℚ) = -1) := by intro h; linarith
        have hd : opDiv (ctors O (n + 8)) (rat 1) (rat ((k : ℚ) + 1)) = .ok (rat (1 / ((k : ℚ) + 1))) := by
          unfold opDiv; simp only [ne_eq, hkp, not_false_eq_true, if_true]
        have ha : opAdd (ctors O (n + 8)) (rat (k : ℚ)) (rat 1) = .ok (rat ((k : ℚ) + 1)) := rfl
        simp only [checkTable, Expr.contains, tablePower, hp, hd, ha, hm, bind, Except.bind, pure, Except.pure, beq_self_eq_true,
          Bool.true_or, beq, hneg, beq_iff_eq, Bool.and_true,
          Bool.not_true, Bool.not_false, Bool.false_eq_true, if_false, if_true]
        rw [← Finsupp.single_add]
    · refine const (.pow s k hk) ?_ ?_
      · rcases vp_cases s k with ⟨_, e⟩ | ⟨_, e⟩ <;> rw [e] <;> simp [Expr.contains, hs]
      · rw [lx_vp]; simp [hs]

/-! ## The safe transforms on a leaf -/

theorem count_vp {s : Str} (h : s ≠ v) (k : ℕ) : count O (sym v) (vp s k) = 0 := by
  rcases vp_cases s k with ⟨_, e⟩ | ⟨_, e⟩ <;> rw [e] <;> simp [count, generalCount, sameClass, beq, h]

theorem unit_vp (s : Str) {k : ℕ} (hk : 1 ≤ k) : VarPower s (vp s k) := by
  rcases vp_cases s k with ⟨_, e⟩ | ⟨h1, e⟩ <;> rw [e]
  · exact .var
  · exact .power k (by omega)

theorem plan_leaf {f : Expr} (h : Leaf f) (n : Nat) : Node.safePlan O (n + 8) ν as (.mk f v tr .unset none false []) = .ok none := by
  cases h with
  | num q => exact Node.safePlan_rat n q
  | pow s k hk =>
    by_cases hs : s = v
    · subst hs; exact Node.safePlan_unit (unit_vp s hk) n
    · have hl : linearUSub O (n + 8) v (ν.own 0 []) (vp s k) = .ok none := by
        unfold linearUSub
        rw [count_vp hs]; rfl
      have hu := unit_vp s hk
      have he : expandT O (n + 8) (vp s k) = .ok none := by
        simp [expandT, expandable_unit hu (n + 6), bind, Except.bind, pure, Except.pure]
      generalize vp s k = u at *
      have h1 : Node.additivityPlan v u = .ok none := by cases hu <;> rfl
      have h2 : pullConstant O (n + 8) v u = .ok none := by cases hu <;> rfl
      have h3 : partialFractions O (n + 8) v u = .ok none := by cases hu <;> rfl
      have h4 : polyDiv O (n + 8) (n + 8) v u = .ok none := by cases hu <;> rfl
      simp only [Node.safePlan, Node.expr, Node.var, h1, h2, h3, h4, Node.orElseR, hl, he, Except.map, Node.planOpt]
      split <;> simp_all

/-! ## Taking out factors -/

theorem pull_first {C : Ctors} : ∀ {l pre : List Expr}, (∃ f ∈ l, v ∉ syms f) → ∃ a f r, l = a ++ f :: r ∧ v ∉ syms f ∧
    pullLoop C v pre l = (do
      let q ← C.prod (pre ++ a ++ r)
      return some (f, q))
  | [], _, h => by simp at h
  | t :: r, pre, h => by
    by_cases ht : v ∈ syms t
    · obtain ⟨a, f, r', h1, h2, h3⟩ := pull_first (C := C) (l := r) (pre := pre ++ [t]) (by
        obtain ⟨f, hf, hs⟩ := h
        rcases List.mem_cons.1 hf with rfl | hf
        · exact absurd ht hs
        · exact ⟨f, hf, hs⟩)
      refine ⟨t :: a, f, r', by rw [h1]; rfl, h2, ?_⟩
      rw [pullLoop, if_pos ht, h3]
      simp
    · exact ⟨[], t, r, rfl, ht, by rw [pullLoop, if_neg ht]; simp⟩

/-- How many factors. -/
noncomputable def len (O : Oracle) (c : ℚ) (d : Str →₀ ℕ) : ℕ := (flatP (mono O c d)).length

theorem leaf_len {f : Expr} (h : Leaf f) : (flatP f).length = 1 := by
  cases h with
  | num q => simp [flatP]
  | pow s k hk => simp [flat_vp]

/-- No ancestor is a monomial with at most `m` factors. -/
def Above (O : Oracle) (v : Str) (m : ℕ) (as : List Node) : Prop := ∀ a ∈ as, a.var = v ∧ ∀ c d, len O c d ≤ m → a.expr ≠ mono O c d

theorem fs_length (d : Str →₀ ℕ) : (fs O d).length = d.support.card := by
  unfold fs
  rw [(sorted_perm _).length_eq]; simp

theorem mono_split {c : ℚ} {d : Str →₀ ℕ} : Leaf (mono O c d) ∨
    (c ≠ 0 ∧ d ≠ 0 ∧ mono O c d = prod (flatP (mono O c d)) ∧ 2 ≤ len O c d) := by
  by_cases h0 : c = 0
  · subst h0; rw [mono_zero]; exact .inl (.num 0)
  by_cases d0 : d = 0
  · subst d0; rw [mono_const]; exact .inl (.num c)
  by_cases hl : Leaf (mono O c d)
  · exact .inl hl
  refine .inr ⟨h0, d0, ?_⟩
  rcases mono_form (O := O) h0 d0 with ⟨s, k, hk, h1, e⟩ | ⟨e, _⟩
  · exact absurd (e ▸ Leaf.pow s k hk) hl
  · refine ⟨e, ?_⟩
    unfold len
    have hf := flat_mono (O := O) (d := d) h0
    rw [hf, List.length_append]
    have : 1 ≤ (fs O d).length := List.length_pos_iff.2 (fs_ne d0)
    by_cases h1 : c = 1
    · rw [if_pos ⟨h1, d0⟩]
      by_contra hc
      have h1' : (fs O d).length = 1 := by simp at hc; omega
      obtain ⟨f, hf'⟩ := List.length_eq_one_iff.1 h1'
      have : mono O c d = f := by rw [mono, if_neg h0, if_neg d0, if_pos h1, hf']; rfl
      rw [this] at hl
      exact hl (fs_leaf (O := O) (d := d) (by rw [hf']; simp))
    · rw [if_neg (fun h => h1 h.1)]
      simp; omega

theorem syms_leaf {f : Expr} (h : Leaf f) (hv : v ∉ syms f) : lx f v = 0 := by
  cases h with
  | num q => rfl
  | pow s k hk =>
    rw [syms_vp] at hv
    rw [lx_vp]
    simp at hv
    simp [Ne.symm hv]

/-- A product has a factor that does not contain the variable; what is left is shorter. -/
theorem pull_mono {c : ℚ} {d : Str →₀ ℕ} (h0 : c ≠ 0) (d0 : d ≠ 0) (h2 : 2 ≤ len O c d) (n : Nat) : ∃ (f : Expr) (c' : ℚ) (d' : Str →₀ ℕ), Leaf f ∧
    pullLoop (ctors O (n + 3)) v [] (flatP (mono O c d)) = .ok (some (f, mono O c' d')) ∧ lc f * c' = c ∧ lx f + d' = d ∧ lx f v = 0 ∧
    len O c' d' + 1 = len O c d := by
  have hf := flat_mono (O := O) (d := d) h0
  have hleaf : ∀ f ∈ flatP (mono O c d), Leaf f := mono_leaves
  have ex : ∃ f ∈ flatP (mono O c d), v ∉ syms f := by
    by_contra hall
    push Not at hall
    rw [hf] at hall
    have hone : (fs O d).length ≤ 1 := by
      rw [fs_length, Finset.card_le_one]
      intro a ha b hb
      rw [Finsupp.mem_support_iff] at ha hb
      have ha' := hall (vp a (d a)) (by simp [mem_fs]; right; exact ⟨a, by omega, rfl⟩)
      have hb' := hall (vp b (d b)) (by simp [mem_fs]; right; exact ⟨b, by omega, rfl⟩)
      rw [syms_vp] at ha' hb'
      simp at ha' hb'
      rw [← ha', ← hb']
    unfold len at h2
    rw [hf, List.length_append] at h2
    split at h2
    · simp at h2; omega
    · rename_i hc
      have := hall (rat c) (by simp [hc])
      simp [syms] at this
  obtain ⟨a, f, r, h1, hv, hl⟩ := pull_first (C := ctors O (n + 3)) (pre := []) ex
  have lf : Leaf f := hleaf f (by rw [h1]; simp)
  have lr : ∀ g ∈ a ++ r, Leaf g := fun g hg => hleaf g (by
    rw [h1]
    rcases List.mem_append.1 hg with h | h
    · exact List.mem_append_left _ h
    · exact List.mem_append_right _ (by simp [h]))
  have hpr : ∀ g ∈ a ++ r, g.isProd = false := fun g hg => by
    cases lr g hg with
    | num q => rfl
    | pow s k _ => exact prod_vp s k
  have hself : flatPL (a ++ r) = a ++ r := flatPL_id hpr
  have hp := prod_leaves (O := O) n (ts := a ++ r) (by rw [hself]; exact lr)
  rw [hself] at hp
  have e1 : lc f * ((a ++ r).map lc).prod = c := by
    have := mono_lc (O := O) c d
    rw [h1] at this
    rw [← this]
    simp [mul_left_comm]
  have e2 : lx f + ((a ++ r).map lx).sum = d := by
    have := mono_lx (O := O) c d
    rw [h1, dg, if_neg h0] at this
    conv_rhs => rw [← this]
    simp [add_left_comm]
  refine ⟨f, _, _, lf, ?_, e1, e2, syms_leaf lf hv, ?_⟩
  · rw [hl, List.nil_append, hp]; rfl
  · generalize ((a ++ r).map lc).prod = c' at *
    generalize ((a ++ r).map lx).sum = d' at *
    have hmem : f ∈ flatP (mono O c d) := by rw [h1]; simp
    unfold len
    rw [hf, List.length_append, fs_length]
    rw [hf] at hmem
    have c0 : c' ≠ 0 := by rintro rfl; rw [mul_zero] at e1; exact h0 e1.symm
    rw [flat_mono c0, List.length_append, fs_length]
    unfold len at h2
    rw [hf, List.length_append, fs_length] at h2
    rcases List.mem_append.1 hmem with hm | hm
    · split at hm
      · simp at hm
      · rename_i hc
        simp at hm
        subst hm
        rw [lc_rat] at e1
        rw [lx_rat, zero_add] at e2
        have : c' = 1 := by
          have := mul_left_cancel₀ h0 (e1.trans (mul_one c).symm)
          exact this
        subst this; subst e2
        rw [if_pos ⟨rfl, d0⟩, if_neg hc]; simp; omega
    · obtain ⟨s, hs, rfl⟩ := mem_fs.1 hm
      rw [lc_vp, one_mul] at e1
      subst e1
      rw [lx_vp] at e2
      have hs0 : d' s = 0 := by
        have := congrArg (fun x => x s) e2
        simp at this; exact this
      have hcard : d.support.card = d'.support.card + 1 := by
        rw [← e2, Finsupp.support_add_eq, Finset.card_union_of_disjoint, Finsupp.support_single_ne_zero]
        · simp [add_comm]
        · simp at hs ⊢; omega
        all_goals
          rw [Finsupp.support_single_ne_zero _ (by omega)]
          simp [hs0]
      have hsome : c' = 1 → d' ≠ 0 := by
        rintro rfl rfl
        simp [d0] at h2
        simp at hcard; omega
      by_cases hc : c' = 1
      · rw [if_pos ⟨hc, hsome hc⟩, if_pos ⟨hc, d0⟩]; simp; omega
      · rw [if_neg (fun h => hc h.1), if_neg (fun h => hc h.1)]; simp; omega

/-! ## The tree of a monomial -/

theorem above_mono {m m' : ℕ} (h : m' ≤ m) {as : List Node} (ha : Above O v m as) : Above O v m' as :=
  fun a hm => ⟨(ha a hm).1, fun c d hl => (ha a hm).2 c d (hl.trans h)⟩

theorem safely_pull {n k : Nat} {e : Expr} {c g : Expr} {t' : Node} (hs : ∀ ts, e ≠ sum ts)
    (hp : pullConstant O n v e = .ok (some (c, g)))
    (hr : Node.refused O (Node.mk e v tr .unset none false [] :: as) (Node.leaf g v (.pullConstant c)) = false)
    (hc : Node.safely O n k (ν.child 0) (Node.mk e v tr .unset none false [Node.leaf g v (.pullConstant c)] :: as) (Node.leaf g v (.pullConstant c)) = .ok t') :
    Node.safely O n (k + 1) ν as (Node.mk e v tr .unset none false []) = .ok (Node.mk e v tr .unset none false [t']) := by
  have ha : Node.additivityPlan v e = .ok none := by
    cases e <;> first | rfl | exact absurd rfl (hs _)
  have hpl : Node.safePlan O n ν as (Node.mk e v tr .unset none false []) = .ok (some { kids := [Node.leaf g v (.pullConstant c)] }) := by
    simp only [Node.safePlan, Node.expr, Node.var, ha, hp, Node.orElseR, Except.map, Node.planOpt]
  rw [Node.safely]
  simp only [hpl, bind, Except.bind, Option.getD, Node.Plan.apply, Node.addChildren, Node.addChild, hr, Bool.false_eq_true, if_false,
      List.nil_append, Node.children, Node.mapIdxR, hc, pure, Except.pure, Node.withChildren]

theorem ready_mono (n : Nat) : ∀ (m : ℕ) {c : ℚ} {d : Str →₀ ℕ} {k : Nat} {ν : Supply} {as : List Node} {tr : Option Transf},
    GoodD d → len O c d ≤ m + 1 → m < k → Above O v m as → ∃ t, Node.safely O (n + 8) k ν as (.mk (mono O c d) v tr .unset none false []) = .ok t ∧
      Node.Ready O (n + 8) v t (mono O (I v (c, d)).1 (I v (c, d)).2) ∧ t.tr = tr := by
  intro m
  induction m with
  | zero =>
    intro c d k ν as tr hg hl hk ha
    obtain ⟨k, rfl⟩ : ∃ j, k = j + 1 := ⟨k - 1, by omega⟩
    rcases mono_split (O := O) (c := c) (d := d) with h | ⟨_, _, _, h⟩
    · refine ⟨_, Node.safely_none rfl (plan_leaf h n), ?_, rfl⟩
      have ht := table_leaf (O := O) (v := v) h n
      have e1 : I v (c, d) = I v (c, d) := rfl
      by_cases h0 : c = 0
      · subst h0
        rw [mono_zero] at ht ⊢
        refine .leaf (ht.trans ?_)
        simp [I, mono_zero]
      · have k1 := mono_inj (O := O) (a := c) (d := d) (b := lc (mono O c d)) (e := lx (mono O c d)) h0 (by
          intro hz
          have := leaf_mono (O := O) h
          rw [hz, mono_zero] at this
          exact mono_ne_zero d h0 this) (leaf_mono h)
        rw [← k1.1, ← k1.2] at ht
        exact .leaf ht
    · omega
  | succ m ih =>
    intro c d k ν as tr hg hl hk ha
    obtain ⟨k, rfl⟩ : ∃ j, k = j + 1 := ⟨k - 1, by omega⟩
    by_cases hm : len O c d ≤ m + 1
    · exact ih hg hm (by omega) (above_mono (by omega) ha)
    have hlen : len O c d = m + 2 := by omega
    rcases mono_split (O := O) (c := c) (d := d) with h | ⟨h0, d0, he, h2⟩
    · exfalso
      have : len O c d = 1 := leaf_len h
      omega
    obtain ⟨f, c', d', lf, hp, e1, e2, e3, e4⟩ := pull_mono (v := v) h0 d0 h2 (n + 5)
    have hg' : GoodD d' := fun s hs => hg s (by rw [← e2]; simp; omega)
    have pc : pullConstant O (n + 8) v (mono O c d) = .ok (some (f, mono O c' d')) := by
      generalize flatP (mono O c d) = L at *
      rw [he]; exact hp
    have ne : ∀ ts, mono O c d ≠ sum ts := by
      intro ts h; rw [h] at he; cases he
    have ab : ∀ cs : List Node, Above O v (m + 1) (Node.mk (mono O c d) v tr .unset none false cs :: as) := by
      intro cs a hm
      rcases List.mem_cons.1 hm with rfl | hm
      · refine ⟨rfl, fun c1 d1 hl1 hx => ?_⟩
        have : len O c d = len O c1 d1 := by unfold len; rw [← show mono O c d = mono O c1 d1 from hx]
        omega
      · exact ha a hm
    have hr : Node.refused O (Node.mk (mono O c d) v tr .unset none false [] :: as) (Node.leaf (mono O c' d') v (.pullConstant f)) = false :=
      not_refused (polyExpr_mono hg') (fun a hm => ⟨(ab [] a hm).1, (ab [] a hm).2 c' d' (by omega)⟩) _
    obtain ⟨t, h1, h3, h4⟩ := ih (c := c') (d := d') (k := k) (ν := ν.child 0)
      (as := Node.mk (mono O c d) v tr .unset none false [Node.leaf (mono O c' d') v (.pullConstant f)] :: as)
      (tr := some (.pullConstant f)) hg' (by omega) (by omega) (above_mono (by omega) (ab _))
    refine ⟨_, safely_pull ne pc hr h1, .one h3 h4 rfl ?_, rfl⟩
    have hmul := prod_mono2 (O := O) (n + 5) (lc f) (I v (c', d')).1 (lx f) (I v (c', d')).2
    rw [← leaf_mono lf] at hmul
    have c0 : c' ≠ 0 := by rintro rfl; rw [mul_zero] at e1; exact h0 e1.symm
    have hnr : ∀ q, mono O (I v (c', d')).1 (I v (c', d')).2 ≠ rat q := by
      intro q hq
      have := mono_lx (O := O) (I v (c', d')).1 (I v (c', d')).2
      rw [hq] at this
      have hi : (I v (c', d')).1 ≠ 0 := by
        simp only [I]
        have : ((d' v : ℚ) + 1) ≠ 0 := by positivity
        exact div_ne_zero c0 this
      rw [dg, if_neg hi] at this
      simp [flatP, I] at this
      have := congrArg (fun x => x v) this
      simp at this
    have hs : opMul (ctors O (n + 8)) f (mono O (I v (c', d')).1 (I v (c', d')).2) =
        (ctors O (n + 8)).prod [f, mono O (I v (c', d')).1 (I v (c', d')).2] := by
      generalize mono O (I v (c', d')).1 (I v (c', d')).2 = g at *
      cases f <;> cases g <;> first | rfl | exact absurd rfl (hnr _)
    have hd : d v = d' v := by rw [← e2]; simp [e3]
    show opMul (ctors O (n + 8)) f _ = _
    rw [hs, hmul]
    have e5 : lc f * (I v (c', d')).1 = (I v (c, d)).1 := by
      simp only [I]
      rw [← e1, hd, mul_div_assoc]
    have e6 : lx f + (I v (c', d')).2 = (I v (c, d)).2 := by
      simp only [I]
      rw [← e2, add_assoc]
    rw [e5, e6]

end NF
end Simpy
