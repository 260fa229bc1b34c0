import Verif.Model.Nesting
import Verif.Proofs.Basic
import Verif.Proofs.Syms

/-! Complexity. -/

namespace Simpy
open Expr

variable {O : Oracle}

theorem maxNat_ok {l : List Nat} (h : l ≠ []) : ∃ m, maxNat l = .ok m ∧ (∀ a ∈ l, a ≤ m) ∧ m ∈ l := by
  cases l with
  | nil => simp at h
  | cons a r =>
    refine ⟨_, rfl, ?_⟩
    clear h
    induction r generalizing a with
    | nil => simp
    | cons b r ih =>
      obtain ⟨h1, h2⟩ := ih (max a b)
      simp only [List.foldl_cons]
      constructor
      · intro c hc
        have h0 := h1 (max a b) (by simp)
        simp only [List.mem_cons] at hc
        rcases hc with rfl | rfl | hc
        · exact le_trans (le_max_left _ _) h0
        · exact le_trans (le_max_right _ _) h0
        · exact h1 c (by simp [hc])
      · rcases List.mem_cons.1 h2 with h | h
        · rw [h]
          rcases max_choice a b with k | k <;> simp [k]
        · simp [h]

theorem beq_num {x : Expr} {q : ℚ} {v : Str} (h : beq O x (rat q) = true) : x.contains v = false := by
  cases x <;> simp_all [beq, contains]

/-- `m` is the complexity without, `k` with the reciprocal rule. -/
structure NestOk (O : Oracle) (v : Str) (e : Expr) (m k : Nat) : Prop where
  plain : nest O (some v) false e = .ok m
  skip : nest O (some v) true e = .ok k
  pos : e.contains v = true → 1 ≤ m ∧ 1 ≤ k
  zero : e.contains v = false → m = 0 ∧ k = 0
  le : k ≤ m
  le_succ : m ≤ k + 1

theorem nestOk_of_eq {v : Str} {e : Expr} {m : Nat} (h1 : nest O (some v) false e = .ok m)
    (h2 : nest O (some v) true e = nest O (some v) false e) (h : e.contains v = true ↔ 1 ≤ m) : NestOk O v e m m :=
  ⟨h1, by rw [h2, h1], fun k => ⟨h.1 k, h.1 k⟩, fun k => by rw [k] at h; simp at h; simp [h], le_refl _, by omega⟩

theorem containsL_nil_false {v : Str} {ts : List Expr} (h : containsL v ts = true) : ts ≠ [] := by
  rintro rfl; simp [containsL] at h

/-- complexity of a node with children of complexities `l` -/
theorem nest_prod {v : Str} {ts : List Expr} {l : List Nat} (skip : Bool) (h : nestL O (some v) ts = .ok l)
    (hl : l.length = ts.length) (hc : containsL v ts = true) :
    (∃ c t kc kt, ts = [c, t] ∧ l = [kc, kt] ∧ beq O c (rat (-1)) = true ∧ nest O (some v) skip (prod ts) = .ok kt) ∨
    (∃ m, maxNat l = .ok m ∧ nest O (some v) skip (prod ts) = .ok (1 + m) ∧
      ¬∃ c t, ts = [c, t] ∧ beq O c (rat (-1)) = true) := by
  have hne := containsL_nil_false hc
  have hs : inScope (some v) (prod ts) = true := by simpa [inScope, contains] using hc
  have hln : l ≠ [] := by rintro rfl; cases ts <;> simp_all
  obtain ⟨m, hm, -⟩ := maxNat_ok hln
  have hh : ∀ z, nest O (some v) skip (prod ts) = z ↔ (do
      let l ← nestL O (some v) ts
      match ts with
      | [] => .error .index
      | [c, _] =>
        if beq O c (rat (-1)) then return l.getD 1 0
        else do
          let m ← maxNat l
          return 1 + m
      | _ => do
        let m ← maxNat l
        return 1 + m) = z := fun z => by
    rw [nest, hs]; rfl
  rcases ts with _ | ⟨c, _ | ⟨t, _ | ⟨u, r⟩⟩⟩
  · exact absurd rfl hne
  · refine .inr ⟨m, hm, ?_, by simp⟩
    rw [hh, h]; simp only [bind, Except.bind, hm]; rfl
  · obtain ⟨kc, kt, rfl⟩ : ∃ a b, l = [a, b] := by
      rcases l with _ | ⟨a, _ | ⟨b, _ | _⟩⟩ <;> simp at hl
      exact ⟨a, b, rfl⟩
    by_cases hb : beq O c (rat (-1)) = true
    · refine .inl ⟨c, t, kc, kt, rfl, rfl, hb, ?_⟩
      rw [hh, h]; simp only [bind, Except.bind, hb, if_true]; rfl
    · refine .inr ⟨m, hm, ?_, by simpa using hb⟩
      rw [hh, h]; simp only [bind, Except.bind, if_neg hb, hm]; rfl
  · refine .inr ⟨m, hm, ?_, by simp⟩
    rw [hh, h]; simp only [bind, Except.bind, hm]; rfl

/-- What is proved of a list of children: their complexities `l` with the reciprocal rule. -/
def NestOkL (O : Oracle) (v : Str) (ts : List Expr) (l : List Nat) : Prop :=
  nestL O (some v) ts = .ok l ∧ List.Forall₂ (fun t k => ∃ m, NestOk O v t m k) ts l

theorem NestOkL.len {v : Str} {ts : List Expr} {l : List Nat} (h : NestOkL O v ts l) : l.length = ts.length :=
  h.2.length_eq.symm

theorem NestOkL.pos {v : Str} : ∀ {ts : List Expr} {l : List Nat}, NestOkL O v ts l → containsL v ts = true →
    ∃ k ∈ l, 1 ≤ k := by
  intro ts l h hc
  have h2 := h.2
  clear h
  induction h2 with
  | nil => simp [containsL] at hc
  | @cons t k ts l h1 h2 ih =>
    simp only [containsL, Bool.or_eq_true] at hc
    rcases hc with hc | hc
    · obtain ⟨m, hm⟩ := h1
      exact ⟨k, by simp, (hm.pos hc).2⟩
    · obtain ⟨k', hk', h'⟩ := ih hc
      exact ⟨k', by simp [hk'], h'⟩

mutual
theorem nest_ok (v : Str) : ∀ e : Expr, ∃ m k, NestOk O v e m k
  | sym s => by
    refine ⟨_, _, nestOk_of_eq (m := if s = v then 1 else 0) (by simp [nest, inScope, contains]) (by simp [nest]) ?_⟩
    simp only [contains, beq_iff_eq]; split <;> simp_all
  | rat _ => ⟨_, _, nestOk_of_eq rfl rfl (by simp [contains])⟩
  | flt _ => ⟨_, _, nestOk_of_eq rfl rfl (by simp [contains])⟩
  | pi => ⟨_, _, nestOk_of_eq rfl rfl (by simp [contains])⟩
  | euler => ⟨_, _, nestOk_of_eq rfl rfl (by simp [contains])⟩
  | inf => ⟨_, _, nestOk_of_eq rfl rfl (by simp [contains])⟩
  | neginf => ⟨_, _, nestOk_of_eq rfl rfl (by simp [contains])⟩
  | any _ => ⟨_, _, nestOk_of_eq rfl rfl (by simp [contains])⟩
  | sum ts => by
    obtain ⟨l, hl⟩ := nestL_ok v ts
    by_cases hc : containsL v ts = true
    · have hne := containsL_nil_false hc
      have hln : l ≠ [] := by have := hl.len; rintro rfl; cases ts <;> simp_all
      obtain ⟨m, hm, -⟩ := maxNat_ok hln
      have he : ts.isEmpty = false := by cases ts <;> simp_all
      refine ⟨_, _, nestOk_of_eq (m := 1 + m) ?_ (by simp [nest]) (by simp [contains, hc])⟩
      simp [nest, inScope, contains, hc, he, hl.1, hm, bind, Except.bind, pure, Except.pure]
    · refine ⟨_, _, nestOk_of_eq (m := 0) ?_ (by simp [nest]) (by simp [contains, hc])⟩
      simp [nest, inScope, contains, hc]
  | prod ts => by
    obtain ⟨l, hl⟩ := nestL_ok v ts
    by_cases hc : containsL v ts = true
    · rcases nest_prod false hl.1 hl.len hc with ⟨c, t, kc, kt, rfl, rfl, hb, h⟩ | ⟨m, hm, h, -⟩
      · refine ⟨_, _, nestOk_of_eq h (by simp [nest]) ?_⟩
        have h2 := hl.2
        rcases h2 with _ | ⟨-, _ | ⟨⟨m, hm⟩, -⟩⟩
        have : t.contains v = true := by
          simpa [containsL, beq_num hb] using hc
        simp [contains, hc, (hm.pos this).2]
      · exact ⟨_, _, nestOk_of_eq h (by simp [nest]) (by simp [contains, hc])⟩
    · refine ⟨_, _, nestOk_of_eq (m := 0) ?_ (by simp [nest]) (by simp [contains, hc])⟩
      simp [nest, inScope, contains, hc]
  | pow b x => by
    obtain ⟨mb, kb, hb⟩ := nest_ok v b
    obtain ⟨mx, kx, hx⟩ := nest_ok v x
    have hplain : nest O (some v) false (pow b x) =
        .ok (if (pow b x).contains v then 1 + max kb kx else 0) := by
      simp only [nest, inScope, hb.skip, hx.skip, Bool.false_and, Bool.false_eq_true, if_false]
      cases (pow b x).contains v <;> rfl
    by_cases h1 : beq O x (rat (-1)) = true
    · have hskip : nest O (some v) true (pow b x) = .ok mb := by
        simp only [nest, h1, Bool.and_self, if_true, hb.plain]
      have hcx : x.contains v = false := beq_num h1
      have hk : kx = 0 := (hx.zero hcx).2
      have hcon : (pow b x).contains v = b.contains v := by simp [contains, hcx]
      refine ⟨_, _, hplain, hskip, fun h => ?_, fun h => ?_, ?_, ?_⟩
      · rw [if_pos h]; rw [hcon] at h
        exact ⟨by omega, (hb.pos h).1⟩
      · rw [h]; rw [hcon] at h
        exact ⟨rfl, (hb.zero h).1⟩
      · split
        · have := hb.le_succ; subst hk; simp; omega
        · next h =>
          rw [hcon] at h
          rw [(hb.zero (by simpa using h)).1]
      · split
        · have := hb.le; subst hk; simp; omega
        · omega
    · have hskip : nest O (some v) true (pow b x) = nest O (some v) false (pow b x) := by
        simp only [nest, h1, Bool.and_false, Bool.false_eq_true, if_false, Bool.false_and]
      refine ⟨_, _, nestOk_of_eq hplain hskip ?_⟩
      split <;> simp_all
  | log i b => by
    obtain ⟨mi, ki, hi⟩ := nest_ok v i
    obtain ⟨mb, kb, hb⟩ := nest_ok v b
    refine ⟨_, _, nestOk_of_eq (m := if (log i b).contains v then 1 + max ki kb else 0) ?_ (by simp [nest]) ?_⟩
    · simp only [nest, inScope, hb.skip, hi.skip]
      cases (log i b).contains v <;> rfl
    · split <;> simp_all
  | trig f i => by
    obtain ⟨mi, ki, hi⟩ := nest_ok v i
    refine ⟨_, _, nestOk_of_eq (m := if (trig f i).contains v then 1 + ki else 0) ?_ (by simp [nest]) ?_⟩
    · simp only [nest, inScope, hi.skip]
      cases (trig f i).contains v <;> rfl
    · split <;> simp_all
  | absv i => by
    obtain ⟨mi, ki, hi⟩ := nest_ok v i
    refine ⟨_, _, nestOk_of_eq (m := if (absv i).contains v then 1 + ki else 0) ?_ (by simp [nest]) ?_⟩
    · simp only [nest, inScope, hi.skip]
      cases (absv i).contains v <;> rfl
    · split <;> simp_all
theorem nestL_ok (v : Str) : ∀ ts : List Expr, ∃ l, NestOkL O v ts l
  | [] => ⟨[], rfl, .nil⟩
  | t :: r => by
    obtain ⟨m, k, h⟩ := nest_ok v t
    obtain ⟨l, hl⟩ := nestL_ok v r
    refine ⟨k :: l, ?_, .cons ⟨m, h⟩ hl.2⟩
    rw [nestL, h.skip, hl.1]; rfl
end

theorem NestOk.unique {v : Str} {e : Expr} {m k m' k' : Nat} (h : NestOk O v e m k) (h' : NestOk O v e m' k') :
    m = m' ∧ k = k' := by
  have h1 := h.plain; rw [h'.plain] at h1
  have h2 := h.skip; rw [h'.skip] at h2
  exact ⟨(Except.ok.inj h1).symm, (Except.ok.inj h2).symm⟩

theorem containsL_of_mem {v : Str} : ∀ {ts : List Expr} {t : Expr}, t ∈ ts → t.contains v = true → containsL v ts = true
  | u :: r, t, ht, h => by
    rcases List.mem_cons.1 ht with rfl | ht
    · simp [containsL, h]
    · simp [containsL, containsL_of_mem ht h]

/-- A child is not more complex than its parent, except for `-1 * 1/b`, where it may be by one. -/
theorem nest_child {v : Str} {e c : Expr} {me ke mc kc : Nat} (he : NestOk O v e me ke) (hcn : NestOk O v c mc kc)
    (hc : c ∈ e.children) :
    mc ≤ me ∨ (mc ≤ me + 1 ∧ ∃ a b x, e = prod [a, pow b x] ∧ c = pow b x ∧ beq O a (rat (-1)) = true ∧
      beq O x (rat (-1)) = true) := by
  by_cases hv : c.contains v = true
  swap
  · rw [(hcn.zero (by simpa using hv)).1]; simp
  have hev : e.contains v = true := by
    cases e <;> simp only [children, List.not_mem_nil] at hc <;> simp only [contains]
    case sum => exact containsL_of_mem hc hv
    case prod => exact containsL_of_mem hc hv
    all_goals
      simp only [List.mem_cons, List.not_mem_nil, or_false] at hc
      first
        | (rcases hc with rfl | rfl <;> simp [hv])
        | (subst hc; exact hv)
  have hle := hcn.le_succ
  have two : ∀ a b : Expr, (∀ ka kb, nest O (some v) true a = .ok ka → nest O (some v) true b = .ok kb →
      nest O (some v) false e = .ok (1 + max ka kb)) → e.children = [a, b] → mc ≤ me := fun a b h hch => by
    obtain ⟨ma, ka, ha⟩ := nest_ok (O := O) v a
    obtain ⟨mb, kb, hb⟩ := nest_ok (O := O) v b
    have h0 := h ka kb ha.skip hb.skip
    rw [he.plain] at h0
    have := Except.ok.inj h0
    rw [hch] at hc
    simp only [List.mem_cons, List.not_mem_nil, or_false] at hc
    rcases hc with rfl | rfl
    · rw [(hcn.unique ha).2] at hle; omega
    · rw [(hcn.unique hb).2] at hle; omega
  have one : ∀ a : Expr, (∀ ka, nest O (some v) true a = .ok ka → nest O (some v) false e = .ok (1 + ka)) →
      e.children = [a] → mc ≤ me := fun a h hch => by
    obtain ⟨ma, ka, ha⟩ := nest_ok (O := O) v a
    have h0 := h ka ha.skip
    rw [he.plain] at h0
    have := Except.ok.inj h0
    rw [hch] at hc
    obtain rfl := List.mem_singleton.1 hc
    rw [(hcn.unique ha).2] at hle; omega
  have hmem : ∀ {ts : List Expr} {l : List Nat}, NestOkL O v ts l → c ∈ ts → kc ∈ l := by
    intro ts l h hc
    have h2 := h.2
    clear h
    induction h2 with
    | nil => simp at hc
    | @cons t k ts l h1 h2 ih =>
      rcases List.mem_cons.1 hc with rfl | hc
      · obtain ⟨m, hm⟩ := h1
        simp [(hcn.unique hm).2]
      · simp [ih hc]
  cases e with
  | sum ts =>
    left
    obtain ⟨l, hl⟩ := nestL_ok (O := O) v ts
    have hk := hmem hl hc
    have hts : containsL v ts = true := hev
    have he0 : ts.isEmpty = false := by cases ts <;> simp_all [containsL]
    obtain ⟨m, hm, hmax, -⟩ := maxNat_ok (List.ne_nil_of_mem hk)
    have h0 := he.plain
    simp [nest, inScope, contains, hts, he0, hl.1, hm, bind, Except.bind, pure, Except.pure] at h0
    have := hmax kc hk
    omega
  | prod ts =>
    obtain ⟨l, hl⟩ := nestL_ok (O := O) v ts
    have hk := hmem hl hc
    rcases nest_prod false hl.1 hl.len hev with ⟨a, t, ka, kt, rfl, rfl, hb, h⟩ | ⟨m, hm, h, -⟩
    · simp only [children, List.mem_cons, List.not_mem_nil, or_false] at hc
      rcases hc with rfl | rfl
      · rw [beq_num hb] at hv; simp at hv
      · have h2 := hl.2
        rcases h2 with _ | ⟨-, _ | ⟨⟨m, hm⟩, -⟩⟩
        have hkc := (hcn.unique hm).2
        rw [he.plain] at h
        have hme := Except.ok.inj h
        by_cases hp : mc ≤ me
        · exact .inl hp
        · refine .inr ⟨by omega, ?_⟩
          have hne : mc ≠ kc := by omega
          cases c with
          | pow b x =>
            by_cases hx : beq O x (rat (-1)) = true
            · exact ⟨a, b, x, rfl, rfl, hb, hx⟩
            · exfalso
              have hskip : nest O (some v) true (pow b x) = nest O (some v) false (pow b x) := by
                simp only [nest, hx, Bool.and_false, Bool.false_eq_true, if_false, Bool.false_and]
              rw [hcn.skip, hcn.plain] at hskip
              exact hne (Except.ok.inj hskip).symm
          | _ =>
            exfalso
            have hskip := hcn.skip
            have hpl := hcn.plain
            simp only [nest] at hskip hpl
            rw [hpl] at hskip
            exact hne (Except.ok.inj hskip)
    · left
      rw [he.plain] at h
      have := Except.ok.inj h
      obtain ⟨m', hm', hmax, -⟩ := maxNat_ok (List.ne_nil_of_mem hk)
      rw [hm] at hm'
      have h2 := Except.ok.inj hm'
      have := hmax kc hk
      omega
  | pow b x =>
    refine .inl (two b x (fun ka kb ha hb => ?_) rfl)
    simp only [nest, inScope, hev, ha, hb, Bool.false_and, Bool.false_eq_true, if_false]; rfl
  | log i b =>
    refine .inl (two i b (fun ka kb ha hb => ?_) rfl)
    simp only [nest, inScope, hev, ha, hb]; rfl
  | trig f i =>
    refine .inl (one i (fun ka ha => ?_) rfl)
    simp only [nest, inScope, hev, ha]; rfl
  | absv i =>
    refine .inl (one i (fun ka ha => ?_) rfl)
    simp only [nest, inScope, hev, ha]; rfl
  | _ => simp [children] at hc

end Simpy
