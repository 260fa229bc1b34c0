import Verif.Proofs.Inside
import Verif.Proofs.Syms

/-! What `LinearUSub.check` has established when it says yes. -/

namespace Simpy
open Expr

variable {O : Oracle} {n : Nat} {v : Str}

theorem mem_symsL {s : Str} : ∀ {ts : List Expr}, s ∈ symsL ts ↔ ∃ t ∈ ts, s ∈ syms t
  | [] => by simp [symsL]
  | t :: r => by simp [symsL, mem_symsL (ts := r)]

theorem syms_node {e : Expr} (h : e ≠ sym v) : v ∈ syms e ↔ ∃ t ∈ e.children, v ∈ syms t := by
  cases e <;> simp [syms, Expr.children, mem_symsL]
  rename_i s
  intro hs
  exact h (by rw [hs])

theorem inside_of_free {q : Expr} (e : Expr) (h : v ∉ syms e) : Inside O v q e := by
  induction e using Expr.ofChildren with
  | h e ih =>
    have hv : e ≠ sym v := by rintro rfl; simp [syms] at h
    exact .node hv fun t ht => ih t ht fun hm => h ((syms_node hv).2 ⟨t, ht, hm⟩)

theorem linCheckL_one (x : Expr) (s : LinState) : linCheckL O n v [x] s = linCheck O n v x s := by
  simp only [linCheckL]
  split
  · rename_i h; rw [h]
  · rename_i h; rw [h]
  · rename_i h; rw [h]

theorem linCheck_eq (e : Expr) (s : LinState) : linCheck O n v e s =
    match linPre O n v e s with
    | .error er => .error er
    | .ok (some r) => .ok r
    | .ok none => if (e.children.isEmpty && !e.isSum && !e.isProd) = true then .ok (false, s) else linCheckL O n v e.children s := by
  have two : ∀ b x s, linCheckL O n v [b, x] s = match linCheck O n v b s with
      | .error er => .error er
      | .ok (true, s') => linCheck O n v x s'
      | .ok (false, s') => .ok (false, s') := by
    intro b x s
    rw [linCheckL.eq_def]
    simp only [linCheckL_one]
    split <;> rename_i h <;> rw [h]
  rcases hp : linPre O n v e s with er | _ | r
  all_goals cases e
  all_goals simp only [linCheck, hp, Expr.children, isSum, isProd, List.isEmpty_cons, List.isEmpty_nil, Bool.false_and, Bool.and_false,
    Bool.not_true, Bool.not_false, Bool.and_true, Bool.false_eq_true, if_false, if_true, linCheckL_one]
  all_goals (rw [two]; split <;> rename_i h <;> rw [h])

/-- What the check establishes. -/
structure LinSeen (O : Oracle) (n : Nat) (v : Str) (es : List Expr) (s s' : LinState) (b : Bool) : Prop where
  keeps : ∀ w, s.1 = some w → s' = s
  inside : b = true → ∀ q, s'.1 = some q → ∀ e ∈ es, Inside O v q e
  free : b = true → s'.1 = none → ∀ e ∈ es, v ∉ syms e
  found : s.1 = none → ∀ q, s'.1 = some q → ∃ e ∈ es, Sub q e ∧ linearShape O n v q = .ok (some (q, none))

theorem linearShape_plain {e w : Expr} (h : linearShape O n v e = .ok (some (w, none))) : w = e := by
  unfold linearShape at h
  simp only at h
  split at h
  · obtain ⟨b, h1, h⟩ := bind_ok.1 h
    split at h
    · cases pure_ok.1 h; rfl
    · cases pure_ok.1 h
  · obtain ⟨q, h1, h⟩ := bind_ok.1 h
    split at h
    · cases pure_ok.1 h; rfl
    · obtain ⟨e', h2, h⟩ := bind_ok.1 h
      obtain ⟨xyz, h3, h⟩ := bind_ok.1 h
      split at h
      next b x =>
        split at h
        · obtain ⟨c, h4, h⟩ := bind_ok.1 h
          split at h
          · cases pure_ok.1 h
          · obtain ⟨a, h5, h⟩ := bind_ok.1 h
            obtain ⟨i, h6, h⟩ := bind_ok.1 h
            obtain ⟨ic', h7, h⟩ := bind_ok.1 h
            obtain ⟨w', h8, h⟩ := bind_ok.1 h
            cases pure_ok.1 h
        · cases pure_ok.1 h
      · cases pure_ok.1 h
  · cases h

theorem linPre_seen {e : Expr} (hf : floatFree e = true) (hp : NoScaledPower O n v e) {s s' : LinState} {b : Bool}
    (h : linPre O n v e s = .ok (some (b, s'))) : LinSeen O n v [e] s s' b := by
  unfold linPre at h
  split at h
  · rename_i hc
    cases h
    have hv : v ∉ syms e := by
      intro hm
      rw [(contains_iff v e).2 hm] at hc
      simp at hc
    exact ⟨fun _ _ => rfl, fun _ q _ e' he' => by rw [List.mem_singleton.1 he']; exact inside_of_free e hv,
      fun _ _ e' he' => by rw [List.mem_singleton.1 he']; exact hv, fun h1 q h2 => by rw [h1] at h2; cases h2⟩
  · obtain ⟨k, h1, hk⟩ := bind_ok.1 h
    clear h
    have h := pure_ok.1 hk
    clear hk
    cases k with
    | none => simp [linVerdict] at h
    | some k =>
      obtain ⟨w, ic⟩ := k
      cases ic with
      | some ic => exact absurd h1 (hp e .here w ic)
      | none =>
        have hw := linearShape_plain h1
        subst hw
        unfold linVerdict at h
        simp only at h
        split at h
        · rename_i w0 hw0
          cases h
          refine ⟨fun _ _ => rfl, fun hb q hq e' he' => ?_, fun _ h2 => (by rw [hw0] at h2; cases h2), fun h2 => (by rw [hw0] at h2; cases h2)⟩
          rw [List.mem_singleton.1 he']
          rw [hw0] at hq
          cases hq
          exact .here hb
        · rename_i hn
          cases h
          refine ⟨fun w1 h2 => (by rw [hn] at h2; cases h2), fun _ q hq e' he' => ?_, fun _ h2 => (by cases h2), fun _ q hq => ?_⟩
          · rw [List.mem_singleton.1 he']
            cases hq
            exact .here (beq_refl w ((floatFree_iff w).1 hf))
          · cases hq
            exact ⟨w, by simp, .here, h1⟩

theorem linCheckL_seen : ∀ {ts : List Expr} {s s' : LinState} {b : Bool},
    (∀ t ∈ ts, ∀ s s' b, linCheck O n v t s = .ok (b, s') → LinSeen O n v [t] s s' b) →
    linCheckL O n v ts s = .ok (b, s') → LinSeen O n v ts s s' b
  | [], s, s', b, _, h => by
    simp only [linCheckL] at h
    cases h
    exact ⟨fun _ _ => rfl, by simp, by simp, fun h1 q h2 => by rw [h1] at h2; cases h2⟩
  | t :: r, s, s', b, ih, h => by
    simp only [linCheckL] at h
    split at h
    · cases h
    next s1 h1 =>
      have i := ih t (by simp) _ _ _ h1
      have j := linCheckL_seen (ts := r) (fun t ht => ih t (by simp [ht])) h
      refine ⟨fun w hw => ?_, fun hb q hq e he => ?_, fun hb hn e he => ?_, fun hn q hq => ?_⟩
      · have := i.keeps w hw
        rw [this] at j
        exact j.keeps w hw
      · rcases List.mem_cons.1 he with rfl | he
        · cases hs : s1.1 with
          | none => exact inside_of_free _ (i.free rfl hs _ (by simp))
          | some w =>
            have := j.keeps w hs
            rw [this] at hq
            exact i.inside rfl q hq _ (by simp)
        · exact j.inside hb q hq e he
      · rcases List.mem_cons.1 he with rfl | he
        · cases hs : s1.1 with
          | none => exact i.free rfl hs _ (by simp)
          | some w =>
            have := j.keeps w hs
            rw [this, hs] at hn
            cases hn
        · exact j.free hb hn e he
      · cases hs : s1.1 with
        | none =>
          obtain ⟨e, he, h⟩ := j.found hs q hq
          exact ⟨e, by simp [he], h⟩
        | some w =>
          have := j.keeps w hs
          rw [this] at hq
          obtain ⟨e, he, h⟩ := i.found hn q hq
          exact ⟨e, by simp [List.mem_singleton.1 he], h⟩
    next s1 h1 =>
      cases h
      have i := ih t (by simp) _ _ _ h1
      refine ⟨i.keeps, (fun h => by cases h), (fun h => by cases h), fun hn q hq => ?_⟩
      obtain ⟨e, he, h⟩ := i.found hn q hq
      exact ⟨e, by simp [List.mem_singleton.1 he], h⟩

theorem floatFree_child {e t : Expr} (h : floatFree e = true) (ht : t ∈ e.children) : floatFree t = true := by
  have L : ∀ {ts : List Expr}, floatFreeL ts = true → ∀ t ∈ ts, floatFree t = true := by
    intro ts
    induction ts with
    | nil => simp
    | cons a r ih =>
      intro h
      simp only [floatFreeL, Bool.and_eq_true] at h
      simp only [List.mem_cons, forall_eq_or_imp]
      exact ⟨h.1, ih h.2⟩
  cases e <;> simp only [Expr.children, List.mem_cons, List.not_mem_nil, or_false] at ht <;> simp only [floatFree, Bool.and_eq_true] at h
  · exact L h t ht
  · exact L h t ht
  · rcases ht with rfl | rfl
    exacts [h.1, h.2]
  · rcases ht with rfl | rfl
    exacts [h.1, h.2]
  · subst ht; exact h
  · subst ht; exact h

theorem linCheck_seen (e : Expr) : floatFree e = true → NoScaledPower O n v e → ∀ (s s' : LinState) (b : Bool),
    linCheck O n v e s = .ok (b, s') → LinSeen O n v [e] s s' b := by
  induction e using Expr.ofChildren with
  | h e ih =>
    intro hf hp s s' b h
    rw [linCheck_eq] at h
    split at h
    · cases h
    next r hr => cases h; exact linPre_seen hf hp hr
    next hr =>
      split at h
      · cases h
        exact ⟨fun _ _ => rfl, (fun h => by cases h), (fun h => by cases h), fun h1 q h2 => by rw [h1] at h2; cases h2⟩
      · have j := linCheckL_seen (fun t ht => ih t ht (floatFree_child hf ht) fun t' ht' => hp t' (.child ht ht')) h
        have hv : e ≠ sym v := by
          rintro rfl
          rename_i hc
          exact hc (by simp [Expr.children, isSum, isProd])
        refine ⟨j.keeps, fun hb q hq e' he' => ?_, fun hb hn e' he' => ?_, fun hn q hq => ?_⟩
        · rw [List.mem_singleton.1 he']
          exact .node hv (j.inside hb q hq)
        · rw [List.mem_singleton.1 he', syms_node hv]
          rintro ⟨t, ht, hm⟩
          exact j.free hb hn t ht hm
        · obtain ⟨t, ht, h1, h2⟩ := j.found hn q hq
          exact ⟨e, by simp, .child ht h1, h2⟩

/-! ## The shape is linear -/

/-- On `v ≠ 0` the value is a linear function of `v`. -/
def Affine (v : Str) (ρ : Str → ℝ) (e : Expr) : Prop :=
  ∃ a b : ℝ, ∀ t : ℝ, t ≠ 0 → Dom (Function.update ρ v t) e → den (Function.update ρ v t) e = a * t + b

theorem affine_free {e : Expr} (h : v ∉ syms e) (ρ : Str → ℝ) : Affine v ρ e :=
  ⟨0, den ρ e, fun t _ _ => by
    rw [zero_mul, zero_add]
    exact den_congr e fun s hs => Function.update_of_ne (by rintro rfl; exact h hs) _ _⟩

theorem affine_div (hO : O.Exact) {e k : Expr} (hw : WF e) (h : opDiv (ctors O n) e (sym v) = .ok k) (hk : v ∉ syms k) (ρ : Str → ℝ) :
    Affine v ρ e := by
  refine ⟨den ρ k, 0, fun t ht hd => ?_⟩
  have hx : den (Function.update ρ v t) (sym v) = t := by simp [den]
  obtain ⟨h1, -⟩ := opDiv_V (s := false) (ctors_sound hO n) hw (by simp [WF]) hd (by simp [DomS]) (by rw [hx]; exact ht) h
  have h2 : den (Function.update ρ v t) k = den ρ k :=
    den_congr k fun s hs => Function.update_of_ne (by rintro rfl; exact hk hs) _ _
  rw [hx, h2] at h1
  rw [h1]
  field_simp
  ring

theorem affine_sum {ρ : Str → ℝ} : ∀ {ts : List Expr}, (∀ t ∈ ts, Affine v ρ t) →
    ∃ a b : ℝ, ∀ t : ℝ, t ≠ 0 → (∀ e ∈ ts, Dom (Function.update ρ v t) e) →
      (ts.map (den (Function.update ρ v t))).sum = a * t + b
  | [], _ => ⟨0, 0, by simp⟩
  | e :: r, h => by
    obtain ⟨a, b, h1⟩ := h e (by simp)
    obtain ⟨c, d, h2⟩ := affine_sum (ts := r) fun t ht => h t (by simp [ht])
    refine ⟨a + c, b + d, fun t ht hd => ?_⟩
    rw [List.map_cons, List.sum_cons, h1 t ht (hd e (by simp)), h2 t ht fun e he => hd e (by simp [he])]
    ring

theorem allR_true {α : Type} {f : α → R Bool} : ∀ {ts : List α}, allR f ts = .ok true → ∀ t ∈ ts, f t = .ok true
  | [], _ => by simp
  | t :: r, h => by
    unfold allR at h
    obtain ⟨b, h1, h⟩ := bind_ok.1 h
    cases b with
    | false => cases pure_ok.1 h
    | true =>
      simp only [List.mem_cons, forall_eq_or_imp]
      exact ⟨h1, allR_true (by simpa using h)⟩

theorem affine_shape (hO : O.Exact) {e w : Expr} (hw : WF e) (h : linearShape O n v e = .ok (some (w, none))) (ρ : Str → ℝ) :
    Affine v ρ e := by
  have nv : ∀ {k : Expr}, (!k.contains v) = true → v ∉ syms k := by
    intro k hk hm
    rw [(contains_iff v k).2 hm] at hk
    cases hk
  unfold linearShape at h
  simp only at h
  split at h
  · rename_i ts
    obtain ⟨b, h1, h⟩ := bind_ok.1 h
    split at h
    · rename_i hb
      subst hb
      have hts := allR_true h1
      obtain ⟨a, b, hab⟩ := affine_sum (v := v) (ρ := ρ) (ts := ts) fun t ht => by
        have := hts t ht
        unfold linTerm at this
        split at this
        · obtain ⟨q, h2, h3⟩ := bind_ok.1 this
          exact affine_div hO (WF_sum.1 hw t ht) h2 (nv (pure_ok.1 h3)) ρ
        · rename_i hc
          exact affine_free (nv (by simpa using hc)) ρ
      refine ⟨a, b, fun t ht hd => ?_⟩
      rw [den, denS_eq]
      exact hab t ht (Dom_sum.1 hd)
    · cases pure_ok.1 h
  · obtain ⟨q, h1, h⟩ := bind_ok.1 h
    split at h
    · rename_i hq
      exact affine_div hO hw h1 (nv hq) ρ
    · obtain ⟨e', h2, h⟩ := bind_ok.1 h
      obtain ⟨xyz, h3, h⟩ := bind_ok.1 h
      split at h
      next b x =>
        split at h
        · obtain ⟨c, h4, h⟩ := bind_ok.1 h
          split at h
          · cases pure_ok.1 h
          · obtain ⟨a, h5, h⟩ := bind_ok.1 h
            obtain ⟨i, h6, h⟩ := bind_ok.1 h
            obtain ⟨ic', h7, h⟩ := bind_ok.1 h
            obtain ⟨w', h8, h⟩ := bind_ok.1 h
            cases pure_ok.1 h
        · cases pure_ok.1 h
      · cases pure_ok.1 h
  · cases h

theorem WF.child {e t : Expr} (h : WF e) (ht : t ∈ e.children) : WF t := by
  cases e <;> simp only [Expr.children, List.mem_cons, List.not_mem_nil, or_false] at ht
  · exact WF_sum.1 h t ht
  · exact (WF_prod.1 h).2 t ht
  · rcases ht with rfl | rfl
    exacts [h.1, h.2.1]
  · rcases ht with rfl | rfl
    exacts [h.1, h.2]
  · subst ht; exact h
  · subst ht; exact h

theorem Sub.wf {e t : Expr} (h : Sub t e) : WF e → WF t := by
  induction h with
  | here => exact id
  | child ht _ ih => exact fun w => ih (w.child ht)

end Simpy
