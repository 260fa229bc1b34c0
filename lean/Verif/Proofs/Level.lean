import Verif.Spec.Order
import Verif.Spec.Level
import Verif.Proofs.Sorted

/-!
# Lemmas: the symDepth of a term is the complexity the program computes
-/

namespace Simpy
open Expr

theorem mem_le_greatest : ∀ {l : List ℕ} {k : ℕ}, k ∈ l → k ≤ greatest l
  | a :: r, k, h => by
    rcases List.mem_cons.1 h with rfl | h
    · exact le_max_left _ _
    · exact (mem_le_greatest h).trans (le_max_right _ _)

theorem greatest_pos : ∀ {l : List ℕ}, 0 < greatest l ↔ ∃ k ∈ l, 0 < k
  | [] => by simp [greatest]
  | a :: r => by
    have := greatest_pos (l := r)
    simp only [greatest, lt_max_iff, List.mem_cons, exists_eq_or_imp, this]

theorem deeper_pos {k : ℕ} : 0 < deeper k ↔ 0 < k := by cases k <;> simp [deeper]

theorem deeper_of_pos {k : ℕ} (h : 0 < k) : deeper k = 1 + k := by
  obtain ⟨j, rfl⟩ : ∃ j, k = j + 1 := ⟨k - 1, by omega⟩
  simp only [deeper]; omega

theorem symDepths_mem {k : ℕ} : ∀ {ts : List Expr}, k ∈ symDepths ts ↔ ∃ t ∈ ts, symDepth t = k
  | [] => by simp [symDepths]
  | t :: r => by simp [symDepths, symDepths_mem (ts := r), eq_comm]

theorem varies_iff' {e : Expr} : varies e = true ↔ syms e ≠ [] ∨ anys e ≠ [] := by
  simp [varies, Bool.or_eq_true]

theorem variesL_iff : ∀ {ts : List Expr}, (symsL ts ≠ [] ∨ anysL ts ≠ []) ↔ ∃ t ∈ ts, varies t = true
  | [] => by simp [symsL, anysL]
  | t :: r => by
    have := variesL_iff (ts := r)
    simp only [symsL, anysL, ne_eq, List.append_eq_nil_iff, not_and_or, List.mem_cons, exists_eq_or_imp, varies_iff'] at this ⊢
    rw [← this]; tauto

mutual
theorem symDepth_pos : ∀ (e : Expr), 0 < symDepth e ↔ varies e = true
  | sum ts => by
    rw [symDepth, deeper_pos, symDepths_pos ts, varies_iff', syms, anys, variesL_iff]
  | prod ts => by
    have h := symDepths_pos ts
    rw [varies_iff', syms, anys, variesL_iff, ← h, symDepth]
    split
    · rfl
    · exact deeper_pos
  | pow b x => by
    rw [symDepth, deeper_pos, lt_max_iff, symDepth_pos b, symDepth_pos x]
    simp only [varies_iff', syms, anys, ne_eq, List.append_eq_nil_iff, not_and_or]; tauto
  | log i b => by
    rw [symDepth, deeper_pos, lt_max_iff, symDepth_pos i, symDepth_pos b]
    simp only [varies_iff', syms, anys, ne_eq, List.append_eq_nil_iff, not_and_or]; tauto
  | trig f i => by
    rw [symDepth, deeper_pos, symDepth_pos i]; simp [varies_iff', syms, anys]
  | absv i => by
    rw [symDepth, deeper_pos, symDepth_pos i]; simp [varies_iff', syms, anys]
  | sym s => by simp [symDepth, varies_iff', syms]
  | any s => by simp [symDepth, varies_iff', anys]
  | rat _ => by simp [symDepth, varies_iff', syms, anys]
  | flt _ => by simp [symDepth, varies_iff', syms, anys]
  | inf => by simp [symDepth, varies_iff', syms, anys]
  | neginf => by simp [symDepth, varies_iff', syms, anys]
  | pi => by simp [symDepth, varies_iff', syms, anys]
  | euler => by simp [symDepth, varies_iff', syms, anys]
theorem symDepths_pos : ∀ (ts : List Expr), 0 < greatest (symDepths ts) ↔ ∃ t ∈ ts, varies t = true
  | [] => by simp [symDepths, greatest]
  | t :: r => by
    rw [symDepths, greatest, lt_max_iff, symDepth_pos t, symDepths_pos r]
    simp
end

theorem maxNat_greatest {l : List ℕ} {m : ℕ} (h : maxNat l = .ok m) : m = greatest l := by
  cases l with
  | nil => cases h
  | cons a r =>
    cases h
    have : ∀ (r : List ℕ) (a : ℕ), r.foldl max a = max a (greatest r) := by
      intro r
      induction r with
      | nil => intro a; simp [greatest]
      | cons b r ih => intro a; rw [List.foldl_cons, ih, greatest, max_assoc]
    rw [this]; rfl

theorem filter_symDepths (ts : List Expr) : ((symDepths ts).filter (0 < ·)).length = (ts.filter varies).length := by
  induction ts with
  | nil => rfl
  | cons t r ih =>
    rw [symDepths, List.filter_cons, List.filter_cons]
    have := symDepth_pos t
    by_cases h : varies t = true
    · simp [this.2 h, h, ih]
    · have h0 : ¬ 0 < symDepth t := fun h' => h (this.1 h')
      simp [h0, h, ih]

theorem symDepth_zero {e : Expr} (h : ¬ varies e = true) : symDepth e = 0 := by
  have := (symDepth_pos e).not.2 h; omega

mutual
theorem nwf_symDepth : ∀ (e : Expr) {k : ℕ}, nwf e = .ok k → k = symDepth e
  | sum ts, k, h => by
    rw [nwf] at h
    by_cases hv : varies (sum ts) = true
    · rw [if_pos hv] at h
      obtain ⟨l, h1, h⟩ := bind_ok.1 h
      obtain ⟨m, h2, h⟩ := bind_ok.1 h
      cases h
      have := (symDepth_pos (sum ts)).2 hv
      rw [symDepth, deeper_pos] at this
      rw [maxNat_greatest h2, nwfAll_symDepth ts h1, symDepth, deeper_of_pos this]
    · rw [if_neg hv] at h
      cases h
      exact (symDepth_zero hv).symm
  | prod ts, k, h => by
    have hg := symDepths_pos ts
    have hf := filter_symDepths ts
    rw [nwf] at h
    split at h
    · rename_i e
      cases h
      have : ¬ varies (prod ts) = true := by
        rw [varies_iff', syms, anys, variesL_iff]
        rintro ⟨t, ht, hv⟩
        have : t ∈ ts.filter varies := List.mem_filter.2 ⟨ht, hv⟩
        rw [e] at this; cases this
      exact (symDepth_zero this).symm
    · rename_i t e
      split at h
      · cases h
      · obtain ⟨l, h1, h⟩ := bind_ok.1 h
        cases h
        obtain ⟨h2, h3⟩ := nwfKeep_symDepth ts h1
        rw [symDepth, if_pos (by rw [hf, e]; simp)]
        rw [e] at h3
        obtain ⟨k, rfl⟩ : ∃ k, l = [k] := List.length_eq_one_iff.1 (by simpa using h3)
        rw [← h2]; simp [greatest]
    · rename_i e1 e2
      obtain ⟨l, h1, h⟩ := bind_ok.1 h
      obtain ⟨m, h2, h⟩ := bind_ok.1 h
      cases h
      obtain ⟨h3, h4⟩ := nwfKeep_symDepth ts h1
      have hl : 2 ≤ (ts.filter varies).length := by
        match he : ts.filter varies with
        | [] => exact absurd he e1
        | [t] => exact absurd he (e2 t)
        | _ :: _ :: _ => simp
      have hpos : 0 < greatest (symDepths ts) := by
        rw [hg]
        obtain ⟨t, ht⟩ := List.exists_mem_of_length_pos (by omega : 0 < (ts.filter varies).length)
        exact ⟨t, (List.mem_filter.1 ht).1, (List.mem_filter.1 ht).2⟩
      rw [symDepth, if_neg (by rw [hf]; omega), deeper_of_pos hpos, maxNat_greatest h2, h3]
  | pow b x, k, h => by
    rw [nwf] at h
    by_cases hv : varies (pow b x) = true
    · rw [if_pos hv] at h
      obtain ⟨m, h1, h⟩ := bind_ok.1 h
      obtain ⟨m', h2, h⟩ := bind_ok.1 h
      cases h
      have := (symDepth_pos (pow b x)).2 hv
      rw [symDepth, deeper_pos] at this
      rw [nwf_symDepth b h1, nwf_symDepth x h2, symDepth, deeper_of_pos this]
    · rw [if_neg hv] at h
      cases h
      exact (symDepth_zero hv).symm
  | log i b, k, h => by
    rw [nwf] at h
    by_cases hv : varies (log i b) = true
    · rw [if_pos hv] at h
      obtain ⟨m, h1, h⟩ := bind_ok.1 h
      obtain ⟨m', h2, h⟩ := bind_ok.1 h
      cases h
      have := (symDepth_pos (log i b)).2 hv
      rw [symDepth, deeper_pos] at this
      rw [nwf_symDepth i h1, nwf_symDepth b h2, symDepth, deeper_of_pos this]
    · rw [if_neg hv] at h
      cases h
      exact (symDepth_zero hv).symm
  | trig f i, k, h => by
    rw [nwf] at h
    by_cases hv : varies (trig f i) = true
    · rw [if_pos hv] at h
      obtain ⟨m, h1, h⟩ := bind_ok.1 h
      cases h
      have := (symDepth_pos (trig f i)).2 hv
      rw [symDepth, deeper_pos] at this
      rw [nwf_symDepth i h1, symDepth, deeper_of_pos this]
    · rw [if_neg hv] at h
      cases h
      exact (symDepth_zero hv).symm
  | absv i, k, h => by
    rw [nwf] at h
    by_cases hv : varies (absv i) = true
    · rw [if_pos hv] at h
      obtain ⟨m, h1, h⟩ := bind_ok.1 h
      cases h
      have := (symDepth_pos (absv i)).2 hv
      rw [symDepth, deeper_pos] at this
      rw [nwf_symDepth i h1, symDepth, deeper_of_pos this]
    · rw [if_neg hv] at h
      cases h
      exact (symDepth_zero hv).symm
  | sym _, k, h => by cases h; rfl
  | any _, k, h => by cases h; rfl
  | rat _, k, h => by cases h; rfl
  | flt _, k, h => by cases h; rfl
  | inf, k, h => by cases h; rfl
  | neginf, k, h => by cases h; rfl
  | pi, k, h => by cases h; rfl
  | euler, k, h => by cases h; rfl
theorem nwfAll_symDepth : ∀ (ts : List Expr) {l : List ℕ}, nwfAll ts = .ok l → l = symDepths ts
  | [], l, h => by cases h; rfl
  | t :: r, l, h => by
    rw [nwfAll] at h
    obtain ⟨m, h1, h⟩ := bind_ok.1 h
    obtain ⟨l', h2, h⟩ := bind_ok.1 h
    cases h
    rw [symDepths, nwf_symDepth t h1, nwfAll_symDepth r h2]
theorem nwfKeep_symDepth : ∀ (ts : List Expr) {l : List ℕ}, nwfKeep ts = .ok l → greatest l = greatest (symDepths ts) ∧ l.length = (ts.filter varies).length
  | [], l, h => by cases h; exact ⟨rfl, rfl⟩
  | t :: r, l, h => by
    rw [nwfKeep] at h
    by_cases hv : varies t = true
    · rw [if_pos hv] at h
      obtain ⟨m, h1, h⟩ := bind_ok.1 h
      obtain ⟨l', h2, h⟩ := bind_ok.1 h
      cases h
      obtain ⟨a, b⟩ := nwfKeep_symDepth r h2
      rw [symDepths, greatest, greatest, a, nwf_symDepth t h1]
      simp [hv, b]
    · rw [if_neg hv] at h
      obtain ⟨a, b⟩ := nwfKeep_symDepth r h
      rw [symDepths, greatest, a, symDepth_zero hv]
      simp [hv, b]
end

theorem constPower_own {t : Expr} {q : ℚ} (h0 : constPower t = .ok q) : q = ownExponent t := by
  unfold constPower at h0
  obtain ⟨u, h1, h2⟩ := bind_ok.1 h0
  clear h0
  cases t with
  | prod ts =>
    have hf : (ts.filter fun t => 0 < symDepth t) = ts.filter varies := by
      refine List.filter_congr fun t _ => ?_
      have := symDepth_pos t
      by_cases hv : varies t = true
      · simp [this.2 hv, hv]
      · simp only [this, hv]; decide
    rw [removeConstFactor] at h1
    rw [ownExponent, hf]
    generalize ts.filter varies = l at h1
    match l, h1 with
    | [], h1 => cases h1; cases h2; rfl
    | [v], h1 =>
      simp only [mkProdSkip] at h1
      split at h1
      · cases h1
      · cases h1
        cases u with
        | pow b x => cases x <;> (cases h2; rfl)
        | _ => cases h2; rfl
    | a :: b :: r, h1 =>
      cases h1; cases h2
      split
      · rename_i heq; cases heq
      · rfl
  | pow b x =>
    cases h1
    cases x <;> (cases h2; rfl)
  | _ => cases h1; cases h2; rfl

mutual
theorem symbolessNest_depth : ∀ (e : Expr), symbolessNest e = constDepth e
  | sum ts => by rw [symbolessNest, constDepth, symbolessNestL_depth ts]
  | prod ts => by rw [symbolessNest, constDepth, symbolessNestL_depth ts]
  | pow b x => by rw [symbolessNest, constDepth, symbolessNest_depth b, symbolessNest_depth x]
  | log i b => by rw [symbolessNest, constDepth, symbolessNest_depth i, symbolessNest_depth b]
  | trig _ i => by rw [symbolessNest, constDepth, symbolessNest_depth i]
  | absv i => by rw [symbolessNest, constDepth, symbolessNest_depth i]
  | sym _ => rfl
  | any _ => rfl
  | rat _ => rfl
  | flt _ => rfl
  | inf => rfl
  | neginf => rfl
  | pi => rfl
  | euler => rfl
theorem symbolessNestL_depth : ∀ (ts : List Expr), symbolessNestL ts = greatest (constDepths ts)
  | [] => rfl
  | t :: r => by rw [symbolessNestL, constDepths, greatest, symbolessNest_depth t, symbolessNestL_depth r]
end

/-! ## Every element of a list that is sorted is compared with another one -/

section
variable {α : Type} {lt : α → α → R Bool}

def Seen (lt : α → α → R Bool) (a : α) : Prop := ∃ b v, lt a b = .ok v ∨ lt b a = .ok v

theorem runTail_seen {d : Bool} : ∀ {l : List α} {p : α} {run rest : List α}, runTail lt d p l = .ok (run, rest) →
    (∀ a ∈ run, Seen lt a) ∧ ∀ a ∈ l, a ∈ run ∨ a ∈ rest
  | [], p, run, rest, h => by cases h; simp
  | x :: r, p, run, rest, h => by
    rw [runTail] at h
    obtain ⟨b, h1, h⟩ := bind_ok.1 h
    split at h
    · obtain ⟨⟨run', rest'⟩, h2, h⟩ := bind_ok.1 h
      cases h
      obtain ⟨k1, k2⟩ := runTail_seen h2
      refine ⟨fun a ha => ?_, fun a ha => ?_⟩
      · rcases List.mem_cons.1 ha with rfl | ha
        · exact ⟨p, b, .inl h1⟩
        · exact k1 a ha
      · rcases List.mem_cons.1 ha with rfl | ha
        · simp
        · rcases k2 a ha with h | h
          · exact .inl (List.mem_cons_of_mem _ h)
          · exact .inr h
    · cases h
      exact ⟨by simp, fun a ha => .inr ha⟩

theorem bsearch_seen {p : α} {a : List α} {n r k : ℕ} (h : bsearch lt p a (n + 1) 0 (r + 1) = .ok k) : Seen lt p := by
  rw [bsearch] at h
  rw [if_pos (by omega)] at h
  dsimp only at h
  split at h
  · cases h
  · obtain ⟨b, h1, _⟩ := bind_ok.1 h
    exact ⟨_, b, .inl h1⟩

theorem binarySort_seen : ∀ {l pre s : List α}, pre ≠ [] → binarySort lt pre l = .ok s → ∀ a ∈ l, Seen lt a
  | [], _, _, _, _ => by simp
  | p :: r, pre, s, hp, h => by
    rw [binarySort] at h
    obtain ⟨i, h1, h⟩ := bind_ok.1 h
    intro a ha
    rcases List.mem_cons.1 ha with rfl | ha
    · obtain ⟨x, r, rfl⟩ := List.exists_cons_of_ne_nil hp
      exact bsearch_seen h1
    · exact binarySort_seen (by simp) h a ha

theorem pySorted_seen {l s : List α} (h : pySorted lt l = .ok s) (h2 : 2 ≤ l.length) : ∀ a ∈ l, Seen lt a := by
  unfold pySorted at h
  obtain ⟨⟨pre, rest⟩, h1, h⟩ := bind_ok.1 h
  match l, h2 with
  | x :: y :: r, _ =>
    rw [countRun] at h1
    obtain ⟨d, h3, h1⟩ := bind_ok.1 h1
    obtain ⟨⟨run, rest'⟩, h4, h1⟩ := bind_ok.1 h1
    obtain ⟨k1, k2⟩ := runTail_seen h4
    have hp : rest' = rest ∧ pre ≠ [] := by
      dsimp only at h1
      split at h1 <;> cases h1 <;> simp
    obtain ⟨rfl, hp⟩ := hp
    have k3 := binarySort_seen hp h
    intro a ha
    rcases List.mem_cons.1 ha with rfl | ha
    · exact ⟨y, d, .inr h3⟩
    rcases List.mem_cons.1 ha with rfl | ha
    · exact ⟨x, d, .inl h3⟩
    rcases k2 a ha with h | h
    · exact k1 a h
    · exact k3 a h
end

theorem seen_nwf {C : Ctors} {a : Expr} (h : Seen (cmpLt C) a) : (∃ k, nwf a = .ok k) := by
  obtain ⟨b, v, h | h⟩ := h <;> unfold cmpLt at h
  · obtain ⟨k, hk, _⟩ := bind_ok.1 h
    exact ⟨k, hk⟩
  · obtain ⟨_, _, h⟩ := bind_ok.1 h
    obtain ⟨k, hk, _⟩ := bind_ok.1 h
    exact ⟨k, hk⟩

/-- `constPower` fails only where `nwf` does. -/
theorem constPower_ok {a : Expr} {k : ℕ} (h : nwf a = .ok k) : ∃ q, constPower a = .ok q := by
  unfold constPower
  have : ∃ u, removeConstFactor a = .ok u := by
    cases a with
    | prod ts =>
      rw [removeConstFactor]
      rw [nwf] at h
      match hl : ts.filter varies with
      | [] => exact ⟨_, rfl⟩
      | [v] =>
        rw [hl] at h
        dsimp only at h
        simp only [mkProdSkip]
        by_cases hp : v.isProd = true
        · rw [if_pos hp] at h; cases h
        · rw [if_neg hp]; exact ⟨_, rfl⟩
      | x :: y :: r => exact ⟨_, rfl⟩
    | _ => exact ⟨_, rfl⟩
  obtain ⟨u, hu⟩ := this
  rw [hu]
  cases u with
  | pow b x => cases x <;> exact ⟨_, rfl⟩
  | _ => exact ⟨_, rfl⟩

/-- The order of the keys is `Before`. -/
theorem before_of_key {C : Ctors} {a b : Expr} {k l : ℕ} (ha : nwf a = .ok k) (hb : nwf b = .ok l)
    (h : keyLe (sortKey C a) (sortKey C b)) : Before a b := by
  obtain ⟨p, hp⟩ := constPower_ok ha
  obtain ⟨q, hq⟩ := constPower_ok hb
  have ea := nwf_symDepth a ha
  have eb := nwf_symDepth b hb
  have ep := constPower_own hp
  have eq := constPower_own hq
  subst ea eb ep eq
  unfold keyLe sortKey at h
  rw [ha, hb, hp, hq, symbolessNest_depth, symbolessNest_depth] at h
  dsimp only [R.get] at h
  unfold Before
  rcases h with h | ⟨h, h'⟩
  · exact .inl h
  · refine .inr ⟨h, ?_⟩
    rw [h] at h' ⊢
    by_cases h0 : symDepth b = 0
    · rw [if_pos h0, if_pos h0] at h'
      rw [if_pos h0]
      rcases h' with h' | ⟨h', _⟩
      · exact (Nat.cast_lt.1 h').le
      · exact (Nat.cast_injective h').le
    · rw [if_neg h0, if_neg h0] at h'
      rw [if_neg h0]
      rcases h' with h' | ⟨h', _⟩
      · exact h'.le
      · exact h'.le

theorem sortTerms_before (C : Ctors) {ts s : List Expr} (h : sortTerms C ts = .ok s) : s.Pairwise Before := by
  have hp := sortTerms_perm h
  have hs : s.Pairwise fun a b => keyLe (sortKey C a) (sortKey C b) := pySorted_sorted (cmpLt_agrees C) h
  by_cases h2 : 2 ≤ ts.length
  · refine hs.imp_of_mem fun {a b} ha hb hk => ?_
    obtain ⟨k, hka⟩ := seen_nwf (pySorted_seen h h2 a (hp.mem_iff.1 ha))
    obtain ⟨l, hlb⟩ := seen_nwf (pySorted_seen h h2 b (hp.mem_iff.1 hb))
    exact before_of_key hka hlb hk
  · have : s.length ≤ 1 := by rw [hp.length_eq]; omega
    match s, this with
    | [], _ => exact List.Pairwise.nil
    | [a], _ => exact List.pairwise_singleton _ _

theorem constDepth_acc {c : Expr} (h : c.isAcc = true) : constDepth c ≤ 2 := by
  cases c <;> first | (cases h; done) | decide +revert | (simp only [constDepth]; omega)

theorem constDepth_not_acc {t : Expr} (h : t.isAcc = false) : 2 ≤ constDepth t := by
  cases t <;> first | (cases h; done) | (simp only [constDepth]; omega)

theorem symDepth_acc {c : Expr} (h : c.isAcc = true) : symDepth c = 0 := by
  cases c <;> first | (cases h; done) | simp only [symDepth]

/-- A number may stand before every other term. -/
theorem before_acc {c t : Expr} (hc : c.isAcc = true) (ht : t.isAcc = false) : Before c t := by
  have h := symDepth_acc hc
  rcases Nat.eq_zero_or_pos (symDepth t) with h0 | h0
  · refine .inr ⟨by rw [h, h0], ?_⟩
    rw [if_pos h]
    exact (constDepth_acc hc).trans (constDepth_not_acc ht)
  · exact .inl (by rw [h]; exact h0)

theorem orderedL_iff : ∀ {ts : List Expr}, OrderedL ts ↔ ∀ t ∈ ts, Ordered t
  | [] => by simp [OrderedL]
  | t :: r => by simp [OrderedL, orderedL_iff (ts := r)]

end Simpy
