import Verif.Proofs.VisitSound
import Verif.Proofs.Comm
import Verif.Proofs.FactorSound
import Verif.Spec.Pyth

/-! The rules of `_pythagorean_perform`. -/

namespace Simpy
open Expr

variable {O : Oracle}

/-! ### Removing one factor by division -/

theorem combineProdLoop_fuel {C : Ctors} : ∀ (n m : Nat) (fs : List Expr), fs.length ≤ n → fs.length ≤ m →
    combineProdLoop O C n fs = combineProdLoop O C m fs
  | 0, m, fs, hn, _ => by
    have : fs = [] := List.length_eq_zero_iff.1 (by omega)
    subst this; cases m <;> rfl
  | n + 1, 0, fs, _, hm => by
    have : fs = [] := List.length_eq_zero_iff.1 (by omega)
    subst this; rfl
  | n + 1, m + 1, [], _, _ => rfl
  | n + 1, m + 1, t :: r, hn, hm => by
    have h1 : r.length ≤ n := by simp at hn; omega
    have h2 : r.length ≤ m := by simp at hm; omega
    have hl := List.length_filter_le (fun u => !beq O (deconPow u).1 (deconPow t).1) r
    unfold combineProdLoop
    dsimp only
    rw [combineProdLoop_fuel n m _ (hl.trans h1) (hl.trans h2)]

theorem beq_iff (hO : O.Exact) {a b : Expr} (ha : NoFlt a) (hb : NoFlt b) : beq O a b = true ↔ a = b :=
  ⟨beq_eq hO.isPi hO.isE _ _ ha hb, fun h => h ▸ beq_refl _ ha⟩

theorem beq_decide (hO : O.Exact) {a b : Expr} (ha : NoFlt a) (hb : NoFlt b) : beq O a b = decide (a = b) := by
  by_cases h : a = b
  · rw [(beq_iff hO ha hb).2 h]; simp [h]
  · rw [decide_eq_false h, Bool.eq_false_iff]; exact fun hb' => h ((beq_iff hO ha hb).1 hb')

theorem filter_base (hO : O.Exact) {fs : List Expr} (hf : ∀ t ∈ fs, NoFlt t) {k : Expr} (hk : NoFlt k) :
    fs.filter (fun u => beq O (deconPow u).1 k) = fs.filter (fun u => decide ((deconPow u).1 = k)) ∧
      fs.filter (fun u => !beq O (deconPow u).1 k) = fs.filter (fun u => decide ((deconPow u).1 ≠ k)) := by
  constructor <;> refine List.filter_congr fun u hu => ?_ <;> rw [beq_decide hO (deconPow_noFlt (hf u hu)) hk]
  simp

/-- A group of two opposite powers disappears. -/
theorem combineProdLoop_drop (hO : O.Exact) {C : Ctors} {B g1 g2 : Expr} {p : ℚ} (e1 : (deconPow g1).2 = rat p)
    (e2 : (deconPow g2).2 = rat (-p)) : ∀ (n m : Nat) (fs : List Expr), fs.length ≤ n → fs.length ≤ m →
      (∀ t ∈ fs, NoFlt t) → fs.filter (fun u => decide ((deconPow u).1 = B)) = [g1, g2] →
      combineProdLoop O C n fs = combineProdLoop O C m (fs.filter (fun u => decide ((deconPow u).1 ≠ B)))
  | 0, m, fs, hn, hm, hf, hB => by
    have : fs = [] := List.length_eq_zero_iff.1 (by omega)
    subst this; simp at hB
  | n + 1, m, [], hn, hm, hf, hB => by simp at hB
  | n + 1, 0, t :: r, hn, hm, hf, hB => by simp at hm
  | n + 1, m + 1, t :: r, hn, hm, hf, hB => by
    have h1 : r.length ≤ n := by simp at hn; omega
    have h2 : r.length ≤ m := by simp at hm; omega
    have hfr : ∀ u ∈ r, NoFlt u := fun u hu => hf u (by simp [hu])
    have ht : NoFlt (deconPow t).1 := deconPow_noFlt (hf t (by simp))
    obtain ⟨f1, f2⟩ := filter_base hO hfr ht
    have hl := fun (k : Expr) => List.length_filter_le (fun u => decide ((deconPow u).1 ≠ k)) r
    rw [combineProdLoop]
    dsimp only
    rw [f1, f2]
    by_cases hb : (deconPow t).1 = B
    · rw [List.filter_cons_of_pos (by simpa using hb)] at hB
      injection hB with ha hb'
      subst ha
      rw [List.filter_cons_of_neg (by simpa using hb), hb, hb', e1]
      simp only [List.isEmpty_cons, Bool.false_eq_true, if_false, List.map_cons, List.map_nil, foldAdd, e2, opAdd,
        add_neg_cancel, bind, Except.bind, likeFactor, beq, beq_self_eq_true, if_true]
      rw [combineProdLoop_fuel n (m + 1) _ ((hl _).trans h1) ((hl _).trans (by omega))]
      rcases combineProdLoop O C (m + 1) _ with _ | ⟨a, b⟩ <;> rfl
    · rw [List.filter_cons_of_neg (by simpa using hb)] at hB
      rw [List.filter_cons_of_pos (by simpa using hb)]
      have hfB : ∀ u ∈ r.filter (fun u => decide ((deconPow u).1 ≠ B)), NoFlt u := fun u hu =>
        hfr u (List.mem_of_mem_filter hu)
      obtain ⟨g1', g2'⟩ := filter_base hO hfB ht
      rw [combineProdLoop]
      dsimp only
      rw [g1', g2']
      have k1 : (r.filter (fun u => decide ((deconPow u).1 ≠ B))).filter (fun u => decide ((deconPow u).1 = (deconPow t).1)) =
          r.filter (fun u => decide ((deconPow u).1 = (deconPow t).1)) := by
        rw [List.filter_filter]
        refine List.filter_congr fun u _ => ?_
        by_cases h : (deconPow u).1 = (deconPow t).1
        · simp [h, hb]
        · simp [h]
      have k2 : (r.filter (fun u => decide ((deconPow u).1 ≠ B))).filter (fun u => decide ((deconPow u).1 ≠ (deconPow t).1)) =
          (r.filter (fun u => decide ((deconPow u).1 ≠ (deconPow t).1))).filter (fun u => decide ((deconPow u).1 ≠ B)) := by
        rw [List.filter_filter, List.filter_filter]
        exact List.filter_congr fun u _ => Bool.and_comm ..
      rw [k1, k2]
      rw [combineProdLoop_drop hO e1 e2 n m (r.filter (fun u => decide ((deconPow u).1 ≠ (deconPow t).1)))
        ((hl _).trans h1) ((hl _).trans h2) (fun u hu => hfr u (List.mem_of_mem_filter hu)) ?_]
      rw [List.filter_filter, ← hB]
      refine List.filter_congr fun u _ => ?_
      by_cases h : (deconPow u).1 = B
      · simp [h, Ne.symm hb]
      · simp [h]

theorem pow_trig_rat {n : Nat} {f : TrigFn} {i r : Expr} {q : ℚ} (h0 : q ≠ 0) (h1 : q ≠ 1)
    (h : (ctors O n).pow (trig f i) (rat q) = .ok r) : r = pow (trig f i) (rat q) := by
  cases n with
  | zero => simp [ctors] at h
  | succ n =>
    change powCtor O (ctors O n) (trig f i) (rat q) = _ at h
    unfold powCtor at h
    rw [if_neg (by simp [beq, h0]), if_neg (by simp [beq, h1]), if_neg (by simp [beq])] at h
    simp only [isAcc, Bool.false_and, Bool.false_eq_true, if_false, powLog, powTail, isSubtraction, powInf, numericBase,
      isNum] at h
    cases h; rfl

theorem pow_square_inv {n : Nat} {f : TrigFn} {i r : Expr} (h : (ctors O n).pow (pow (trig f i) (rat 2)) (rat (-1)) = .ok r) :
    r = pow (trig f i) (rat (-2)) := by
  cases n with
  | zero => simp [ctors] at h
  | succ n =>
    change powCtor O (ctors O n) (pow (trig f i) (rat 2)) (rat (-1)) = _ at h
    unfold powCtor at h
    rw [if_neg (by simp [beq]), if_neg (by simp [beq]; norm_num), if_neg (by simp [beq])] at h
    simp only [isAcc, Bool.false_and, Bool.false_eq_true, if_false, multiplyExponents] at h
    rw [if_pos (by decide +kernel), if_neg (by norm_num), if_neg (by norm_num)] at h
    simp only [opMul, bind, Except.bind, opPow] at h
    exact (pow_trig_rat (by norm_num) (by norm_num) h).trans (by norm_num)

theorem perm_filter_ne {B f : Expr} (hB : (deconPow f).1 = B) : ∀ {ts : List Expr},
    ts.filter (fun u => decide ((deconPow u).1 = B)) = [f] → ts.Perm (f :: ts.filter (fun u => decide ((deconPow u).1 ≠ B)))
  | ts, h => by
    have hp := List.filter_append_perm (fun u : Expr => decide ((deconPow u).1 = B)) ts
    rw [h] at hp
    refine hp.symm.trans ?_
    simp

/-- Dividing a flat product by its only factor with a given squared function as base leaves the product of the others. -/
theorem opDiv_cancel (hO : O.Exact) {n : Nat} {g : TrigFn} {i c : Expr} {ts : List Expr} (hf : ∀ t ∈ ts, NoFlt t)
    (hi : NoFlt i) (hp : ∀ t ∈ ts, t.isProd = false)
    (h1 : ts.filter (fun u => decide ((deconPow u).1 = trig g i)) = [pow (trig g i) (rat 2)])
    (h : opDiv (ctors O n) (prod ts) (pow (trig g i) (rat 2)) = .ok c) :
    (ctors O n).prod (ts.filter (fun u => decide ((deconPow u).1 ≠ trig g i))) = .ok c := by
  cases n with
  | zero => simp [opDiv, ctors, bind, Except.bind] at h
  | succ n =>
    simp only [opDiv] at h
    obtain ⟨w, hw, h⟩ := bind_ok.1 h
    have := pow_square_inv hw
    subst this
    change prodCtor O (ctors O n) [prod ts, pow (trig g i) (rat (-2))] = .ok c at h
    change prodCtor O (ctors O n) _ = .ok c
    unfold prodCtor at h ⊢
    have hflat : flatPL [prod ts, pow (trig g i) (rat (-2))] = ts ++ [pow (trig g i) (rat (-2))] := by
      simp [flatPL, flatP, flatPL_id hp]
    rw [hflat] at h
    rw [flatPL_id fun t ht => hp t (List.mem_of_mem_filter ht)]
    have hc : combineProd O (ctors O n) (ts ++ [pow (trig g i) (rat (-2))]) =
        combineProd O (ctors O n) (ts.filter (fun u => decide ((deconPow u).1 ≠ trig g i))) := by
      unfold combineProd
      rw [combineProdLoop_drop hO (B := trig g i) (g1 := pow (trig g i) (rat 2)) (g2 := pow (trig g i) (rat (-2))) (p := 2) rfl rfl
        _ (ts ++ [pow (trig g i) (rat (-2))]).length _ le_rfl le_rfl ?_ ?_]
      · have e : (ts ++ [pow (trig g i) (rat (-2))]).filter (fun u => decide ((deconPow u).1 ≠ trig g i)) =
            ts.filter (fun u => decide ((deconPow u).1 ≠ trig g i)) := by
          rw [List.filter_append]; simp [deconPow]
        rw [e, combineProdLoop_fuel _ (ts.filter (fun u => decide ((deconPow u).1 ≠ trig g i))).length _ ?_ le_rfl]
        exact (List.length_filter_le _ _).trans (by simp)
      · intro t ht
        rcases List.mem_append.1 ht with ht | ht
        · exact hf t ht
        · simp at ht; subst ht; simp [NoFlt, hi]
      · rw [List.filter_append, h1]; simp [deconPow]
    rw [hc] at h
    exact h

/-! ### sin² + cos² -/

theorem squareOf_some (hO : O.Exact) {st : Bool} {ρ : Str → ℝ} {fs : List TrigFn} {t i : Expr} (d : DomS st ρ t)
    (h : squareOf O fs t = some i) : ∃ f, f ∈ fs ∧ t = pow (trig f i) (rat 2) := by
  unfold squareOf at h
  split at h
  · rename_i f j x
    split at h
    · rename_i hc
      cases h
      simp only [Bool.and_eq_true, List.contains_iff_mem] at hc
      have : x = rat 2 := Exact.beq_eq hO (ρ := ρ) (s := st) (by simp only [DomS] at d; exact d.2.1) (by simp) hc.1
      subst this
      exact ⟨f, hc.2, rfl⟩
    · cases h
  · cases h

theorem filter_unique {p : Expr → Bool} {ts : List Expr} (h : (ts.filter p).length ≤ 1) {a b : Expr} (ha : a ∈ ts) (hb : b ∈ ts)
    (pa : p a = true) (pb : p b = true) : a = b := by
  have h1 : a ∈ ts.filter p := List.mem_filter.2 ⟨ha, pa⟩
  have h2 : b ∈ ts.filter p := List.mem_filter.2 ⟨hb, pb⟩
  match hl : ts.filter p with
  | [] => rw [hl] at h1; simp at h1
  | [c] => rw [hl] at h1 h2; simp at h1 h2; rw [h1, h2]
  | c :: c' :: l => rw [hl] at h; simp at h

theorem squareFactor_some {C : Ctors} {fs : List TrigFn} {t i c : Expr} : ∀ {ts : List Expr},
    squareFactor O C fs t ts = .ok (some (i, c)) → ∃ f ∈ ts, squareOf O fs f = some i ∧ opDiv C t f = .ok c
  | [], h => by simp [squareFactor] at h
  | f :: r, h => by
    unfold squareFactor at h
    split at h
    · rename_i j hj
      obtain ⟨c', hc, h⟩ := bind_ok.1 h
      cases pure_ok.1 h
      exact ⟨f, by simp, hj, hc⟩
    · obtain ⟨f', hf, h⟩ := squareFactor_some h
      exact ⟨f', by simp [hf], h⟩

theorem squareFactor_none {C : Ctors} {fs : List TrigFn} {t : Expr} : ∀ {ts : List Expr},
    squareFactor O C fs t ts = .ok none → ∀ f ∈ ts, squareOf O fs f = none
  | [], h => by simp
  | f :: r, h => by
    unfold squareFactor at h
    split at h
    · obtain ⟨c', hc, h⟩ := bind_ok.1 h
      cases pure_ok.1 h
    · rename_i hn
      have := squareFactor_none h
      intro g hg
      rcases List.mem_cons.1 hg with rfl | hg
      · exact hn
      · exact this g hg

/-- The factor found in a term. -/
theorem thing_some {C : Ctors} {fs : List TrigFn} {t i c : Expr} (h : thingSquared O C fs t = .ok (some (i, c))) :
    ∃ f ∈ scFactors t, squareOf O fs f = some i ∧ (f = t ∧ c = rat 1 ∨ opDiv C t f = .ok c ∧ ∃ ts, t = prod ts) := by
  unfold thingSquared at h
  split at h
  · rename_i j hj
    cases h
    refine ⟨t, ?_, hj, .inl ⟨rfl, rfl⟩⟩
    cases t <;> simp [squareOf] at hj
    simp [scFactors]
  · split at h
    · obtain ⟨f, hf, h1, h2⟩ := squareFactor_some h
      exact ⟨f, hf, h1, .inr ⟨h2, _, rfl⟩⟩
    · cases h

theorem thing_none {C : Ctors} {fs : List TrigFn} {t : Expr} (h : thingSquared O C fs t = .ok none) :
    ∀ f ∈ scFactors t, squareOf O fs f = none := by
  unfold thingSquared at h
  split at h
  · cases h
  · rename_i hn
    split at h
    · exact squareFactor_none h
    · rename_i hne
      intro f hf
      unfold scFactors at hf
      split at hf
      · rename_i ts; exact absurd rfl (hne ts)
      · simp at hf; rw [hf]; exact hn

theorem squareOf_isSc (hO : O.Exact) {st : Bool} {ρ : Str → ℝ} {fs : List TrigFn} (hfs : ∀ f ∈ fs, f = .sin ∨ f = .cos) {t i : Expr}
    (d : DomS st ρ t) (h : squareOf O fs t = some i) : isScSquare t = true := by
  obtain ⟨f, hf, rfl⟩ := squareOf_some hO d h
  rcases hfs f hf with rfl | rfl <;> simp [isScSquare]

theorem scFactors_dom {st : Bool} {ρ : Str → ℝ} {t f : Expr} (d : DomS st ρ t) (h : f ∈ scFactors t) : DomS st ρ f := by
  unfold scFactors at h
  split at h
  · exact Dom_prod.1 d f h
  · simp at h; rw [h]; exact d

theorem scTerm_len {t : Expr} (h : scTerm t = true) : ((scFactors t).filter isScSquare).length ≤ 1 := by
  unfold scTerm at h
  simp only [Bool.and_eq_true, decide_eq_true_eq] at h
  exact h.1

/-- The two searches do not both succeed, and the joint search finds what one of them finds. -/
theorem thing_joint (hO : O.Exact) {C : Ctors} {st : Bool} {ρ : Str → ℝ} {t : Expr} (d : DomS st ρ t) (ht : scTerm t = true)
    {a b k : Option (Expr × Expr)} (h1 : thingSquared O C [.sin] t = .ok a) (h2 : thingSquared O C [.cos] t = .ok b)
    (h3 : thingSquared O C [.sin, .cos] t = .ok k) : (a = none ∨ b = none) ∧ k = a.or b := by
  have hl := scTerm_len ht
  have sq : ∀ {fs : List TrigFn} (hfs : ∀ f ∈ fs, f = .sin ∨ f = .cos) {f i}, f ∈ scFactors t → squareOf O fs f = some i →
      isScSquare f = true := fun hfs _ _ hf h => squareOf_isSc hO hfs (scFactors_dom d hf) h
  have same : ∀ {f g i j}, squareOf O [.sin] f = some i → squareOf O [.cos] g = some j → f ∈ scFactors t → g ∈ scFactors t →
      False := by
    intro f g i j hf hg mf mg
    have e := filter_unique hl mf mg (sq (by simp) mf hf) (sq (by simp) mg hg)
    obtain ⟨f1, m1, e1⟩ := squareOf_some hO (scFactors_dom d mf) hf
    obtain ⟨f2, m2, e2⟩ := squareOf_some hO (scFactors_dom d mg) hg
    simp at m1 m2
    subst m1 m2
    rw [e1, e2] at e
    simp at e
  have both : ∀ {f i}, f ∈ scFactors t → squareOf O [.sin, .cos] f = some i →
      squareOf O [.sin] f = some i ∨ squareOf O [.cos] f = some i := by
    intro f i mf h
    obtain ⟨f1, m1, e1⟩ := squareOf_some hO (scFactors_dom d mf) h
    subst e1
    simp at m1
    rcases m1 with rfl | rfl <;> simp [squareOf, beq]
  have one : ∀ {g : TrigFn} {f i}, (g = .sin ∨ g = .cos) → f ∈ scFactors t → squareOf O [g] f = some i →
      squareOf O [.sin, .cos] f = some i := by
    intro g f i hg mf h
    obtain ⟨f1, m1, e1⟩ := squareOf_some hO (scFactors_dom d mf) h
    subst e1
    simp at m1
    subst m1
    rcases hg with rfl | rfl <;> simp [squareOf, beq]
  have agree : ∀ {g : TrigFn} {i c}, (g = .sin ∨ g = .cos) → thingSquared O C [g] t = .ok (some (i, c)) → k = some (i, c) := by
    intro g i c hg h
    obtain ⟨f, mf, sf, cf⟩ := thing_some h
    match k, h3 with
    | none, h3 =>
      have := thing_none h3 f mf
      rw [one hg mf sf] at this
      cases this
    | some (j, c'), h3 =>
      obtain ⟨f', mf', sf', cf'⟩ := thing_some h3
      have e := filter_unique hl mf mf' (sq (by simpa using hg) mf sf) (sq (by simp) mf' sf')
      subst e
      rw [one hg mf sf] at sf'
      injection sf' with sf'
      subst sf'
      rcases cf with ⟨e1, e2⟩ | ⟨e1, ts, e2⟩ <;> rcases cf' with ⟨e1', e2'⟩ | ⟨e1', ts', e2'⟩
      · rw [e2, e2']
      · obtain ⟨f1, m1, e3⟩ := squareOf_some hO (scFactors_dom d mf) sf
        rw [← e1, e3] at e2'; cases e2'
      · obtain ⟨f1, m1, e3⟩ := squareOf_some hO (scFactors_dom d mf) sf
        rw [← e1', e3] at e2; cases e2
      · rw [e1] at e1'; injection e1' with e1'; rw [e1']
  match a, b, h1, h2 with
  | none, none, h1, h2 =>
    refine ⟨.inl rfl, ?_⟩
    match k, h3 with
    | none, _ => rfl
    | some (i, c), h3 =>
      obtain ⟨f, mf, sf, -⟩ := thing_some h3
      rcases both mf sf with h | h
      · rw [thing_none h1 f mf] at h; cases h
      · rw [thing_none h2 f mf] at h; cases h
  | some (i, c), none, h1, h2 => exact ⟨.inr rfl, agree (.inl rfl) h1⟩
  | none, some (i, c), h1, h2 => exact ⟨.inl rfl, agree (.inr rfl) h2⟩
  | some (i, c), some (j, c'), h1, h2 =>
    obtain ⟨f, mf, sf, -⟩ := thing_some h1
    obtain ⟨g, mg, sg, -⟩ := thing_some h2
    exact (same sf sg mf mg).elim

/-- The value of a term with a squared sine or cosine. -/
theorem thing_value (hO : O.Exact) {n : Nat} {st : Bool} {ρ : Str → ℝ} {t : Expr} (w : WF t) (d : DomS st ρ t)
    (ht : scTerm t = true) {g : TrigFn} (hg : g = .sin ∨ g = .cos) {i c : Expr}
    (h : thingSquared O (ctors O n) [g] t = .ok (some (i, c))) :
    Val st ρ c (den ρ c) ∧ DomS st ρ i ∧ den ρ t = den ρ c * (g.real (den ρ i)) ^ 2 := by
  obtain ⟨f, mf, sf, cf⟩ := thing_some h
  have hsc := squareOf_isSc hO (by simpa using hg) (scFactors_dom d mf) sf
  obtain ⟨f1, m1, e⟩ := squareOf_some hO (scFactors_dom d mf) sf
  simp at m1
  subst m1
  have di : DomS st ρ i := by
    have := scFactors_dom d mf
    rw [e] at this
    simp only [DomS] at this
    exact this.1.1
  have v2 : den ρ f = (f1.real (den ρ i)) ^ 2 := by
    rw [e]
    have : den ρ (rat 2) = ((2 : ℤ) : ℝ) := by simp
    rw [den, this, pw_int, den]; norm_cast
  rcases cf with ⟨e1, rfl⟩ | ⟨hd, ts, rfl⟩
  · subst e1
    exact ⟨Val.rat 1, di, by rw [v2]; simp⟩
  · have wts := WF_prod.1 w
    have dts := Dom_prod.1 d
    simp only [scFactors] at mf
    subst e
    unfold scTerm at ht
    simp only [Bool.and_eq_true, List.all_eq_true, Bool.not_eq_true', Bool.or_eq_true, beq_iff_eq] at ht
    have hl := (ht.2.2 _ mf).resolve_left (by simp [hsc])
    have hf1 : ts.filter (fun u => decide ((deconPow u).1 = trig f1 i)) = [pow (trig f1 i) (rat 2)] := by
      obtain ⟨a, ha⟩ := List.length_eq_one_iff.1 hl
      change ts.filter (fun u => decide ((deconPow u).1 = trig f1 i)) = [a] at ha
      have : pow (trig f1 i) (rat 2) ∈ ts.filter (fun u => decide ((deconPow u).1 = trig f1 i)) :=
        List.mem_filter.2 ⟨mf, by simp [deconPow]⟩
      rw [ha] at this
      simp at this
      rw [ha, this]
    have hc := opDiv_cancel hO (fun t ht => (dts t ht).noFlt) di.noFlt ht.2.1 hf1 hd
    have hS := ctors_sound hO n
    have ws : ∀ t ∈ ts.filter (fun u => decide ((deconPow u).1 ≠ trig f1 i)), WF t := fun t ht => wts.2 t (List.mem_of_mem_filter ht)
    obtain ⟨v, dc⟩ := hS.prod ρ _ _ ws (fun t ht => dts t (List.mem_of_mem_filter ht)) hc
    refine ⟨⟨hS.prodW _ _ ws hc, dc, rfl⟩, di, ?_⟩
    have hp := perm_filter_ne (f := pow (trig f1 i) (rat 2)) (by simp [deconPow]) hf1
    rw [den_prod, (hp.map (den ρ)).prod_eq, List.map_cons, List.prod_cons, v, v2, mul_comm]

/-- A pair without floats. -/
def PairF (p : Expr × Expr) : Prop := NoFlt p.1 ∧ NoFlt p.2

theorem beq2_iff (hO : O.Exact) {p q : Expr × Expr} (hp : PairF p) (hq : PairF q) : beq2 O p q = true ↔ p = q := by
  obtain ⟨a, b⟩ := p
  obtain ⟨c, d⟩ := q
  simp [beq2, beq_iff hO hp.1 hq.1, beq_iff hO hp.2 hq.2]

theorem inPairs_iff (hO : O.Exact) {p : Expr × Expr} (hp : PairF p) {l : List (Option (Expr × Expr))}
    (hl : ∀ q ∈ l.filterMap id, PairF q) : inPairs O p l = true ↔ p ∈ l.filterMap id := by
  unfold inPairs
  rw [List.any_eq_true, List.mem_filterMap]
  constructor
  · rintro ⟨o, ho, h⟩
    match o, h with
    | some q, h =>
      exact ⟨some q, ho, by simp [(beq2_iff hO (hl q (List.mem_filterMap.2 ⟨_, ho, rfl⟩)) hp).1 h]⟩
  · rintro ⟨o, ho, h⟩
    simp at h
    subst h
    exact ⟨some p, ho, by simp [(beq2_iff hO hp hp)]⟩

/-- What a pair stands for. -/
noncomputable def pairVal (ρ : Str → ℝ) (g : TrigFn) (p : Expr × Expr) : ℝ := den ρ p.2 * (g.real (den ρ p.1)) ^ 2

theorem mapR_cons' {α β : Type} {f : α → R β} {a : α} {l : List α} {r : List β} (h : mapR f (a :: l) = .ok r) :
    ∃ b bs, f a = .ok b ∧ mapR f l = .ok bs ∧ r = b :: bs := by
  simp only [mapR] at h
  cases h1 : f a with
  | error e => simp [h1] at h
  | ok b =>
    cases h2 : mapR f l with
    | error e => simp [h1, h2] at h
    | ok bs => simp [h1, h2] at h; exact ⟨b, bs, rfl, rfl, h.symm⟩

theorem otherTerms_val (hO : O.Exact) {n : Nat} {st : Bool} {ρ : Str → ℝ} {both : List (Expr × Expr)} (hb : ∀ p ∈ both, PairF p) :
    ∀ {ts us : List Expr} {s c : List (Option (Expr × Expr))}, (∀ t ∈ ts, WF t) → (∀ t ∈ ts, DomS st ρ t) →
      (∀ t ∈ ts, scTerm t = true) → mapR (thingSquared O (ctors O n) [.sin]) ts = .ok s →
      mapR (thingSquared O (ctors O n) [.cos]) ts = .ok c → otherTerms O (ctors O n) both ts = .ok us →
      (∀ p ∈ s.filterMap id, PairF p ∧ WF p.2 ∧ DomS st ρ p.2) ∧ (∀ p ∈ c.filterMap id, PairF p ∧ WF p.2 ∧ DomS st ρ p.2) ∧
      (∀ t ∈ us, t ∈ ts) ∧
      (ts.map (den ρ)).sum = (us.map (den ρ)).sum +
        ((((s.filterMap id).filter (fun p => decide (p ∈ both))).map (pairVal ρ .sin)).sum +
        (((c.filterMap id).filter (fun p => decide (p ∈ both))).map (pairVal ρ .cos)).sum)
  | [], us, s, c, _, _, _, hs, hc, hu => by
    cases hs; cases hc
    simp only [otherTerms] at hu
    cases hu
    simp
  | t :: r, us, s, c, w, d, hok, hs, hc, hu => by
    obtain ⟨a, as, ha, has, rfl⟩ := mapR_cons' hs
    obtain ⟨b, bs, hb', hbs, rfl⟩ := mapR_cons' hc
    rw [otherTerms] at hu
    obtain ⟨k, hk, hu⟩ := bind_ok.1 hu
    obtain ⟨vs, hvs, hu⟩ := bind_ok.1 hu
    obtain ⟨i1, i2, i3, i4⟩ := otherTerms_val hO hb (fun t ht => w t (by simp [ht])) (fun t ht => d t (by simp [ht]))
      (fun t ht => hok t (by simp [ht])) has hbs hvs
    have wt := w t (by simp)
    have dt := d t (by simp)
    have ot := hok t (by simp)
    obtain ⟨j1, j2⟩ := thing_joint hO dt ot ha hb' hk
    have va : ∀ i e, a = some (i, e) → Val st ρ e (den ρ e) ∧ DomS st ρ i ∧ den ρ t = pairVal ρ .sin (i, e) := by
      rintro i e rfl
      exact thing_value hO wt dt ot (.inl rfl) ha
    have vb : ∀ i e, b = some (i, e) → Val st ρ e (den ρ e) ∧ DomS st ρ i ∧ den ρ t = pairVal ρ .cos (i, e) := by
      rintro i e rfl
      exact thing_value hO wt dt ot (.inr rfl) hb'
    have hus := (pure_ok.1 hu)
    have hbm : ∀ q ∈ (both.map some).filterMap id, PairF q := by simpa using hb
    match a, b, j1, j2, va, vb with
    | none, none, _, j2, va, vb =>
      subst j2
      simp only [Option.or] at hus
      rw [← hus]
      refine ⟨by simpa using i1, by simpa using i2, ?_, ?_⟩
      · intro u hu
        rcases List.mem_cons.1 hu with rfl | hu
        · simp
        · simp [i3 u hu]
      · simp only [List.filterMap_cons_none (f := id) (a := none) rfl, List.map_cons, List.sum_cons, i4]
        ring
    | some (i, e), none, _, j2, va, vb =>
      subst j2
      simp only [Option.or] at hus
      obtain ⟨⟨we, de, -⟩, di, vt⟩ := va _ _ rfl
      have hp : PairF (i, e) := ⟨di.noFlt, de.noFlt⟩
      have hin := inPairs_iff hO hp hbm
      rw [List.filterMap_map] at hin
      simp at hin
      rw [← hus]
      refine ⟨?_, by simpa using i2, ?_, ?_⟩
      · intro p hp'
        rw [List.filterMap_cons_some (f := id) (b := (i, e)) rfl] at hp'
        rcases List.mem_cons.1 hp' with rfl | hp'
        · exact ⟨hp, we, de⟩
        · exact i1 p hp'
      · intro u hu
        split at hu
        · simp [i3 u hu]
        · rcases List.mem_cons.1 hu with rfl | hu
          · simp
          · simp [i3 u hu]
      · rw [List.filterMap_cons_some (f := id) (b := (i, e)) rfl, List.filterMap_cons_none (f := id) (a := none) rfl]
        by_cases hm : (i, e) ∈ both
        · rw [if_pos (hin.2 hm), List.filter_cons_of_pos (by simpa using hm)]
          simp only [List.map_cons, List.sum_cons, i4, vt]
          ring
        · rw [if_neg (fun h => hm (hin.1 h)), List.filter_cons_of_neg (by simpa using hm)]
          simp only [List.map_cons, List.sum_cons, i4]
          ring
    | none, some (i, e), _, j2, va, vb =>
      subst j2
      simp only [Option.or] at hus
      obtain ⟨⟨we, de, -⟩, di, vt⟩ := vb _ _ rfl
      have hp : PairF (i, e) := ⟨di.noFlt, de.noFlt⟩
      have hin := inPairs_iff hO hp hbm
      rw [List.filterMap_map] at hin
      simp at hin
      rw [← hus]
      refine ⟨by simpa using i1, ?_, ?_, ?_⟩
      · intro p hp'
        rw [List.filterMap_cons_some (f := id) (b := (i, e)) rfl] at hp'
        rcases List.mem_cons.1 hp' with rfl | hp'
        · exact ⟨hp, we, de⟩
        · exact i2 p hp'
      · intro u hu
        split at hu
        · simp [i3 u hu]
        · rcases List.mem_cons.1 hu with rfl | hu
          · simp
          · simp [i3 u hu]
      · rw [List.filterMap_cons_some (f := id) (b := (i, e)) rfl, List.filterMap_cons_none (f := id) (a := none) rfl]
        by_cases hm : (i, e) ∈ both
        · rw [if_pos (hin.2 hm), List.filter_cons_of_pos (by simpa using hm)]
          simp only [List.map_cons, List.sum_cons, i4, vt]
          ring
        · rw [if_neg (fun h => hm (hin.1 h)), List.filter_cons_of_neg (by simpa using hm)]
          simp only [List.map_cons, List.sum_cons, i4]
          ring
    | some (i, e), some (i', e'), j1, _, _, _ => simp at j1

/-- `_pythagorean_perform`, first rule. -/
theorem sinCos_value (hO : O.Exact) {n : Nat} {st : Bool} {ρ : Str → ℝ} {ts us : List Expr} {both : List (Expr × Expr)} {r : Expr}
    (w : ∀ t ∈ ts, WF t) (d : ∀ t ∈ ts, DomS st ρ t) (hok : ∀ t ∈ ts, scTerm t = true)
    (hdiff : pairsDiffer O (ctors O n) ts = true) (hb : sinCosPairs O (ctors O n) ts = .ok both)
    (hu : otherTerms O (ctors O n) both ts = .ok us) (hr : (ctors O n).sum (us ++ both.map (·.2)) = .ok r) :
    Val st ρ r (ts.map (den ρ)).sum := by
  unfold sinCosPairs at hb
  obtain ⟨s, hs, hb⟩ := bind_ok.1 hb
  obtain ⟨c, hc, hb⟩ := bind_ok.1 hb
  have hb := pure_ok.1 hb
  unfold pairsDiffer at hdiff
  rw [hs, hc] at hdiff
  simp only [Bool.and_eq_true, decide_eq_true_eq] at hdiff
  obtain ⟨n1, n2⟩ := hdiff
  -- the pairs have no floats
  have hsF : (∀ p ∈ s.filterMap id, PairF p) ∧ ∀ p ∈ c.filterMap id, PairF p := by
    have key : ∀ {g : TrigFn} (_ : g = .sin ∨ g = .cos) {l : List (Option (Expr × Expr))},
        mapR (thingSquared O (ctors O n) [g]) ts = .ok l → ∀ p ∈ l.filterMap id, PairF p := by
      intro g hg l hl p hp
      obtain ⟨o, ho, h⟩ := List.mem_filterMap.1 hp
      simp at h
      subst h
      obtain ⟨t, ht, h⟩ := mapR_mem' hl _ ho
      obtain ⟨h1, h2, -⟩ := thing_value hO (w t ht) (d t ht) (hok t ht) hg (i := p.1) (c := p.2) h
      exact ⟨h2.noFlt, h1.2.1.noFlt⟩
    exact ⟨key (.inl rfl) hs, key (.inr rfl) hc⟩
  have hboth : both = (s.filterMap id).filter (fun p => decide (p ∈ c.filterMap id)) := by
    rw [← hb]
    refine List.filter_congr fun p hp => ?_
    rw [Bool.eq_iff_iff, inPairs_iff hO (hsF.1 p hp) hsF.2]; simp
  have hbm : ∀ p, p ∈ both ↔ p ∈ s.filterMap id ∧ p ∈ c.filterMap id := by
    intro p; rw [hboth, List.mem_filter]; simp
  obtain ⟨i1, i2, i3, i4⟩ := otherTerms_val hO (fun p hp => hsF.1 p ((hbm p).1 hp).1) w d hok hs hc hu
  have e1 : (s.filterMap id).filter (fun p => decide (p ∈ both)) = both := by
    conv_rhs => rw [hboth]
    refine List.filter_congr fun p hp => ?_
    simp only [hbm, decide_eq_decide]
    exact ⟨fun h => h.2, fun h => ⟨hp, h⟩⟩
  have e2 : ((c.filterMap id).filter (fun p => decide (p ∈ both))).Perm both := by
    refine (List.perm_ext_iff_of_nodup (n2.filter _) ?_).2 fun p => ?_
    · rw [hboth]; exact n1.filter _
    · rw [List.mem_filter]
      simp only [decide_eq_true_eq, hbm]
      tauto
  rw [e1, (e2.map _).sum_eq] at i4
  have hS := ctors_sound hO n
  have wl : ∀ t ∈ us ++ both.map (·.2), WF t := by
    intro t ht
    rcases List.mem_append.1 ht with ht | ht
    · exact w t (i3 t ht)
    · obtain ⟨p, hp, rfl⟩ := List.mem_map.1 ht
      exact (i1 p ((hbm p).1 hp).1).2.1
  have dl : ∀ t ∈ us ++ both.map (·.2), DomS st ρ t := by
    intro t ht
    rcases List.mem_append.1 ht with ht | ht
    · exact d t (i3 t ht)
    · obtain ⟨p, hp, rfl⟩ := List.mem_map.1 ht
      exact (i1 p ((hbm p).1 hp).1).2.2
  obtain ⟨v, dr⟩ := hS.sum ρ _ _ wl dl hr
  refine ⟨hS.sumW _ _ wl hr, dr, ?_⟩
  rw [v, i4, List.map_append, List.sum_append, ← List.sum_map_add, List.map_map]
  congr 2
  refine List.map_congr_left fun p _ => ?_
  simp only [Function.comp, pairVal, TrigFn.real]
  rw [← mul_add, Real.sin_sq_add_cos_sq, mul_one]

end Simpy
