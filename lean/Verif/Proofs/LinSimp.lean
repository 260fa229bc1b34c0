import Verif.Proofs.LinTerms
import Verif.Proofs.SolSound

/-! # Lemmas: `simplify` returns on linear combinations of table functions, and changes no value -/

namespace Simpy
namespace Lin
open Expr

variable {O : Oracle} {C : Ctors} {v : Str} {u t e r : Expr} {P : Expr → Prop}

/-- No sine or cosine. -/
def NoTrig (u : Expr) : Prop := containsCls isPlainTrig u = false

/-- Not a negative power and not a logarithm. -/
def NoRecip (u : Expr) : Prop := containsCls isRecipPower u = false ∧ containsCls isLog u = false

/-- The same value, wherever the first is regular. -/
def Same (a b : Expr) : Prop := WF b ∧ ∀ ρ : Str → ℝ, DomS true ρ a → DomS true ρ b ∧ den ρ b = den ρ a

theorem Same.refl (h : WF e) : Same e e := ⟨h, fun _ d => ⟨d, rfl⟩⟩
theorem Same.trans {a b c : Expr} (h : Same a b) (k : Same b c) : Same a c :=
  ⟨k.1, fun ρ d => ⟨(k.2 ρ (h.2 ρ d).1).1, by rw [(k.2 ρ (h.2 ρ d).1).2, (h.2 ρ d).2]⟩⟩

theorem piece_wf (h : Piece v u) : WF u := by
  cases h with
  | exp h => have := h.wf; simp [WF, baseOk, this]
  | sin h _ => have := h.wf; simp [WF, this]
  | cos h _ => have := h.wf; simp [WF, this]
  | _ => simp [WF, baseOk]

theorem term_wf (h : Term v t) : WF t := by
  cases h with
  | const c => simp
  | unit h => exact piece_wf h
  | scaled c h =>
    have := piece_wf h
    simp [WF, WFL, List.filter, h.isAcc, this]
    simp [Expr.isAcc]

theorem comb_wf (h : Comb v e) : WF e := by
  rcases h with h | ⟨ts, rfl, _, h⟩
  · exact term_wf h
  · rw [WF]; exact (WFL_iff ts).2 fun t ht => term_wf (h t ht)

theorem same_scale (h : Piece v u) (c : ℚ) : Same (prod [rat c, u]) (scale c u) := by
  refine ⟨term_wf (scale_term h c), fun ρ d => ⟨?_, ?_⟩⟩
  · have : DomS true ρ u := by simpa [DomS, DomSL] using d
    unfold scale
    split
    · simp [DomS]
    · split
      · exact this
      · exact d
  · rw [den_scale]; simp [den, denP]

/-! ## Nothing to expand -/

theorem expandable_arg {L : Expr} (h : LinearArg v L) (n : Nat) : expandableE O (n + 4) L = .ok false := by
  have hm : ∀ m a, expandableE O (m + 3) (prod [rat a, sym v]) = .ok false := fun m a => by
    have hr : numDenTerm O (ctors O (m + 2)) (rat a) = .ok (if a.num ≠ 1 then [rat a.num] else [], if a.den ≠ 1 then [rat a.den] else []) := rfl
    have hs : numDenTerm O (ctors O (m + 2)) (sym v) = .ok ([sym v], []) := rfl
    have hnd : ∃ p q, numDen O (ctors O (m + 2)) [rat a, sym v] = .ok (p, q) ∧ q.isProd = false := by
      unfold numDen
      simp only [numDenLoop, hr, hs, bind, Except.bind, pure, Except.pure, List.append_nil]
      by_cases h1 : a.num = 1 <;> by_cases h2 : a.den = 1 <;> simp [h1, h2, mkProdSkip, Expr.isProd]
    obtain ⟨p, q, hpq, hq⟩ := hnd
    have h1 : expandableE O (m + 2) (rat a) = .ok false := rfl
    have h2 : expandableE O (m + 2) (sym v) = .ok false := rfl
    rw [expandableE]
    simp only [anyR, Expr.isSum, Bool.false_eq_true, if_false, h1, h2, bind, Except.bind, pure, Except.pure, hpq]
    cases q <;> first | rfl | cases hq
  cases h with
  | var => rfl
  | times a _ _ => exact hm (n + 1) a
  | plus b _ => rfl
  | both a b _ _ _ =>
    have h1 : expandableE O (n + 3) (rat b) = .ok false := rfl
    rw [expandableE]
    simp only [anyR, hm n a, h1, bind, Except.bind, Bool.false_eq_true, if_false]

theorem expandable_unit (h : Piece v u) (n : Nat) : expandableE O (n + 5) u = .ok false := by
  cases h with
  | exp h =>
    have he : expandableE O (n + 4) euler = .ok false := rfl
    rw [expandableE]
    simp only [powerExpandable, Bool.false_eq_true, if_false, he, expandable_arg h n, bind, Except.bind]
  | sin h _ => rw [expandableE]; exact expandable_arg h n
  | cos h _ => rw [expandableE]; exact expandable_arg h n
  | _ => simp [expandableE, powerExpandable, anyR, bind, Except.bind]

theorem numDen_shape (h : Piece v u) (a : ℚ) (n : Nat) : ∃ p q : Expr,
    numDen O (ctors O (n + 1)) [rat a, u] = .ok (p, q) ∧ (∀ us, q = prod us → us.any isSum = false) ∧
      (P u → (∀ u, P u → NoRecip u) → syms q = []) := by
  have hr : ∀ C, numDenTerm O C (rat a) = .ok (if a.num ≠ 1 then [rat a.num] else [], if a.den ≠ 1 then [rat a.den] else []) := fun _ => rfl
  have hnr : ∀ q : ℚ, ∀ us, rat q = prod us → us.any isSum = false := fun _ _ h => by cases h
  unfold numDen
  rcases numDen_piece (O := O) h with hp | ⟨q, hq, e, hp⟩
  · have hmk : mkProdSkip [u] = .ok u := by simp [mkProdSkip, h.isProd]
    simp only [numDenLoop, hp _, hr, bind, Except.bind, pure, Except.pure, List.append_nil]
    by_cases h1 : a.num = 1 <;> by_cases h2 : a.den = 1
    · exact ⟨u, rat 1, by simp [h1, h2, hmk]; rfl, hnr _, fun _ _ => rfl⟩
    · exact ⟨u, rat a.den, by simp [h1, h2, hmk]; rfl, hnr _, fun _ _ => rfl⟩
    · exact ⟨prod [rat a.num, u], rat 1, by simp [h1, h2, mkProdSkip], hnr _, fun _ _ => rfl⟩
    · exact ⟨prod [rat a.num, u], rat a.den, by simp [h1, h2, mkProdSkip, Expr.isProd], hnr _, fun _ _ => rfl⟩
  · have hw := varPow_piece (v := v) hq.ne'
    have hmk : mkProdSkip [varPow v q] = .ok (varPow v q) := by simp [mkProdSkip, hw.isProd]
    have hx : P u → (∀ u, P u → NoRecip u) → False := fun hP hall => by
      have := (hall u hP).1
      rw [e] at this
      simp [containsCls, isRecipPower, hq] at this
    have hvp : ∀ us, varPow v q = prod us → us.any isSum = false := fun us h => by
      have := hw.isProd; rw [h] at this; cases this
    have hs : ∀ us, prod [rat a.den, varPow v q] = prod us → us.any isSum = false := fun us h => by
      cases h; rw [List.any_cons, List.any_cons, hw.isSum]; rfl
    simp only [numDenLoop, hp _, hr, bind, Except.bind, pure, Except.pure, List.append_nil]
    by_cases h1 : a.num = 1 <;> by_cases h2 : a.den = 1
    · exact ⟨rat 1, varPow v q, by simp [h1, h2, hmk]; rfl, hvp, fun a b => (hx a b).elim⟩
    · exact ⟨rat 1, prod [rat a.den, varPow v q], by simp [h1, h2, mkProdSkip], hs, fun a b => (hx a b).elim⟩
    · exact ⟨rat a.num, varPow v q, by simp [h1, h2, hmk]; rfl, hvp, fun a b => (hx a b).elim⟩
    · exact ⟨rat a.num, prod [rat a.den, varPow v q], by simp [h1, h2, mkProdSkip, Expr.isProd], hs, fun a b => (hx a b).elim⟩

theorem expandable_term (h : Term v t) (n : Nat) : expandableE O (n + 6) t = .ok false := by
  cases h with
  | const c => rfl
  | unit h => exact expandable_unit h (n + 1)
  | scaled c h =>
    have hr : expandableE O (n + 5) (rat c) = .ok false := rfl
    have hrs : (rat c).isSum = false := rfl
    obtain ⟨p, q, hpq, hq, _⟩ := numDen_shape (O := O) (P := fun _ => True) h c (n + 4)
    rw [expandableE]
    simp only [anyR, hrs, h.isSum, Bool.false_eq_true, if_false, hr, expandable_unit h n, bind, Except.bind, pure, Except.pure, hpq]
    cases q <;> first | rfl | (dsimp only; rw [hq _ rfl])

theorem expandable_comb (h : Comb v e) (n : Nat) : expandableE O (n + 7) e = .ok false := by
  rcases h with h | ⟨ts, rfl, _, h⟩
  · exact expandable_term h (n + 1)
  · rw [expandableE]
    induction ts with
    | nil => rfl
    | cons t r ih =>
      simp only [anyR, expandable_term (O := O) (h t (by simp)) n, bind, Except.bind, Bool.false_eq_true, if_false]
      by_cases hr : r = []
      · subst hr; rfl
      · exact ih hr fun x hx => h x (by simp [hx])

theorem expandOr_comb (h : Comb v e) (n : Nat) : expandOr (expandableE O (n + 7)) (expandE O (n + 7)) e = .ok e := by
  simp [expandOr, expandable_comb h n, bind, Except.bind, pure, Except.pure]

/-! ## Replacing -/

theorem same_sum (hO : O.Exact) {ts us : List Expr} {S : Expr} {n : Nat} (h : List.Forall₂ Same ts us)
    (hS : (ctors O n).sum us = .ok S) : Same (sum ts) S := by
  have hC := ctors_sound hO n
  have hw : ∀ w ∈ us, WF w := by
    clear hS
    intro w hw
    induction h with
    | nil => cases hw
    | cons a _ ih => rcases List.mem_cons.1 hw with rfl | hw; exacts [a.1, ih hw]
  refine ⟨hC.sumW us S hw hS, fun ρ d => ?_⟩
  have hd : ∀ t ∈ ts, DomS true ρ t := by rw [DomS] at d; exact (DomSL_iff ρ ts).1 d
  have key : (∀ w ∈ us, DomS true ρ w) ∧ (us.map (den ρ)).sum = (ts.map (den ρ)).sum := by
    clear hS hw d hC
    induction h with
    | nil => simp
    | cons a _ ih =>
      have h1 := a.2 ρ (hd _ (by simp))
      have h2 := ih fun t ht => hd t (by simp [ht])
      refine ⟨?_, by simp [h1.2, h2.2]⟩
      intro w hw
      rcases List.mem_cons.1 hw with rfl | hw
      exacts [h1.1, h2.1 w hw]
  obtain ⟨hv, hd'⟩ := hC.sum ρ us S hw key.1 hS
  exact ⟨hd', by rw [hv, key.2]; simp [den, denS_eq]⟩

/-- A replacement that keeps the terms terms keeps combinations combinations. -/
theorem replace_comb (hO : O.Exact) (hv : v ≠ []) {perf : Nat → Expr → R Rep} {n : Nat}
    (hterm : ∀ t, PTerm v P t → ∃ t', replaceE O perf (n + 11) t = .ok t' ∧ PTerm v P t' ∧ Same t t')
    (hterm' : ∀ t, PTerm v P t → ∃ t', replaceE O perf (n + 12) t = .ok t' ∧ PTerm v P t' ∧ Same t t')
    (hsum : ∀ ts, (∀ t ∈ ts, PTerm v P t) → perf (n + 11) (sum ts) = .ok .pass ∨ perf (n + 11) (sum ts) = .ok .stop)
    (h : PComb v P e) : ∃ r, replaceE O perf (n + 12) e = .ok r ∧ PComb v P r ∧ Same e r := by
  rcases h with h | ⟨ts, rfl, hne, h⟩
  · obtain ⟨r, h1, h2, h3⟩ := hterm' e h
    exact ⟨r, h1, .inl h2, h3⟩
  · rcases hsum ts h with hp | hp
    · have : ∃ us, mapR (replaceE O perf (n + 11)) ts = .ok us ∧ (∀ w ∈ us, PTerm v P w) ∧ List.Forall₂ Same ts us := by
        clear hp hne
        induction ts with
        | nil => exact ⟨[], rfl, by simp, .nil⟩
        | cons t r ih =>
          obtain ⟨t', h1, h2, h3⟩ := hterm t (h t (by simp))
          obtain ⟨us, k1, k2, k3⟩ := ih fun x hx => h x (by simp [hx])
          refine ⟨t' :: us, by simp [mapR, h1, k1], ?_, .cons h3 k3⟩
          intro w hw
          rcases List.mem_cons.1 hw with rfl | hw
          exacts [h2, k2 w hw]
      obtain ⟨us, h1, h2, h3⟩ := this
      obtain ⟨S, hS, hc⟩ := sum_combs hO hv (ts := us) (fun w hw => .inl (h2 w hw)) n
      refine ⟨S, ?_, hc, same_sum hO h3 hS⟩
      rw [replaceE]
      simp only [hp, bind, Except.bind, h1]
      exact hS
    · refine ⟨sum ts, ?_, .inr ⟨ts, rfl, hne, h⟩, .refl ?_⟩
      · rw [replaceE]; simp only [hp, bind, Except.bind]
      · rw [WF]; exact (WFL_iff ts).2 fun t ht => term_wf (h t ht).term

/-! ## Logarithms -/

theorem ln_abs : ln O (absv (sym v)) = .ok (log (absv (sym v)) euler) := by
  rfl

theorem log_piece (h : Piece v u) (hP : NoTrig u) (n : Nat) : replaceE O (logPerf O) (n + 4) u = .ok u := by
  cases h with
  | var => rfl
  | power q h0 h1 =>
    simp [replaceE, logPerf, bind, Except.bind, pow_var (n + 2) h0 h1]
  | exp h =>
    have := h.replace_id (O := O) (perf := logPerf O) (fun _ _ => rfl) (fun _ _ => rfl) (fun _ => rfl) (fun _ _ => rfl) n
    have he : replaceE O (logPerf O) (n + 3) euler = .ok euler := rfl
    rw [replaceE]
    simp only [logPerf, bind, Except.bind, he, this]
    exact h.pow_euler _
  | sin _ _ => cases hP
  | cos _ _ => cases hP
  | lnabs => rfl

theorem log_term (hP : ∀ u, P u → NoTrig u) (h : PTerm v P t) (n : Nat) :
    ∃ t', replaceE O (logPerf O) (n + 5) t = .ok t' ∧ PTerm v P t' ∧ Same t t' := by
  rcases h with ⟨c, rfl⟩ | ⟨u, h, hp, rfl⟩ | ⟨c, u, h, hp, rfl⟩
  · exact ⟨rat c, rfl, .inl ⟨c, rfl⟩, .refl (by simp)⟩
  · exact ⟨_, log_piece h (hP _ hp) (n + 1), .inr (.inl ⟨_, h, hp, rfl⟩), .refl (piece_wf h)⟩
  · refine ⟨scale c u, ?_, pscale h hp c, same_scale h c⟩
    have hr : replaceE O (logPerf O) (n + 4) (rat c) = .ok (rat c) := rfl
    rw [replaceE]
    simp only [logPerf, bind, Except.bind, mapR, hr, log_piece h (hP _ hp) n]
    exact prod_rat_unit h c

theorem logPart_comb (hO : O.Exact) (hv : v ≠ []) (hP : ∀ u, P u → NoTrig u) (h : PComb v P e) (n : Nat) :
    ∃ r, logPart O (n + 12) e = .ok r ∧ PComb v P r ∧ Same e r := by
  unfold logPart
  split
  · obtain ⟨r, h1, h2, h3⟩ := replace_comb hO hv (perf := logPerf O) (n := n) (fun t ht => log_term hP ht (n + 6))
      (fun t ht => log_term hP ht (n + 7)) (fun ts _ => .inl rfl) h
    refine ⟨r, ?_, h2, h3⟩
    simp only [expandLogs, h1, bind, Except.bind]
    exact expandOr_comb h2.comb (n + 5)
  · exact ⟨e, rfl, h, .refl (comb_wf h.comb)⟩

/-! ## Trigonometry -/

/-- A term without a sine or cosine, or a number times one of them. -/
theorem trig_term (h : PTerm v P t) : containsCls isPlainTrig t = false ∨
    (∃ f L, (f = .sin ∨ f = .cos) ∧ LinearArg v L ∧ L.isSubtraction = false ∧ P (trig f L) ∧ Piece v (trig f L) ∧
      (t = trig f L ∨ ∃ c, t = prod [rat c, trig f L])) := by
  have hno : ∀ {L}, LinearArg v L → containsCls isPlainTrig L = false := fun h => h.noCls rfl (fun _ => rfl) (fun _ => rfl) fun _ => rfl
  rcases h with ⟨c, rfl⟩ | ⟨u, h, hp, rfl⟩ | ⟨c, u, h, hp, rfl⟩
  · exact .inl rfl
  · cases h with
    | sin h hs => exact .inr ⟨.sin, _, .inl rfl, h, hs, hp, .sin h hs, .inl rfl⟩
    | cos h hs => exact .inr ⟨.cos, _, .inr rfl, h, hs, hp, .cos h hs, .inl rfl⟩
    | exp h => exact .inl (by simp [containsCls, isPlainTrig, hno h])
    | _ => exact .inl rfl
  · cases h with
    | sin h hs => exact .inr ⟨.sin, _, .inl rfl, h, hs, hp, .sin h hs, .inr ⟨c, rfl⟩⟩
    | cos h hs => exact .inr ⟨.cos, _, .inr rfl, h, hs, hp, .cos h hs, .inr ⟨c, rfl⟩⟩
    | exp h => exact .inl (by simp [containsCls, containsClsL, isPlainTrig, hno h])
    | _ => exact .inl rfl

theorem combine_pass {f : TrigFn} {L : Expr} (hf : f = .sin ∨ f = .cos) (h : LinearArg v L) (c : ℚ) (n : Nat) :
    combinePerf O (n + 9) (prod [rat c, trig f L]) = .ok .pass := by
  rcases hf with rfl | rfl <;> cases h <;> rfl

/-- What holds for numbers, symbols, powers, products, logarithms and absolute values, and for the plain sine and cosine, holds
everywhere in a combination. -/
theorem contains_term {p : Expr → Bool} (hr : ∀ q, p (rat q) = false) (hs : p (sym v) = false) (he : p euler = false)
    (hp : ∀ x, p (pow (sym v) (rat x)) = false) (hpe : ∀ L, LinearArg v L → p (pow euler L) = false)
    (hm : ∀ ts, p (prod ts) = false) (hsm : ∀ ts, p (sum ts) = false) (hl : ∀ i b, p (log i b) = false) (hab : ∀ i, p (absv i) = false)
    (ht1 : ∀ L, p (trig .sin L) = false) (ht2 : ∀ L, p (trig .cos L) = false) (h : Term v t) : containsCls p t = false := by
  have hu : ∀ {u}, Piece v u → containsCls p u = false := by
    intro u h
    have hL : ∀ {L}, LinearArg v L → containsCls p L = false := fun h => h.noCls hs hr hm hsm
    cases h with
    | exp h => simp [containsCls, he, hpe _ h, hL h]
    | sin h _ => simp [containsCls, ht1, hL h]
    | cos h _ => simp [containsCls, ht2, hL h]
    | _ => simp [containsCls, hs, hr, hp, hl, hab, he]
  cases h with
  | const c => simp [containsCls, hr]
  | unit h => exact hu h
  | scaled c h => simp [containsCls, containsClsL, hr, hm, hu h]

theorem containsL_terms {p : Expr → Bool} : ∀ {ts : List Expr}, (∀ t ∈ ts, containsCls p t = false) → containsClsL p ts = false
  | [], _ => rfl
  | t :: r, h => by
    have := containsL_terms (p := p) (ts := r) fun x hx => h x (by simp [hx])
    simp [containsClsL, h t (by simp), this]

theorem fracTerm_no (hP : ∀ u, P u → NoRecip u) (h : PTerm v P t) (n : Nat) : ∃ nd, fracTerm O (ctors O (n + 1)) false t = .ok (nd, false) := by
  rcases h with ⟨c, rfl⟩ | ⟨u, h, hp, rfl⟩ | ⟨c, u, h, hp, rfl⟩
  · exact ⟨_, rfl⟩
  · cases h with
    | power q h0 h1 =>
      have hq : ¬ q < 0 := by
        have := (hP _ hp).1
        simpa [containsCls, isRecipPower] using this
      exact ⟨(pow (sym v) (rat q), rat 1), by simp only [fracTerm, hq, if_false]⟩
    | exp h => cases h <;> exact ⟨_, rfl⟩
    | _ => exact ⟨_, rfl⟩
  · obtain ⟨p, q, hpq, _, hs⟩ := numDen_shape (O := O) (P := P) h c n
    refine ⟨(p, q), ?_⟩
    simp [fracTerm, hpq, bind, Except.bind, pure, Except.pure, hs hp hP]

theorem oneFraction_no (hP : ∀ u, P u → NoRecip u) {ts : List Expr} (h : ∀ t ∈ ts, PTerm v P t) (n : Nat) :
    oneFraction O (ctors O (n + 1)) false (sum ts) = .ok none := by
  have : ∃ fs, mapR (fracTerm O (ctors O (n + 1)) false) ts = .ok fs ∧ fs.any (·.2) = false := by
    induction ts with
    | nil => exact ⟨[], rfl, rfl⟩
    | cons t r ih =>
      obtain ⟨nd, h1⟩ := fracTerm_no (O := O) hP (h t (by simp)) n
      obtain ⟨fs, h2, h3⟩ := ih fun x hx => h x (by simp [hx])
      exact ⟨(nd, false) :: fs, by simp [mapR, h1, h2], by simpa using h3⟩
  obtain ⟨fs, h1, h2⟩ := this
  simp only [oneFraction, h1, bind, Except.bind, h2, Bool.not_false, if_true, pure, Except.pure]

theorem trigSquare_no {ts : List Expr} (h : ∀ t ∈ ts, Term v t) : generalContains (isTrigSquare O) (sum ts) = false := by
  have := containsL_terms (p := isTrigSquare O) fun t h' =>
    contains_term (fun _ => rfl) rfl rfl (fun _ => rfl) (fun L h => by cases h <;> rfl) (fun _ => rfl) (fun _ => rfl) (fun _ _ => rfl) (fun _ => rfl) (fun _ => rfl) (fun _ => rfl) (h t h')
  simp [generalContains, containsCls, isTrigSquare, this]

theorem pass1_sum (hP : ∀ u, P u → NoRecip u) {ts : List Expr} (h : ∀ t ∈ ts, PTerm v P t) (n : Nat) :
    trigPass1 O (n + 1) (sum ts) = .ok .pass ∨ trigPass1 O (n + 1) (sum ts) = .ok .stop := by
  have ht : ∀ t ∈ ts, Term v t := fun t ht => (h t ht).term
  unfold trigPass1 withTrig
  split
  · rename_i hc
    left
    have hl : containsCls (listed (toSinCos O)) (sum ts) = false := by
      have := containsL_terms (p := listed (toSinCos O)) fun t h' =>
        contains_term (fun _ => rfl) rfl rfl (fun _ => rfl) (fun L h => by cases h <;> rfl) (fun _ => rfl) (fun _ => rfl) (fun _ _ => rfl) (fun _ => rfl) (fun _ => rfl) (fun _ => rfl) (ht t h')
      simp [containsCls, this, listed]
    have hrc : replaceClass O (toSinCos O) (n + 1) (sum ts) = .ok (sum ts) := by
      rw [replaceClass]; simp [hl]
    have h1 : pythPerf O (n + 1) (sum ts) = .ok .pass := by
      simp only [pythPerf, hc, trigSquare_no ht, Bool.not_true, Bool.not_false, Bool.false_eq_true, if_false, if_true]
    have h2 : pythComplexPerf O (n + 1) (sum ts) = .ok .pass := by
      simp only [pythComplexPerf, hrc, oneFraction_no hP h, bind, Except.bind, pure, Except.pure]
    simp only [firstRep, h1, h2, recipPerf]
  · exact .inr rfl

theorem ptsUnit_no (h : Term v t) (n : Nat) : ptsUnit O (n + 1) t none = .ok none := by
  cases h with
  | const c => rfl
  | unit h =>
    cases h with
    | exp h => cases h <;> simp [ptsUnit, constFactor, ptsConst, bind, Except.bind, pure, Except.pure]
    | _ => simp [ptsUnit, constFactor, ptsConst, validPower, isSinCos, bind, Except.bind, pure, Except.pure]
  | @scaled c u h =>
    have hr : varies (rat c) = false := rfl
    have hc : constFactor (prod [rat c, u]) = .ok (u, rat c) := by
      simp [constFactor, List.filter, h.varies, hr, mkProdSkip, h.isProd, bind, Except.bind, pure, Except.pure]
      rfl
    cases h with
    | exp h => cases h <;> simp [ptsUnit, hc, ptsConst, bind, Except.bind, pure, Except.pure]
    | _ => simp [ptsUnit, hc, ptsConst, validPower, isSinCos, bind, Except.bind, pure, Except.pure]

theorem pass2_sum {ts : List Expr} (h : ∀ t ∈ ts, PTerm v P t) (n : Nat) :
    trigPass2 O (n + 1) (sum ts) = .ok .pass ∨ trigPass2 O (n + 1) (sum ts) = .ok .stop := by
  have ht : ∀ t ∈ ts, Term v t := fun t ht => (h t ht).term
  unfold trigPass2 withTrig
  split
  · rename_i hc
    clear hc
    left
    have h2 : ptsPerf O (n + 1) (sum ts) = .ok .pass := by
      have : mapR (fun t => ptsUnit O (n + 1) t none) ts = .ok (ts.map fun _ => none) := by
        clear h
        induction ts with
        | nil => rfl
        | cons t r ih => simp [mapR, ptsUnit_no (O := O) (ht t (by simp)) n, ih fun x hx => ht x (by simp [hx])]
      simp [ptsPerf, ptsList, this, bind, Except.bind, pure, Except.pure]
    have h3 : sectanPerf O (n + 1) (sum ts) = .ok .pass := by
      have hsq : ∀ t, Term v t → ∀ f, isClassSquared f t = .ok false := by
        intro t h f
        have hu : ∀ {u}, Piece v u → isClsSquared f u = false := by
          intro u h
          cases h <;> rfl
        cases h with
        | const c => rfl
        | unit h =>
          have : removeNumFactor t = .ok t := by cases h <;> rfl
          simp [isClassSquared, this, hu h, bind, Except.bind, pure, Except.pure]
        | @scaled c u h =>
          have : removeNumFactor (prod [rat c, u]) = .ok u := by cases h <;> rfl
          simp [isClassSquared, this, hu h, bind, Except.bind, pure, Except.pure]
      have : sectanSplit ts = .ok ([], [], ts) := by
        clear h h2
        induction ts with
        | nil => rfl
        | cons t r ih =>
          simp [sectanSplit, hsq t (ht t (by simp)), ih fun x hx => ht x (by simp [hx]), bind, Except.bind, pure, Except.pure]
      simp [sectanPerf, this, bind, Except.bind, pure, Except.pure]
    simp only [firstRep, combinePerf, h2, h3]
  · exact .inr rfl

theorem replace_stop {perf : Nat → Expr → R Rep} {n : Nat} (h : perf n t = .ok .stop) : replaceE O perf (n + 1) t = .ok t := by
  rw [replaceE.eq_def]
  simp only [h, bind, Except.bind]

theorem pass_term {perf : Nat → Expr → R Rep} (hstop : ∀ n t, containsCls isPlainTrig t = false → perf n t = .ok .stop)
    (htrig : ∀ n f L, f = .sin ∨ f = .cos → perf (n + 9) (trig f L) = .ok .pass)
    (hprod : ∀ n f L c, f = .sin ∨ f = .cos → LinearArg v L → perf (n + 9) (prod [rat c, trig f L]) = .ok .pass)
    (h : PTerm v P t) (n : Nat) : ∃ t', replaceE O perf (n + 11) t = .ok t' ∧ PTerm v P t' ∧ Same t t' := by
  rcases trig_term h with hc | ⟨f, L, hf, hL, hsub, hp, hpc, rfl | ⟨c, rfl⟩⟩
  · exact ⟨t, replace_stop (hstop _ _ hc), h, .refl (term_wf h.term)⟩
  · have hs : replaceE O perf (n + 10) L = .ok L :=
      replace_stop (hstop _ _ (hL.noCls rfl (fun _ => rfl) (fun _ => rfl) fun _ => rfl))
    refine ⟨trig f L, ?_, h, .refl (term_wf h.term)⟩
    rw [replaceE]
    simp only [htrig (n + 1) f L hf, bind, Except.bind, hs]
    exact hL.trig_ctor hf hsub _
  · have hs : replaceE O perf (n + 9) L = .ok L :=
      replace_stop (hstop _ _ (hL.noCls rfl (fun _ => rfl) (fun _ => rfl) fun _ => rfl))
    have hr : replaceE O perf (n + 10) (rat c) = .ok (rat c) := replace_stop (hstop _ _ rfl)
    have ht : replaceE O perf (n + 10) (trig f L) = .ok (trig f L) := by
      rw [replaceE]
      simp only [htrig n f L hf, bind, Except.bind, hs]
      exact hL.trig_ctor hf hsub _
    refine ⟨scale c (trig f L), ?_, pscale hpc hp c, same_scale hpc c⟩
    rw [replaceE]
    simp only [hprod (n + 1) f L c hf hL, bind, Except.bind, mapR, hr, ht]
    exact prod_rat_unit hpc c

theorem pass1_term (h : PTerm v P t) (n : Nat) : ∃ t', replaceE O (trigPass1 O) (n + 11) t = .ok t' ∧ PTerm v P t' ∧ Same t t' := by
  refine pass_term (fun n t hc => by simp [trigPass1, withTrig, hc]) ?_ ?_ h n
  · rintro n f L (rfl | rfl) <;> rfl
  · rintro n f L c (rfl | rfl) h <;> rfl

theorem pass2_term (h : PTerm v P t) (n : Nat) : ∃ t', replaceE O (trigPass2 O) (n + 11) t = .ok t' ∧ PTerm v P t' ∧ Same t t' := by
  refine pass_term (fun n t hc => by simp [trigPass2, withTrig, hc]) ?_ ?_ h n
  · rintro n f L (rfl | rfl) <;> rfl
  · rintro n f L c hf hL
    have h1 := combine_pass (O := O) (v := v) hf hL c n
    have hc : containsCls isPlainTrig (prod [rat c, trig f L]) = true := by rcases hf with rfl | rfl <;> rfl
    simp only [trigPass2, withTrig, hc, if_true, firstRep, h1]
    rfl

theorem trigPart_comb (hO : O.Exact) (hv : v ≠ []) (hP : ∀ u, P u → NoRecip u) (h : PComb v P e) (n : Nat) :
    ∃ r b, trigPart O (n + 15) e = .ok (r, b) ∧ PComb v P r ∧ Same e r := by
  unfold trigPart
  split
  · obtain ⟨r1, a1, a2, a3⟩ := replace_comb hO hv (perf := trigPass1 O) (n := n + 3) (fun t ht => pass1_term ht (n + 3))
      (fun t ht => pass1_term ht (n + 4)) (fun ts h => pass1_sum hP h (n + 13)) h
    obtain ⟨r2, b1, b2, b3⟩ := replace_comb hO hv (perf := trigPass2 O) (n := n + 3) (fun t ht => pass2_term ht (n + 3))
      (fun t ht => pass2_term ht (n + 4)) (fun ts h => pass2_sum h (n + 13)) a2
    refine ⟨r2, replaceHit (trigPass1 O) (n + 15) e || replaceHit (trigPass2 O) (n + 15) r1, ?_, b2, a3.trans b3⟩
    simp only [trigSimplify, a1, b1, bind, Except.bind, pure, Except.pure]
  · exact ⟨e, false, rfl, h, .refl (comb_wf h.comb)⟩

theorem contains_comb {p : Expr → Bool} (hs : ∀ ts, p (sum ts) = false) (hm : ∀ ts, p (prod ts) = false) (hr : ∀ c, p (rat c) = false)
    (hP : ∀ u, P u → containsCls p u = false) (h : PComb v P e) : containsCls p e = false := by
  have ht : ∀ t, PTerm v P t → containsCls p t = false := by
    rintro t (⟨c, rfl⟩ | ⟨u, h, hp, rfl⟩ | ⟨c, u, h, hp, rfl⟩)
    · simp [containsCls, hr]
    · exact hP _ hp
    · simp [containsCls, containsClsL, hr, hm, hP _ hp]
  rcases h with h | ⟨ts, rfl, _, h⟩
  · exact ht e h
  · simp [containsCls, hs, containsL_terms fun t h' => ht t (h t h')]

/-- `simplify` of a combination without sines and cosines, or without negative powers and logarithms. -/
theorem simplify_comb (hO : O.Exact) (hv : v ≠ []) (hP : (∀ u, P u → NoTrig u) ∨ ∀ u, P u → NoRecip u) (h : PComb v P e) (n : Nat) :
    ∃ r, simplifyE O (n + 15) e = .ok r ∧ PComb v P r ∧ Same e r := by
  have hx := expandOr_comb (O := O) h.comb (n + 8)
  have hself : Same e e := .refl (comb_wf h.comb)
  have key : ∃ e2 b e3, trigPart O (n + 15) e = .ok (e2, b) ∧ logPart O (n + 15) e2 = .ok e3 ∧ PComb v P e3 ∧ Same e e3 := by
    rcases hP with hP | hP
    · have hc : containsCls isPlainTrig e = false := contains_comb (fun _ => rfl) (fun _ => rfl) (fun _ => rfl) hP h
      obtain ⟨r, h1, h2, h3⟩ := logPart_comb hO hv hP h (n + 3)
      exact ⟨e, false, r, by simp [trigPart, hc], h1, h2, h3⟩
    · obtain ⟨r, b, h1, h2, h3⟩ := trigPart_comb hO hv hP h n
      have hc : containsCls isLog r = false := contains_comb (fun _ => rfl) (fun _ => rfl) (fun _ => rfl) (fun u hu => (hP u hu).2) h2
      exact ⟨r, b, r, h1, by simp [logPart, hc], h2, h3⟩
  obtain ⟨e2, b, e3, h1, h2, h3, h4⟩ := key
  simp only [simplifyE, hx, h1, h2, bind, Except.bind, pure, Except.pure]
  refine ⟨_, rfl, ?_⟩
  cases b
  · simp only [Bool.false_eq_true, if_false]
    split
    · exact ⟨h3, h4⟩
    · exact ⟨h, hself⟩
  · exact ⟨h3, h4⟩

end Lin
end Simpy
