import Verif.Proofs.PolyRat
import Verif.Props.Expand

/-! Division and partial fractions of a quotient of polynomials. -/

namespace Simpy
open Expr

variable {O : Oracle}

theorem toConstPoly_V (hO : O.Exact) {n : Nat} {st : Bool} {ρ : Str → ℝ} {v : Str} {e e' : Expr} {cs : List Expr}
    (we : Kid WF e) (de : DomS st ρ e) (hx : expandOr (expandableE O n) (expandE O n) e = .ok e') (hp : plainTerms e' = true)
    (hok : expandableE O n e = .ok true → ExpandOk O ρ n e) (h : toConstPoly O n v e = .ok cs) :
    Good st ρ cs ∧ polyVal ρ cs (ρ v) = den ρ e := by
  unfold toConstPoly at h
  obtain ⟨e1, h1, h⟩ := bind_ok.1 h
  rw [hx] at h1
  simp only [Except.ok.injEq] at h1; subst h1
  have key : Kid WF e' ∧ DomS st ρ e' ∧ den ρ e' = den ρ e := by
    unfold expandOr at hx
    obtain ⟨b, h2, hx⟩ := bind_ok.1 hx
    split at hx
    · next hb =>
      subst hb
      obtain ⟨a, b, c⟩ := expand_sound hO n we de (hok h2) hx
      exact ⟨(adm_WF hO).kid a, b, c⟩
    · simp only [pure_ok] at hx; subst hx; exact ⟨we, de, rfl⟩
  obtain ⟨g, e2⟩ := toPoly_V hO e' (q := 1) key.1 key.2.1 hp (by simp [Good]) (.inl rfl) h
  refine ⟨g, ?_⟩
  rw [e2, key.2.2]; simp [polyVal]

theorem toConstPoly_free {n : Nat} {v : Str} {e : Expr} {cs : List Expr} (h : toConstPoly O n v e = .ok cs) :
    ∀ c ∈ cs, c.contains v = false := by
  unfold toConstPoly at h
  obtain ⟨e1, -, h⟩ := bind_ok.1 h
  intro c hc
  have := toPoly_free e1 (by simp) h c hc
  rw [← contains_iff] at this
  simpa using this

/-! ### sums of monomials are not expandable -/

theorem varPower_unexp {n : Nat} {v : Str} {w : Expr} {b : Bool} (h : varPower v w = true) (hb : expandableE O n w = .ok b) :
    b = false := by
  cases n with
  | zero => simp [expandableE] at hb
  | succ n =>
    cases w with
    | sym s => simpa [expandableE, eq_comm] using hb
    | pow c x =>
      cases c <;> cases x <;> simp [varPower] at h
      cases n with
      | zero => simp [expandableE, powerExpandable, bind, Except.bind] at hb
      | succ n => simpa [expandableE, powerExpandable, bind, Except.bind, eq_comm] using hb
    | _ => simp [varPower] at h

theorem numDen_monomial {C : Ctors} {v : Str} {c : ℚ} {w : Expr} (h : varPower v w = true) {a d : Expr}
    (hd : numDen O C [rat c, w] = .ok (a, d)) : ∀ us, d = prod us → False := by
  have hw : numDenTerm O C w = .ok ([w], []) := by
    have hn : ¬ (negNum (rat 1) = true) := by decide +kernel
    cases w with
    | sym s =>
      unfold numDenTerm
      change (if negNum (rat 1) = true then _ else _) = _
      rw [if_neg hn]
    | pow b x =>
      cases b <;> cases x <;> simp [varPower] at h
      next s q =>
      have : ¬ (negNum (rat q) = true) := by simp [negNum]; linarith [h.2]
      unfold numDenTerm
      change (if negNum (rat q) = true then _ else _) = _
      rw [if_neg this]
    | _ => simp [varPower] at h
  unfold numDen at hd
  obtain ⟨⟨p, q⟩, h1, hd⟩ := bind_ok.1 hd
  obtain ⟨ne, h2, hd⟩ := bind_ok.1 hd
  obtain ⟨de, h3, hd⟩ := bind_ok.1 hd
  have := pure_ok.1 hd
  simp only [Prod.mk.injEq] at this
  obtain ⟨rfl, rfl⟩ := this
  simp only [numDenLoop, hw] at h1
  obtain ⟨x1, e1, h1⟩ := bind_ok.1 h1
  obtain ⟨x2, e2, h1⟩ := bind_ok.1 h1
  obtain ⟨x3, e3, e2⟩ := bind_ok.1 e2
  obtain ⟨x4, e4, e2⟩ := bind_ok.1 e2
  simp only [Except.ok.injEq] at e3 e4
  subst e3; subst e4
  have := (pure_ok.1 e2).symm; subst this
  simp only [numDenTerm, Except.ok.injEq] at e1
  subst e1
  have := pure_ok.1 h1
  simp only [Prod.mk.injEq, List.append_nil] at this
  rintro us rfl
  rw [← this.2] at h3
  split at h3 <;> simp [mkProdSkip, isProd] at h3

theorem ratTerm_unexp {n : Nat} {v : Str} {w : Expr} {b : Bool} (h : ratTerm v w = true) (hb : expandableE O n w = .ok b) :
    b = false := by
  have gen : varPower v w = true → b = false := fun h => varPower_unexp h hb
  cases n with
  | zero => simp [expandableE] at hb
  | succ n =>
    cases w with
    | rat q => simpa [expandableE, eq_comm] using hb
    | prod us =>
      match us, h with
      | [rat c, u], h =>
        have hu : varPower v u = true := h
        have hs : u.isSum = false := by cases u <;> simp [varPower] at hu <;> rfl
        simp only [expandableE] at hb
        obtain ⟨b1, h1, hb⟩ := bind_ok.1 hb
        have : b1 = false := by
          have hr : (rat c).isSum = false := rfl
          simp only [anyR, hr, hs, Bool.false_eq_true, if_false] at h1
          obtain ⟨b2, h2, h1⟩ := bind_ok.1 h1
          cases n with
          | zero => simp [expandableE] at h2
          | succ n =>
            simp only [expandableE, Except.ok.injEq] at h2
            subst h2
            obtain ⟨b3, h3, h1⟩ := bind_ok.1 h1
            have := varPower_unexp hu h3
            subst this
            simpa [eq_comm] using h1
        subst this
        simp only [Bool.false_eq_true, if_false] at hb
        obtain ⟨⟨a, d⟩, h2, hb⟩ := bind_ok.1 hb
        have := numDen_monomial hu h2
        cases d with
        | prod ws => exact absurd rfl (this ws)
        | _ => exact (pure_ok.1 hb).symm
    | _ => exact gen h

theorem anyR_false {α : Type} {f : α → R Bool} : ∀ {l : List α} {b : Bool}, (∀ a ∈ l, ∀ b, f a = .ok b → b = false) →
    anyR f l = .ok b → b = false
  | [], b, _, h => by simpa [anyR, eq_comm] using h
  | a :: r, b, hl, h => by
    simp only [anyR] at h
    obtain ⟨c, h1, h⟩ := bind_ok.1 h
    have := hl a (by simp) c h1
    subst this
    exact anyR_false (fun u hu => hl u (by simp [hu])) h

theorem ratPoly_unexp {n : Nat} {v : Str} {w : Expr} {b : Bool} (h : ratPoly v w = true) (hb : expandableE O n w = .ok b) :
    b = false := by
  have gen : ratTerm v w = true → b = false := fun h => ratTerm_unexp h hb
  cases w with
  | sum ts =>
    simp only [ratPoly, Bool.and_eq_true, List.all_eq_true] at h
    cases n with
    | zero => simp [expandableE] at hb
    | succ n =>
      simp only [expandableE] at hb
      exact anyR_false (fun t ht c hc => ratTerm_unexp (h.1 t ht) hc) hb
  | _ => exact gen h

theorem toConstPoly_rat {n : Nat} {v : Str} {e e' : Expr} {cs : List Expr}
    (hx : expandOr (expandableE O n) (expandE O n) e = .ok e') (hp : ratPoly v e' = true)
    (h : toConstPoly O n v e = .ok cs) : ∃ qs : List ℚ, cs = qs.map rat := by
  unfold toConstPoly at h
  obtain ⟨e1, h1, h⟩ := bind_ok.1 h
  rw [hx] at h1
  simp only [Except.ok.injEq] at h1; subst h1
  exact toPoly_ratPoly hp h

/-- a sum of monomials as it is -/
theorem toConstPoly_mono (hO : O.Exact) {n : Nat} {st : Bool} {ρ : Str → ℝ} {v : Str} {e : Expr} {cs : List Expr}
    (we : Kid WF e) (de : DomS st ρ e) (hp : ratPoly v e = true) (h : toConstPoly O n v e = .ok cs) :
    (∃ qs : List ℚ, cs = qs.map rat) ∧ polyVal ρ cs (ρ v) = den ρ e := by
  have hx : expandOr (expandableE O n) (expandE O n) e = .ok e := by
    unfold toConstPoly at h
    obtain ⟨e1, h1, h⟩ := bind_ok.1 h
    rw [h1]
    unfold expandOr at h1
    obtain ⟨b, h2, h1⟩ := bind_ok.1 h1
    have := ratPoly_unexp hp h2
    subst this
    rw [(pure_ok.1 h1).symm]
  refine ⟨toConstPoly_rat hx hp h, (toConstPoly_V hO we de hx (ratPoly_plain hp) (fun hb => ?_) h).2⟩
  have := ratPoly_unexp hp hb
  simp at this

/-! ### the transforms -/

theorem fractionLists_some {n : Nat} {v : Str} {ts : List Expr} {d : Expr} {nl dl : List Expr}
    (h : fractionLists O n v ts = .ok (some (d, nl, dl))) : ∃ a, numDen O (ctors O n) ts = .ok (a, d) ∧
      toConstPoly O n v a = .ok nl ∧ toConstPoly O n v d = .ok dl := by
  unfold fractionLists at h
  obtain ⟨⟨a, b⟩, h1, h⟩ := bind_ok.1 h
  simp only at h
  split at h
  · simp [pure_ok] at h
  · obtain ⟨r, h2, h⟩ := bind_ok.1 h
    have := pure_ok.1 h
    cases r with
    | none => simp at this
    | some p =>
      simp only [Option.map_some, Option.some.injEq, Prod.mk.injEq] at this
      obtain ⟨rfl, h3, h4⟩ := this
      refine ⟨a, h1, ?_⟩
      unfold catchAssert at h2
      split at h2
      · next q hq =>
        simp only [Except.ok.injEq, Option.some.injEq] at h2
        subst h2
        obtain ⟨x1, e1, hq⟩ := bind_ok.1 hq
        obtain ⟨x2, e2, hq⟩ := bind_ok.1 hq
        have := (pure_ok.1 hq).symm; subst this
        exact ⟨by rw [e1, ← h3], by rw [e2, ← h4]⟩
      · simp at h2
      · simp at h2

theorem polyDivForward_V (hO : O.Exact) {n k : Nat} {st : Bool} {ρ : Str → ℝ} {v : Str} {num dn : List ℚ} {b : ℚ} {r : Expr}
    (hb : dn.getLast? = some b) (hb0 : b ≠ 0) (hle : dn.length ≤ num.length)
    (h0 : polyVal ρ (dn.map rat) (ρ v) ≠ 0)
    (h : polyDivForward O n k v (num.map rat) (dn.map rat) = .ok r) :
    WF r ∧ DomS st ρ r ∧ den ρ r = polyVal ρ (num.map rat) (ρ v) / polyVal ρ (dn.map rat) (ρ v) := by
  have hC := ctors_sound hO n
  unfold polyDivForward at h
  obtain ⟨⟨quo, rem⟩, h1, h⟩ := bind_ok.1 h
  obtain ⟨re, h2, h⟩ := bind_ok.1 h
  obtain ⟨de, h3, h⟩ := bind_ok.1 h
  obtain ⟨q1, h4, h⟩ := bind_ok.1 h
  obtain ⟨q2, h5, h⟩ := bind_ok.1 h
  obtain ⟨gq, gr, -, id⟩ := divLoop_V hO (ρ := ρ) (st := st) (Good.rats dn) (by
      intro c hc
      rw [List.getLast?_map, hb] at hc
      simp only [Option.map_some, Option.some.injEq] at hc
      subst hc
      simpa using hb0) k (by rw [quoInit]; exact Good.zeros _) (Good.rats num) (by
      intro i hi
      simp only [List.length_map] at hi
      simp only [quoInit, List.length_map]
      rw [List.getElem?_replicate, if_pos (by omega)]) (divShrinks_rat hb hb0 k num) h1
  have id := id (ρ v)
  rw [quoInit, polyVal_zeros] at id
  obtain ⟨w2, d2, v2⟩ := polyToExpr_V hO (st := st) (ρ := ρ) gr h2
  obtain ⟨w3, d3, v3⟩ := polyToExpr_V hO (st := st) (ρ := ρ) (Good.rats dn) h3
  obtain ⟨w5, d5, v5⟩ := polyToExpr_V hO (st := st) (ρ := ρ) gq h5
  obtain ⟨v4, d4⟩ := opDiv_V hC w2 w3 d2 d3 (by rw [v3]; exact h0) h4
  have w4 := opDiv_W hC w2 w3 h4
  obtain ⟨v6, d6⟩ := opAdd_V hC w5 w4 d5 d4 h
  refine ⟨opAdd_W hC w5 w4 h, d6, ?_⟩
  rw [v6, v5, v4, v2, v3]
  field_simp
  linarith

theorem pf_alg (a1 b1 a2 b2 n0 n1 t : ℝ) (h : a2 * b1 - a1 * b2 ≠ 0) (h1 : a1 + t * b1 ≠ 0) (h2 : a2 + t * b2 ≠ 0) :
    (b1 / (a2 * b1 - a1 * b2) * n0 + -a1 / (a2 * b1 - a1 * b2) * n1) / (a1 + t * b1) +
      (-b2 / (a2 * b1 - a1 * b2) * n0 + a2 / (a2 * b1 - a1 * b2) * n1) / (a2 + t * b2) =
    (n0 + n1 * t) / ((a1 + t * b1) * (a2 + t * b2)) := by
  obtain ⟨D, hD⟩ : ∃ D, a2 * b1 - a1 * b2 = D := ⟨_, rfl⟩
  obtain ⟨x, hx⟩ : ∃ x, a1 + t * b1 = x := ⟨_, rfl⟩
  obtain ⟨y, hy⟩ : ∃ y, a2 + t * b2 = y := ⟨_, rfl⟩
  rw [hD, hx, hy]
  rw [hD] at h; rw [hx] at h1; rw [hy] at h2
  have e1 : (b1 / D * n0 + -a1 / D * n1) / x + (-b2 / D * n0 + a2 / D * n1) / y =
      ((b1 * n0 - a1 * n1) * y + (-b2 * n0 + a2 * n1) * x) / (D * (x * y)) := by field_simp; ring
  rw [e1, ← hx, ← hy, ← hD]
  rw [div_eq_div_iff (by rw [hD, hx, hy]; positivity) (by rw [hx, hy]; positivity)]
  ring

theorem pfSolve_V (hO : O.Exact) {n : Nat} {st : Bool} {ρ : Str → ℝ} {v : Str} {nl : List Expr} {d1 d2 r : Expr}
    (hn : Good st ρ nl) (w1 : WF d1) (w2 : WF d2) (dd1 : DomS st ρ d1) (dd2 : DomS st ρ d2) (hp1 : ratPoly v d1 = true)
    (hp2 : ratPoly v d2 = true) (h1 : den ρ d1 ≠ 0) (h2 : den ρ d2 ≠ 0)
    (h : pfSolve O n v nl d1 d2 = .ok (some r)) :
    WF r ∧ DomS st ρ r ∧ den ρ r = polyVal ρ nl (ρ v) / (den ρ d1 * den ρ d2) := by
  have hC := ctors_sound hO n
  unfold pfSolve at h
  obtain ⟨l1, e1, h⟩ := bind_ok.1 h
  obtain ⟨l2, e2, h⟩ := bind_ok.1 h
  obtain ⟨m, e3, h⟩ := bind_ok.1 h
  obtain ⟨inv, e4, h⟩ := bind_ok.1 h
  obtain ⟨⟨q1, rfl⟩, p1⟩ := toConstPoly_mono hO ((adm_WF hO).kid w1) dd1 hp1 e1
  obtain ⟨⟨q2, rfl⟩, p2⟩ := toConstPoly_mono hO ((adm_WF hO).kid w2) dd2 hp2 e2
  cases inv with
  | none => simp [pure_ok] at h
  | some i =>
    obtain ⟨⟨x, y⟩, e5, h⟩ := bind_ok.1 h
    obtain ⟨z1, e6, h⟩ := bind_ok.1 h
    obtain ⟨z2, e7, h⟩ := bind_ok.1 h
    obtain ⟨z3, e8, h⟩ := bind_ok.1 h
    have := pure_ok.1 h
    simp only [Option.some.injEq] at this; subst this
    unfold pfMatrix at e3
    split at e3
    · next hlen =>
      simp only [Except.ok.injEq] at e3; subst e3
      simp only [List.length_map] at hlen
      -- the lists have length two
      obtain ⟨a1, b1, a2, b2, rfl, rfl⟩ : ∃ a1 b1 a2 b2, q1 = [a1, b1] ∧ q2 = [a2, b2] := by
        match q1, q2, hlen, e4 with
        | [a1, b1], [a2, b2], _, _ => exact ⟨a1, b1, a2, b2, rfl, rfl⟩
        | [], [], _, e4 => simp [invert, bind, Except.bind] at e4; split at e4 <;> simp at e4
        | [a], [b], _, e4 => simp [invert, bind, Except.bind, assertR] at e4
        | a :: b :: c :: r, a' :: b' :: c' :: r', _, e4 => simp [invert, bind, Except.bind, assertR] at e4
      simp only [List.map_cons, List.map_nil, List.zip_cons_cons, List.zip_nil_right] at e4
      obtain ⟨p, q, s, u, rfl⟩ := invert_shape e4
      have g : Good st ρ [rat a2, rat a1, rat b2, rat b1] := Good.rats [a2, a1, b2, b1]
      have hdet : den ρ (rat a2) * den ρ (rat b1) - den ρ (rat a1) * den ρ (rat b2) ≠ 0 := by
        intro hz
        have hz' : a2 * b1 - a1 * b2 = 0 := by
          have : ((a2 * b1 - a1 * b2 : ℚ) : ℝ) = 0 := by push_cast; simpa using hz
          exact_mod_cast this
        unfold invert at e4
        obtain ⟨_, -, e4⟩ := bind_ok.1 e4
        simp only [opMul, opSub, bind, Except.bind, beq, hz'] at e4
        simp [pure, Except.pure] at e4
      obtain ⟨gi, vp, vq, vs, vu⟩ := invert_V hO g hdet e4
      have gp := gi p (by simp); have gq := gi q (by simp); have gs := gi s (by simp); have gu := gi u (by simp)
      obtain ⟨n0, n1, hnl, gnl, hval⟩ : ∃ n0 n1, padNum nl = [n0, n1] ∧ Good st ρ [n0, n1] ∧
          den ρ n0 + den ρ n1 * ρ v = polyVal ρ nl (ρ v) := by
        match nl, hn, e5 with
        | [a], hn, _ =>
          refine ⟨a, rat 0, rfl, ?_, by simp [polyVal]⟩
          intro u hu
          simp only [List.mem_cons, List.not_mem_nil, or_false] at hu
          rcases hu with rfl | rfl
          exacts [hn _ (by simp), by simp]
        | [a, b], hn, _ => exact ⟨a, b, rfl, hn, by simp [polyVal]; ring⟩
        | [], _, e5 => simp [padNum, matVec2] at e5
        | a :: b :: c :: r, _, e5 => simp [padNum, matVec2] at e5
      have gn0 := gnl n0 (by simp); have gn1 := gnl n1 (by simp)
      rw [hnl] at e5
      simp only [matVec2] at e5
      obtain ⟨px, f1, e5⟩ := bind_ok.1 e5
      obtain ⟨qy, f2, e5⟩ := bind_ok.1 e5
      obtain ⟨x', f3, e5⟩ := bind_ok.1 e5
      obtain ⟨rx, f4, e5⟩ := bind_ok.1 e5
      obtain ⟨sy, f5, e5⟩ := bind_ok.1 e5
      obtain ⟨y', f6, e5⟩ := bind_ok.1 e5
      have := pure_ok.1 e5
      simp only [Prod.mk.injEq] at this
      obtain ⟨rfl, rfl⟩ := this
      obtain ⟨t1, D1⟩ := opMul_V hC gp.1 gn0.1 gp.2 gn0.2 f1
      obtain ⟨t2, D2⟩ := opMul_V hC gq.1 gn1.1 gq.2 gn1.2 f2
      obtain ⟨t3, D3⟩ := opAdd_V hC (opMul_W hC gp.1 gn0.1 f1) (opMul_W hC gq.1 gn1.1 f2) D1 D2 f3
      have W3 := opAdd_W hC (opMul_W hC gp.1 gn0.1 f1) (opMul_W hC gq.1 gn1.1 f2) f3
      obtain ⟨t4, D4⟩ := opMul_V hC gs.1 gn0.1 gs.2 gn0.2 f4
      obtain ⟨t5, D5⟩ := opMul_V hC gu.1 gn1.1 gu.2 gn1.2 f5
      obtain ⟨t6, D6⟩ := opAdd_V hC (opMul_W hC gs.1 gn0.1 f4) (opMul_W hC gu.1 gn1.1 f5) D4 D5 f6
      have W6 := opAdd_W hC (opMul_W hC gs.1 gn0.1 f4) (opMul_W hC gu.1 gn1.1 f5) f6
      obtain ⟨t7, D7⟩ := opDiv_V hC W3 w1 D3 dd1 h1 e6
      obtain ⟨t8, D8⟩ := opDiv_V hC W6 w2 D6 dd2 h2 e7
      obtain ⟨t9, D9⟩ := opAdd_V hC (opDiv_W hC W3 w1 e6) (opDiv_W hC W6 w2 e7) D7 D8 e8
      refine ⟨opAdd_W hC (opDiv_W hC W3 w1 e6) (opDiv_W hC W6 w2 e7) e8, D9, ?_⟩
      rw [t9, t7, t8, t3, t6, t1, t2, t4, t5, ← hval, vp, vq, vs, vu]
      simp only [polyVal, List.map_cons, List.map_nil, den_rat, mul_zero, add_zero] at p1 p2
      rw [← p1] at h1 ⊢
      rw [← p2] at h2 ⊢
      simp only [den_rat] at hdet ⊢
      exact pf_alg _ _ _ _ _ _ _ hdet h1 h2
    · simp at e3

/-! ### The two transforms -/

theorem polyDiv_V (hO : O.Exact) {n k : Nat} {st : Bool} {v : Str} {ts : List Expr} {a b a' b' r : Expr} {ρ : Str → ℝ}
    (w : WF (prod ts)) (d : DomS st ρ (prod ts)) (he : ∀ t ∈ ts, Easy t) (hab : numDen O (ctors O n) ts = .ok (a, b))
    (hxa : expandOr (expandableE O n) (expandE O n) a = .ok a') (hra : ratPoly v a' = true)
    (hxb : expandOr (expandableE O n) (expandE O n) b = .ok b') (hrb : ratPoly v b' = true)
    (hlead : ∀ dl, toConstPoly O n v b = .ok dl → dl.getLast? ≠ some (rat 0))
    (h : polyDiv O n k v (prod ts) = .ok (some r)) : WF r ∧ DomS st ρ r ∧ den ρ r = den ρ (prod ts) := by
  obtain ⟨wa, wb, da, db, hb0, hval⟩ := numDen_V hO (st := st) (ρ := ρ)
    (fun t ht => ⟨(WF_prod.1 w).2 t ht, Dom_prod.1 d t ht⟩) hab
  obtain ⟨ea, eb⟩ := numDen_easy he hab
  unfold polyDiv at h
  simp only at h
  split at h
  · simp at h
  · obtain ⟨l, h1, h⟩ := bind_ok.1 h
    cases l with
    | none => simp [pure_ok] at h
    | some l =>
      obtain ⟨d', nl, dl⟩ := l
      simp only at h
      split at h
      · simp [pure_ok] at h
      · next hlen =>
        obtain ⟨r', h2, h⟩ := bind_ok.1 h
        have := pure_ok.1 h
        simp only [Option.some.injEq] at this; subst this
        obtain ⟨a1, g1, g2, g3⟩ := fractionLists_some h1
        rw [hab] at g1
        simp only [Except.ok.injEq, Prod.mk.injEq] at g1
        obtain ⟨rfl, rfl⟩ := g1
        obtain ⟨-, va⟩ := toConstPoly_V hO wa da hxa (ratPoly_plain hra) (fun _ => Easy.expandOk n ea) g2
        obtain ⟨-, vb⟩ := toConstPoly_V hO wb db hxb (ratPoly_plain hrb) (fun _ => Easy.expandOk n eb) g3
        obtain ⟨qa, rfl⟩ := toConstPoly_rat hxa hra g2
        obtain ⟨qb, rfl⟩ := toConstPoly_rat hxb hrb g3
        have hl' := hlead _ g3
        rw [List.getLast?_map] at hl'
        cases hq : qb.getLast? with
        | none =>
          have : qb = [] := by simpa using hq
          subst this
          simp [polyVal] at vb
          exact absurd vb.symm hb0
        | some c =>
          rw [hq] at hl'
          have hc0 : c ≠ 0 := by rintro rfl; exact hl' rfl
          have := polyDivForward_V hO (st := st) (ρ := ρ) (v := v) hq hc0 (by simpa using hlen) (by rw [vb]; exact hb0) h2
          refine ⟨this.1, this.2.1, ?_⟩
          rw [this.2.2, va, vb, den_prod, ← hval]; field_simp

theorem partialFractions_V (hO : O.Exact) {n : Nat} {st : Bool} {v : Str} {ts : List Expr} {a b a' d1 d2 r : Expr} {ρ : Str → ℝ}
    (w : WF (prod ts)) (d : DomS st ρ (prod ts)) (he : ∀ t ∈ ts, Easy t) (hab : numDen O (ctors O n) ts = .ok (a, b))
    (hxa : expandOr (expandableE O n) (expandE O n) a = .ok a') (hra : plainTerms a' = true)
    (hdf : denomFactors (ctors O n) b = .ok (some [d1, d2])) (h1 : ratPoly v d1 = true) (h2 : ratPoly v d2 = true)
    (hc : ∀ us c, b = sum us → factorCommon (ctors O n) us = .ok c → DomS st ρ c ∧ den ρ c ≠ 0)
    (h : partialFractions O n v (prod ts) = .ok (some r)) : WF r ∧ DomS st ρ r ∧ den ρ r = den ρ (prod ts) := by
  obtain ⟨wa, wb, da, db, hb0, hval⟩ := numDen_V hO (st := st) (ρ := ρ)
    (fun t ht => ⟨(WF_prod.1 w).2 t ht, Dom_prod.1 d t ht⟩) hab
  obtain ⟨ea, eb⟩ := numDen_easy he hab
  have hfac : WF d1 ∧ WF d2 ∧ DomS st ρ d1 ∧ DomS st ρ d2 ∧ den ρ d1 * den ρ d2 = den ρ b := by
    cases b with
    | prod us =>
      simp only [denomFactors, Except.ok.injEq, Option.some.injEq] at hdf
      subst hdf
      exact ⟨wb d1 (by simp), wb d2 (by simp), Dom_prod.1 db d1 (by simp), Dom_prod.1 db d2 (by simp), by simp [den, denP]⟩
    | sum us =>
      simp only [denomFactors] at hdf
      obtain ⟨f, g1, hdf⟩ := bind_ok.1 hdf
      have hwus := WF_sum.1 wb
      obtain ⟨c, hcc⟩ : ∃ c, factorCommon (ctors O n) us = .ok c := by
        unfold factorSum at g1
        obtain ⟨c, hc, -⟩ := bind_ok.1 g1
        exact ⟨c, hc⟩
      obtain ⟨wc, -⟩ := factorCommon_W hO hwus hcc
      obtain ⟨wf, df, vf⟩ := factorSum_V hO (st := st) (fun t ht => ⟨hwus t ht, Dom_sum.1 db t ht⟩) hcc wc
        (hc us c rfl hcc).1 (hc us c rfl hcc).2 g1
      cases f <;> simp [pure_ok] at hdf
      subst hdf
      exact ⟨(WF_prod.1 wf).2 d1 (by simp), (WF_prod.1 wf).2 d2 (by simp), Dom_prod.1 df d1 (by simp),
        Dom_prod.1 df d2 (by simp), by rw [den_sum, ← vf]; simp [den, denP]⟩
    | _ => simp [denomFactors] at hdf
  obtain ⟨w1, w2, dd1, dd2, hprod⟩ := hfac
  have hn1 : den ρ d1 ≠ 0 := fun hz => hb0 (by rw [← hprod, hz, zero_mul])
  have hn2 : den ρ d2 ≠ 0 := fun hz => hb0 (by rw [← hprod, hz, mul_zero])
  unfold partialFractions at h
  simp only at h
  obtain ⟨l, g1, h⟩ := bind_ok.1 h
  cases l with
  | none => simp [pure_ok] at h
  | some l =>
    obtain ⟨d', nl, dl⟩ := l
    obtain ⟨a1, g2, g3, g4⟩ := fractionLists_some g1
    rw [hab] at g2
    simp only [Except.ok.injEq, Prod.mk.injEq] at g2
    obtain ⟨rfl, rfl⟩ := g2
    simp only at h
    split at h
    · simp [pure_ok] at h
    · obtain ⟨fs, g5, h⟩ := bind_ok.1 h
      rw [hdf] at g5
      simp only [Except.ok.injEq] at g5; subst g5
      simp only at h
      split at h
      · obtain ⟨gn, va⟩ := toConstPoly_V hO wa da hxa hra (fun _ => Easy.expandOk n ea) g3
        obtain ⟨wr, dr, vr⟩ := pfSolve_V hO gn w1 w2 dd1 dd2 h1 h2 hn1 hn2 h
        refine ⟨wr, dr, ?_⟩
        rw [vr, va, hprod, den_prod, ← hval]; field_simp
      · simp [pure_ok] at h

end Simpy
