import Verif.Proofs.NFMult
import Verif.Spec.Normal
import Verif.Proofs.Canon

/-! # Lemmas: `expand` puts polynomial expressions into normal form -/

namespace Simpy
namespace NF
open Expr Lin Mono1

variable {O : Oracle}

theorem toMvS_eq (ts : List Expr) : toMvS ts = (ts.map toMv).sum := by
  induction ts with
  | nil => rw [toMvS]; rfl
  | cons t r ih => rw [toMvS, ih]; simp
theorem toMvP_eq (ts : List Expr) : toMvP ts = (ts.map toMv).prod := by
  induction ts with
  | nil => rw [toMvP]; rfl
  | cons t r ih => rw [toMvP, ih]; simp
theorem toMv_rat (q : ℚ) : toMv (rat q) = MvPolynomial.C q := by rw [toMv]
theorem toMv_sym (s : Str) : toMv (sym s) = MvPolynomial.X s := by rw [toMv]
theorem toMv_sum (ts : List Expr) : toMv (sum ts) = (ts.map toMv).sum := by rw [toMv, toMvS_eq]
theorem toMv_prod (ts : List Expr) : toMv (prod ts) = (ts.map toMv).prod := by rw [toMv, toMvP_eq]
theorem toMv_pow (b : Expr) (k : ℕ) : toMv (pow b (rat k)) = toMv b ^ k := by rw [toMv]; simp

theorem good_toMv {e : Expr} (h : PolyExpr O e) : Good (toMv e) := by
  induction h with
  | rat q => rw [toMv_rat]; exact good_C q
  | sym s hs => rw [toMv_sym]; exact good_X hs
  | sum n _ _ ih => rw [toMv_sum]; exact good_sum fun p hp => by obtain ⟨t, ht, rfl⟩ := List.mem_map.1 hp; exact ih t ht
  | prod n _ _ _ ih => rw [toMv_prod]; exact good_prod fun p hp => by obtain ⟨t, ht, rfl⟩ := List.mem_map.1 hp; exact ih t ht
  | pow n k _ _ _ _ ih => rw [toMv_pow]; exact good_pow ih k

theorem built_poly {e : Expr} (h : PolyExpr O e) : Built O e := by
  induction h with
  | rat q => exact .rat q
  | sym s hs => exact .sym s
  | sum n _ h ih => exact .sum n ih h
  | prod n _ _ h ih => exact .prod n ih h
  | pow n k _ _ h _ ih => exact .pow n ih (.rat _) h

theorem same_sum {n m : Nat} {ts : List Expr} {a b : Expr} (h1 : (ctors O n).sum ts = .ok a) (h2 : (ctors O m).sum ts = .ok b) : a = b := by
  have := lift_sum (Nat.le_max_left n m) h1
  rw [lift_sum (Nat.le_max_right n m) h2] at this
  exact (Except.ok.inj this).symm
theorem same_prod {n m : Nat} {ts : List Expr} {a b : Expr} (h1 : (ctors O n).prod ts = .ok a) (h2 : (ctors O m).prod ts = .ok b) : a = b := by
  have := lift_prod (Nat.le_max_left n m) h1
  rw [lift_prod (Nat.le_max_right n m) h2] at this
  exact (Except.ok.inj this).symm
theorem same_pow {n m : Nat} {x y : Expr} {a b : Expr} (h1 : (ctors O n).pow x y = .ok a) (h2 : (ctors O m).pow x y = .ok b) : a = b := by
  have := lift_pow (Nat.le_max_left n m) h1
  rw [lift_pow (Nat.le_max_right n m) h2] at this
  exact (Except.ok.inj this).symm

/-! ## Expressions in which there is nothing to expand -/

theorem not_sum {p : MvPolynomial Str ℚ} (h : (polyE O p).isSum = false) : ∃ c d, p = MvPolynomial.monomial d c := by
  rcases polyE_cases (O := O) p with h' | ⟨h', _⟩
  · exact h'
  · rw [h'] at h; simp [isSum] at h

theorem done_poly (hO : O.Exact) {e : Expr} (h : PolyExpr O e) : ∀ {n : Nat}, expandableE O n e = .ok false → e = polyE O (toMv e) := by
  induction h with
  | rat q => intro n _; rw [toMv_rat, polyE_C]
  | sym s hs =>
    intro n _
    rw [toMv_sym, MvPolynomial.X, polyE_mono, ← vp_mono s le_rfl]
    simp [vp, varPow]
  | @sum m ts hts hc ih =>
    intro n hn
    cases n with
    | zero => cases hn
    | succ n =>
      have hn : anyR (expandableE O n) ts = .ok false := hn
      have hall : ts = (ts.map toMv).map (polyE O) := by
        rw [List.map_map]
        conv_lhs => rw [← List.map_id ts]
        exact List.map_congr_left fun t ht => ih t ht (anyR_inv hn t ht)
      have h2 := sum_polys hO 0 (ts.map toMv) fun p hp => by
        obtain ⟨t, ht, rfl⟩ := List.mem_map.1 hp; exact good_toMv (hts t ht)
      rw [← hall] at h2
      rw [toMv_sum]
      exact same_sum hc h2
  | @prod m ts hts hnp hc ih =>
    intro n hn
    cases n with
    | zero => cases hn
    | succ n =>
      rw [expandableE] at hn
      rw [bind_ok] at hn
      obtain ⟨bb, hb, hn⟩ := hn
      cases bb with
      | true => simp [pure, Except.pure] at hn
      | false =>
        have hall := anyR_inv hb
        have : ∀ l : List Expr, (∀ t ∈ l, t ∈ ts) → ∃ k : List (ℚ × (Str →₀ ℕ)), l = monos O k ∧ l.map toMv = k.map mon := by
          intro l
          induction l with
          | nil => intro _; exact ⟨[], rfl, rfl⟩
          | cons t r ihl =>
            intro hl
            obtain ⟨k, h1, h2⟩ := ihl fun u hu => hl u (by simp [hu])
            have ht := hall t (hl t (by simp))
            have hs : t.isSum = false := by
              by_contra hs
              rw [Bool.not_eq_false] at hs
              rw [hs] at ht; simp at ht
            rw [hs] at ht
            have he := ih t (hl t (by simp)) (n := n) (by simpa using ht)
            rw [he] at hs
            obtain ⟨c, d, hcd⟩ := not_sum hs
            refine ⟨(c, d) :: k, ?_, ?_⟩
            · show t :: r = mono O c d :: monos O k
              rw [← h1, ← polyE_mono, ← hcd, ← he]
            · rw [List.map_cons, List.map_cons, h2, hcd]; rfl
        obtain ⟨k, h1, h2⟩ := this ts fun t ht => ht
        rw [toMv_prod, h2]
        have := prod_mons (O := O) 0 k
        rw [← h1] at this
        exact same_prod hc this
  | @pow m b k hb hk hc _ ih =>
    intro n hn
    cases n with
    | zero => cases hn
    | succ n =>
      rw [expandableE] at hn
      by_cases hp : powerExpandable b (rat k) = true
      · rw [if_pos hp] at hn; cases hn
      rw [if_neg hp] at hn
      have hs : b.isSum = false := by
        cases b with
        | sum ts =>
          exfalso; apply hp
          have h1 : |(k : ℚ)| ≠ 1 := by
            rw [abs_of_nonneg (by positivity)]
            exact_mod_cast (by omega : k ≠ 1)
          simp [powerExpandable, h1]
          omega
        | _ => rfl
      match hbb : expandableE O n b, hn with
      | .error e, hn => cases hn
      | .ok true, hn => rw [ok_bind] at hn; simp [pure, Except.pure] at hn
      | .ok false, _ =>
        have he := ih hbb
        rw [he] at hs
        obtain ⟨c, d, hcd⟩ := not_sum hs
        rw [hcd, polyE_mono] at he
        have := pow_mono (O := O) 0 c d k
        rw [← he] at this
        rw [toMv_pow, hcd, MvPolynomial.monomial_pow, polyE_mono]
        exact same_pow hc this

/-! ## Numerators and denominators -/

theorem numDen_polyLoop {C : Ctors} : ∀ {ts : List Expr}, (∀ t ∈ ts, PolyExpr O t) → (∀ t ∈ ts, t.isProd = false) →
    ∃ (us : List Expr) (qs : List ℚ), numDenLoop O C ts = .ok (us, qs.map rat) ∧ (∀ u ∈ us, (∃ q, u = rat q) ∨ u ∈ ts) ∧
      (∀ q ∈ qs, q ≠ 0) ∧ (us.map toMv).prod = MvPolynomial.C qs.prod * (ts.map toMv).prod ∧ qs.length ≤ (ts.filter isAcc).length
  | [], _, _ => ⟨[], [], rfl, by simp, by simp, by simp, by simp⟩
  | t :: r, h, hp => by
    obtain ⟨us, qs, h1, h2, h3, h4, h5⟩ := numDen_polyLoop (C := C) (ts := r) (fun u hu => h u (by simp [hu])) fun u hu => hp u (by simp [hu])
    have other : numDenTerm O C t = .ok ([t], []) → ∃ (us : List Expr) (qs : List ℚ), numDenLoop O C (t :: r) = .ok (us, qs.map rat) ∧
        (∀ u ∈ us, (∃ q, u = rat q) ∨ u ∈ t :: r) ∧ (∀ q ∈ qs, q ≠ 0) ∧ (us.map toMv).prod = MvPolynomial.C qs.prod * ((t :: r).map toMv).prod ∧
        qs.length ≤ ((t :: r).filter isAcc).length := by
      intro ht
      refine ⟨t :: us, qs, ?_, ?_, h3, ?_, ?_⟩
      · rw [numDenLoop, ht, h1]; rfl
      · exact List.forall_mem_cons.2 ⟨.inr (by simp), fun u hu => (h2 u hu).imp_right fun h => List.mem_cons_of_mem _ h⟩
      · rw [List.map_cons, List.prod_cons, h4, List.map_cons, List.prod_cons]; ring
      · rw [List.filter_cons]; split
        · rw [List.length_cons]; omega
        · exact h5
    cases h t (by simp) with
    | rat q =>
      have hd0 : (q.den : ℚ) ≠ 0 := by exact_mod_cast q.den_nz
      have hq : (MvPolynomial.C (q.num : ℚ) : MvPolynomial Str ℚ) = MvPolynomial.C (q.den : ℚ) * MvPolynomial.C q := by
        rw [← map_mul]; congr 1
        rw [mul_comm]; exact (Rat.mul_den_eq_num q).symm
      refine ⟨(if q.num ≠ 1 then [rat (q.num : ℚ)] else []) ++ us, (if q.den ≠ 1 then [(q.den : ℚ)] else []) ++ qs, ?_, ?_, ?_, ?_, ?_⟩
      · rw [numDenLoop, numDenTerm, h1]
        by_cases hd : q.den = 1 <;> simp [hd, bind, Except.bind, pure, Except.pure]
      · intro u hu
        rcases List.mem_append.1 hu with hu | hu
        · split at hu
          · simp at hu; exact .inl ⟨_, hu⟩
          · simp at hu
        · exact (h2 u hu).imp_right fun h => List.mem_cons_of_mem _ h
      · intro p hp
        rcases List.mem_append.1 hp with hp | hp
        · split at hp
          · simp at hp; rw [hp]; exact hd0
          · simp at hp
        · exact h3 p hp
      · have e1 : ((if q.num ≠ 1 then [rat (q.num : ℚ)] else []).map toMv).prod = MvPolynomial.C (q.num : ℚ) := by
          by_cases hn : q.num = 1 <;> simp [hn, toMv_rat]
        have e2 : (if q.den ≠ 1 then [(q.den : ℚ)] else []).prod = (q.den : ℚ) := by
          by_cases hn : q.den = 1 <;> simp [hn]
        rw [List.map_append, List.prod_append, List.prod_append, e1, e2, h4, List.map_cons, List.prod_cons, toMv_rat, map_mul, hq]
        ring
      · have ha : (rat q).isAcc = true := rfl
        rw [List.filter_cons, if_pos ha, List.length_append, List.length_cons]
        split <;> simp <;> omega
    | sym s hs => exact other rfl
    | sum n _ _ => exact other rfl
    | @prod n us _ _ _ => have := hp (prod us) (by simp); simp [isProd] at this
    | pow n k _ _ _ _ => exact other (by simp [numDenTerm, deconPow, negNum])

theorem numDen_poly {C : Ctors} {ts : List Expr} (h : ∀ t ∈ ts, PolyExpr O t) (hp : ∀ t ∈ ts, t.isProd = false)
    (hc : (ts.filter isAcc).length ≤ 1) : ∃ (us : List Expr) (X : Expr) (δ : ℚ), numDen O C ts = .ok (X, rat δ) ∧ mkProdSkip us = .ok X ∧ δ ≠ 0 ∧
      (∀ u ∈ us, (∃ q, u = rat q) ∨ u ∈ ts) ∧ (us.map toMv).prod = MvPolynomial.C δ * (ts.map toMv).prod := by
  obtain ⟨us, qs, h1, h2, h3, h4, h5⟩ := numDen_polyLoop (C := C) h hp
  have hX : ∃ X, mkProdSkip us = .ok X := by
    match us, h2 with
    | [], _ => exact ⟨_, rfl⟩
    | [u], h2 =>
      have : u.isProd = false := by
        rcases h2 u (by simp) with ⟨q, rfl⟩ | hu
        · rfl
        · exact hp u hu
      exact ⟨u, by simp [mkProdSkip, this]⟩
    | a :: b :: r, _ => exact ⟨_, rfl⟩
  obtain ⟨X, hX⟩ := hX
  have hq : mkProdSkip (qs.map rat) = .ok (rat qs.prod) := by
    match qs, h5 with
    | [], _ => rfl
    | [q], _ => simp [mkProdSkip, isProd]
    | a :: b :: r, h5 => simp at h5; omega
  refine ⟨us, X, qs.prod, ?_, hX, List.prod_ne_zero fun h0 => h3 0 h0 rfl, h2, h4⟩
  unfold numDen
  rw [h1, ok_bind]
  dsimp only
  rw [hX, ok_bind, hq]; rfl

theorem heightL_mem {ts : List Expr} {t : Expr} (h : t ∈ ts) : height t ≤ heightL ts := by
  induction ts with
  | nil => simp at h
  | cons u r ih =>
    rw [heightL]
    rcases List.mem_cons.1 h with rfl | h
    · exact le_max_left _ _
    · exact le_trans (ih h) (le_max_right _ _)

theorem anyR_ok {f : Expr → R Bool} : ∀ {l : List Expr}, (∀ t ∈ l, Ok (f t)) → Ok (anyR f l)
  | [], _ => ⟨_, rfl⟩
  | t :: r, h => by
    rw [anyR]
    exact Ok.bind (h t (by simp)) fun b _ => Ok.ite ⟨_, rfl⟩ (anyR_ok fun u hu => h u (by simp [hu]))

theorem acc_le (hO : O.Exact) {ts : List Expr} (h : PolyExpr O (prod ts)) : (ts.filter isAcc).length ≤ 1 := by
  have := (built_poly h).canon hO
  rw [Canon] at this
  exact this.1.2.1

theorem able_ok (hO : O.Exact) {e : Expr} (h : PolyExpr O e) : ∀ {n : Nat}, height e < n → Ok (expandableE O n e) := by
  induction h with
  | rat q => intro n hn; obtain ⟨n, rfl⟩ : ∃ m, n = m + 1 := ⟨n - 1, by omega⟩; exact ⟨_, rfl⟩
  | sym s hs => intro n hn; obtain ⟨n, rfl⟩ : ∃ m, n = m + 1 := ⟨n - 1, by omega⟩; exact ⟨_, rfl⟩
  | sum m _ _ ih =>
    intro n hn
    obtain ⟨n, rfl⟩ : ∃ m, n = m + 1 := ⟨n - 1, by omega⟩
    rw [height] at hn
    rw [expandableE]
    exact anyR_ok fun t ht => ih t ht (by have := heightL_mem ht; omega)
  | @prod m ts hts hnp hc ih =>
    intro n hn
    obtain ⟨n, rfl⟩ : ∃ m, n = m + 1 := ⟨n - 1, by omega⟩
    rw [height] at hn
    rw [expandableE]
    obtain ⟨us, X, δ, h1, -⟩ := numDen_poly (C := ctors O n) hts hnp (acc_le hO (.prod m hts hnp hc))
    refine Ok.bind (anyR_ok fun t ht => Ok.ite ⟨_, rfl⟩ (ih t ht (by have := heightL_mem ht; omega))) fun b _ => Ok.ite ⟨_, rfl⟩ ?_
    rw [h1]; exact ⟨_, rfl⟩
  | @pow m b k hb hk hc _ ih =>
    intro n hn
    obtain ⟨n, rfl⟩ : ∃ m, n = m + 1 := ⟨n - 1, by omega⟩
    rw [height] at hn
    rw [expandableE]
    refine Ok.ite ⟨_, rfl⟩ (Ok.bind (ih (by omega)) fun b _ => Ok.ite ⟨_, rfl⟩ ?_)
    obtain ⟨n, rfl⟩ : ∃ m, n = m + 1 := ⟨n - 1, by omega⟩
    exact ⟨_, rfl⟩

/-! ## The expansion -/

theorem recip_rat (n : Nat) {δ : ℚ} (h : δ ≠ 0) : recipTerms (ctors O (n + 1)) (rat δ) = .ok [rat (1 / δ)] := by
  have := rational_power_exact O n δ (-1) (.inl h)
  have hp : (ctors O (n + 1)).pow (rat δ) (rat (-1)) = .ok (rat (1 / δ)) := by
    simpa using this
  unfold recipTerms
  dsimp only
  rw [hp]; rfl

theorem expandOr_rat (n : Nat) (q : ℚ) : expandOr (expandableE O (n + 1)) (expandE O (n + 1)) (rat q) = .ok (rat q) := rfl

theorem not_pow_sum {c : ℚ} {d : Str →₀ ℕ} {ws : List Expr} {x : Expr} : mono O c d ≠ pow (sum ws) x := by
  by_cases h0 : c = 0
  · subst h0; rw [mono_zero]; simp
  by_cases d0 : d = 0
  · subst d0; rw [mono_const]; simp
  rcases mono_form (O := O) h0 d0 with ⟨s, k, hk, h1, e⟩ | ⟨e, hs⟩
  · rw [e]; rcases vp_cases s k with ⟨_, h⟩ | ⟨_, h⟩ <;> rw [h] <;> simp
  · rw [e]; simp

theorem not_prod_sum {p : MvPolynomial Str ℚ} (h : (polyE O p).isSum = false) : sumTerms (polyE O p) = none := by
  generalize polyE O p = e at *
  cases e <;> simp_all [isSum, sumTerms]

theorem one_factor (hO : O.Exact) (n : Nat) {p : MvPolynomial Str ℚ} (hg : Good p) (r : ℚ) : (match polyE O p with
      | sum ws => do
        let ps ← mapR (fun c => (ctors O (n + 6)).prod (c ++ [rat r])) (cartesian [ws])
        (ctors O (n + 6)).sum ps
      | _ => (ctors O (n + 6)).prod (polyE O p :: [rat r])) = .ok (polyE O (MvPolynomial.C r * p)) := by
  have := mult_out hO n [p] (by simpa using hg) r
  rw [List.prod_singleton] at this
  rw [← this]
  rcases polyE_cases (O := O) p with ⟨c, d, rfl⟩ | ⟨h, _⟩
  · rw [polyE_mono, List.map_singleton, polyE_mono]
    have hs := sum_mono (O := O) c d
    generalize mono O c d = e at *
    have ht : sumTerms e = none := by cases e <;> simp_all [isSum, sumTerms]
    simp only [List.filterMap_cons, ht, List.filterMap_nil, List.isEmpty_nil, if_true, List.filter_cons, hs, Bool.not_false, List.filter_nil]
    cases e with
    | sum ts => simp [isSum] at hs
    | _ => rfl
  · rw [List.map_singleton, h]
    rfl

/-- The last part of `Prod.expand`. -/
def prodTail (O : Oracle) (n : Nat) (X : Expr) (ds : List Expr) : R Expr :=
  match X with
  | prod us => do
    let es ← mapR (expandOr (expandableE O n) (expandE O n)) us
    let sums := es.filterMap sumTerms
    let other := es.filter (fun t => !t.isSum)
    if sums.isEmpty then (ctors O n).prod (other ++ ds)
    else do
      let ps ← mapR (fun c => (ctors O n).prod (other ++ c ++ ds)) (cartesian sums)
      (ctors O n).sum ps
  | _ => do
    let num' ← expandOr (expandableE O n) (expandE O n) X
    match num' with
    | sum ws => do
      let ps ← mapR (fun c => (ctors O n).prod (c ++ ds)) (cartesian [ws])
      (ctors O n).sum ps
    | _ => (ctors O n).prod (num' :: ds)

theorem tail_one (hO : O.Exact) (n : Nat) {u : Expr} {p : MvPolynomial Str ℚ}
    (h : expandOr (expandableE O (n + 6)) (expandE O (n + 6)) u = .ok (polyE O p)) (hg : Good p) (hu : u.isProd = false) (r : ℚ) :
    prodTail O (n + 6) u [rat r] = .ok (polyE O (MvPolynomial.C r * p)) := by
  rw [← one_factor hO n hg r]
  unfold prodTail
  cases u with
  | prod _ => simp [isProd] at hu
  | _ => dsimp only; rw [h, ok_bind]

theorem opPow_one (n : Nat) (s : Expr) : opPow O (ctors O (n + 1)) s (rat 1) = .ok s := by
  cases s with
  | rat q => simp [opPow, fracPowInt, bind, Except.bind, pure, Except.pure]
  | _ => exact pow_one' n _

theorem expand_poly (hO : O.Exact) {e : Expr} (h : PolyExpr O e) : ∀ {n : Nat}, height e + 8 ≤ n →
    expandOr (expandableE O n) (expandE O n) e = .ok (polyE O (toMv e)) := by
  have key : ∀ {e : Expr}, PolyExpr O e → ∀ {n : Nat}, height e + 8 ≤ n + 1 → (expandableE O n e = .ok true → expandE O (n + 1) e = .ok (polyE O (toMv e))) →
      expandOr (expandableE O (n + 1)) (expandE O (n + 1)) e = .ok (polyE O (toMv e)) := by
    intro e h n hn hx
    obtain ⟨b, hb⟩ := able_ok hO h (n := n) (by omega)
    have hb1 := expandableE_le_succ O n e b hb
    unfold expandOr
    rw [hb1, ok_bind]
    cases b with
    | true => simpa using hx hb
    | false => rw [← done_poly hO h hb]; rfl
  induction h with
  | rat q =>
    intro n hn
    obtain ⟨n, rfl⟩ : ∃ m, n = m + 1 := ⟨n - 1, by omega⟩
    rw [toMv_rat, polyE_C]; rfl
  | sym s hs =>
    intro n hn
    obtain ⟨n, rfl⟩ : ∃ m, n = m + 1 := ⟨n - 1, by omega⟩
    rw [← done_poly hO (.sym s hs) (n := 1) rfl]; rfl
  | @sum m ts hts hc ih =>
    intro n hn
    obtain ⟨n, rfl⟩ : ∃ m, n = m + 1 := ⟨n - 1, by omega⟩
    refine key (.sum m hts hc) hn fun hb => ?_
    rw [height] at hn
    have hmap : mapR (expandOr (expandableE O n) (expandE O n)) ts = .ok (ts.map fun t => polyE O (toMv t)) :=
      mapR_ok_of fun t ht => ih t ht (by have := heightL_mem ht; omega)
    rw [expandE, hb, ok_bind, assertR, if_pos rfl, ok_bind, hmap, ok_bind]
    obtain ⟨n, rfl⟩ : ∃ m, n = m + 6 := ⟨n - 6, by omega⟩
    have := sum_polys hO n (ts.map toMv) fun p hp => by obtain ⟨t, ht, rfl⟩ := List.mem_map.1 hp; exact good_toMv (hts t ht)
    rw [List.map_map] at this
    rw [toMv_sum]; exact this
  | @prod m ts hts hnp hc ih =>
    intro n hn
    obtain ⟨n, rfl⟩ : ∃ m, n = m + 1 := ⟨n - 1, by omega⟩
    refine key (.prod m hts hnp hc) hn fun hb => ?_
    rw [height] at hn
    obtain ⟨us, X, δ, h1, h2, h3, h4, h5⟩ := numDen_poly (C := ctors O n) hts hnp (acc_le hO (.prod m hts hnp hc))
    have hes : ∀ u ∈ us, expandOr (expandableE O n) (expandE O n) u = .ok (polyE O (toMv u)) ∧ Good (toMv u) := by
      intro u hu
      rcases h4 u hu with ⟨q, rfl⟩ | hu
      · obtain ⟨n, rfl⟩ : ∃ m, n = m + 1 := ⟨n - 1, by omega⟩
        rw [toMv_rat, polyE_C]; exact ⟨rfl, good_C q⟩
      · exact ⟨ih u hu (by have := heightL_mem hu; omega), good_toMv (hts u hu)⟩
    have hval : MvPolynomial.C (1 / δ) * (us.map toMv).prod = toMv (prod ts) := by
      rw [h5, toMv_prod, ← mul_assoc, ← map_mul, one_div_mul_cancel h3, map_one, one_mul]
    have hden : expandOr (expandableE O n) (expandE O n) (rat δ) = .ok (rat δ) := by
      obtain ⟨n, rfl⟩ : ∃ m, n = m + 1 := ⟨n - 1, by omega⟩
      rfl
    have hrec : recipTerms (ctors O n) (rat δ) = .ok [rat (1 / δ)] := by
      obtain ⟨n, rfl⟩ : ∃ m, n = m + 1 := ⟨n - 1, by omega⟩
      exact recip_rat n h3
    rw [expandE, hb, ok_bind, assertR, if_pos rfl, ok_bind, h1, ok_bind]
    dsimp only
    rw [hden, ok_bind, hrec, ok_bind, ← hval]
    obtain ⟨n, rfl⟩ : ∃ m, n = m + 6 := ⟨n - 6, by omega⟩
    show prodTail O (n + 6) X [rat (1 / δ)] = _
    rcases us with _ | ⟨u, _ | ⟨b, r⟩⟩
    · have : rat 1 = X := Except.ok.inj h2
      subst this
      have := tail_one hO n (u := rat 1) (p := MvPolynomial.C 1) (by rw [polyE_C]; rfl) (good_C 1) rfl (1 / δ)
      rw [this]; simp
    · have hup : u.isProd = false := by
        rcases h4 u (by simp) with ⟨q, rfl⟩ | hu
        · rfl
        · exact hnp u hu
      have : u = X := by simpa [mkProdSkip, hup] using h2
      subst this
      rw [tail_one hO n (hes u (by simp)).1 (hes u (by simp)).2 hup (1 / δ)]; simp
    · obtain rfl : prod (u :: b :: r) = X := Except.ok.inj h2
      have hmap : mapR (expandOr (expandableE O (n + 6)) (expandE O (n + 6))) (u :: b :: r) = .ok ((u :: b :: r).map fun t => polyE O (toMv t)) :=
        mapR_ok_of fun t ht => (hes t ht).1
      unfold prodTail
      dsimp only
      rw [hmap, ok_bind]
      have := mult_out hO n ((u :: b :: r).map toMv) (fun p hp => by obtain ⟨t, ht, rfl⟩ := List.mem_map.1 hp; exact (hes t ht).2) (1 / δ)
      rw [List.map_map] at this
      exact this
  | @pow m b k hb hk hc hneg ih =>
    intro n hn
    obtain ⟨n, rfl⟩ : ∃ m, n = m + 1 := ⟨n - 1, by omega⟩
    refine key (.pow m k hb hk hc hneg) hn fun hab => ?_
    have hh : height (pow b (rat (k : ℚ))) = 1 + max (height b) (height (rat (k : ℚ))) := by rw [height]
    rw [hh] at hn
    clear hh
    have hg := good_toMv hb
    have hx : expandOr (expandableE O n) (expandE O n) (rat (k : ℚ)) = .ok (rat k) := by
      obtain ⟨n, rfl⟩ : ∃ m, n = m + 1 := ⟨n - 1, by omega⟩
      rfl
    rw [expandE, hab, ok_bind, assertR, if_pos rfl, ok_bind, ih (by omega), ok_bind, hx, ok_bind, toMv_pow]
    generalize toMv b = p at *
    obtain ⟨n, rfl⟩ : ∃ m, n = m + 8 := ⟨n - 8, by omega⟩
    have keep : ∀ (q : MvPolynomial Str ℚ), Good q → q ^ k = p ^ k → ∀ ws, polyE O q = sum ws →
        (ctors O (n + 8)).pow (polyE O p) (rat k) = .ok (pow (sum ws) (rat k)) → (do
          let new ← (ctors O (n + 8)).pow (polyE O p) (rat k)
          match new with
          | pow (sum ws) (rat q) =>
            if powerExpandable (sum ws) (rat q) then do
              let ps ← mapR (multinomialTerm (ctors O (n + 8)) ws q.num.natAbs) (generatePermutations ws.length q.num.natAbs)
              let s ← (ctors O (n + 8)).sum ps
              opPow O (ctors O (n + 8)) s (rat (if q < 0 then -1 else 1))
            else return new
          | _ => return new) = .ok (polyE O (p ^ k)) := by
      intro q hq hqk ws hws hnew
      rw [hnew, ok_bind]
      dsimp only
      have hpe : powerExpandable (sum ws) (rat (k : ℚ)) = true := by
        have h1 : |(k : ℚ)| ≠ 1 := by
          rw [abs_of_nonneg (by positivity)]
          exact_mod_cast (by omega : k ≠ 1)
        simp [powerExpandable, h1]
        omega
      rw [if_pos hpe]
      obtain ⟨l, g1, g2, g3, _⟩ := terms_list (O := O) q
      rcases polyE_cases (O := O) q with ⟨c, d, rfl⟩ | ⟨h, hlen⟩
      · exfalso
        have := sum_mono (O := O) c d
        rw [← polyE_mono, hws] at this
        simp [isSum] at this
      · have hwl : ws = monos O l := by
          rw [h, g1] at hws
          exact (Expr.sum.inj hws).symm
        have hlne : l ≠ [] := by
          intro hl
          rw [hl] at g1
          have := congrArg List.length g1
          rw [h] at hws
          simp [monos] at this
          have h2 := (sorted_perm (O := O) (terms O q)).length_eq
          rw [this, List.length_nil] at h2
          omega
        have hgl : ∀ q' ∈ l, Good (mon q') := fun q' hq' => good_mono (hq q'.2 (by
          rw [MvPolynomial.mem_support_iff, ← (g3 q' hq').1]; exact (g3 q' hq').2))
        have hkn : (k : ℚ).num.natAbs = k := by simp
        have hpo := pow_out hO (n + 2) hlne hgl k
        rw [bind_ok] at hpo
        obtain ⟨ps, hps, hsum⟩ := hpo
        rw [hwl, hkn, hps, ok_bind, hsum, ok_bind, g2, hqk]
        have hk0 : ¬ ((k : ℚ) < 0) := by
          have : (0 : ℚ) ≤ k := by positivity
          linarith
        rw [if_neg hk0]
        exact opPow_one (n + 7) _
    rcases polyE_cases (O := O) p with ⟨c, d, rfl⟩ | ⟨h, hlen⟩
    · rw [polyE_mono, pow_mono (n + 3), ok_bind, MvPolynomial.monomial_pow, polyE_mono]
      have hne : ∀ ws x, mono O (c ^ k) (k • d) ≠ pow (sum ws) x := fun ws x => not_pow_sum
      generalize mono O (c ^ k) (k • d) = new at *
      split
      · exact absurd rfl (hne _ _)
      · rfl
    · have hp0 : p ≠ 0 := by
        intro h0
        rw [h0] at hlen
        simp [terms] at hlen
      by_cases hs : (polyE O p).isSubtraction = true
      · have hall := (sub_polyE hp0).1 hs
        have heven : Even k := by
          by_contra ho
          obtain ⟨d, hd⟩ := hneg (Nat.not_even_iff_odd.1 ho) hp0
          have := hall d (by rw [MvPolynomial.mem_support_iff]; exact hd.ne')
          linarith
        have hn' := neg_polyE hO (n + 1) hg
        rw [h] at hs hn'
        have hpow := pow_sum_even (O := O) (n + 7) hs hk heven hn'
        have hnot : ¬ (polyE O (-p)).isSubtraction = true := by
          rw [sub_polyE (by simpa using hp0)]
          intro hn
          obtain ⟨d, hd⟩ := MvPolynomial.support_nonempty.2 hp0
          have h1 := hall d hd
          have h2 := hn d (by simpa using hd)
          simp at h2; linarith
        rcases polyE_cases (O := O) (-p) with ⟨c, d, hcd⟩ | ⟨h', _⟩
        · exfalso
          have : p = MvPolynomial.monomial d (-c) := by rw [map_neg, ← hcd, neg_neg]
          have h3 := sum_mono (O := O) (-c) d
          rw [← polyE_mono, ← this, h] at h3
          simp [isSum] at h3
        · rw [h'] at hnot hpow
          refine keep (-p) (good_neg hg) (heven.neg_pow p) _ h' ?_
          rw [h, hpow]
          exact pow_sum_keep (n + 6) (by simpa using hnot) hk
      · refine keep p hg rfl _ h ?_
        rw [h] at hs ⊢
        exact pow_sum_keep (n + 7) (by simpa using hs) hk

end NF
end Simpy
