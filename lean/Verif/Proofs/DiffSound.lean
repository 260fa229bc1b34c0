import Verif.Model.Calculus
import Verif.Proofs.AdmExpand
import Verif.Proofs.Syms
import Verif.Proofs.Zero
import Verif.Proofs.DomOpen
import Mathlib.Analysis.SpecialFunctions.Pow.Deriv
import Mathlib.Analysis.SpecialFunctions.Trigonometric.Deriv
import Mathlib.Analysis.SpecialFunctions.Trigonometric.InverseDeriv
import Mathlib.Analysis.SpecialFunctions.Trigonometric.ArctanDeriv

/-! `diff` computes derivatives, and the derivative of a constant is literally 0. -/

namespace Simpy
open Expr Filter Topology

/-- What a run of `e.diff(v)` with `n` stack levels needs besides `e` being regular at `ρ`; every clause is a place
where the code is wrong otherwise.
* `log(i, b)`: the code differentiates as if the base were e;
* `|i|`: the code differentiates as if `i` were positive;
* trig functions of inverse trig functions and `asin`, `acos`: radicands `1 - w**2` must be principal (`TrigSide`,
  `RadOk`), because `Power` splits them;
* `csc`, `cot`: the code differentiates `1/sin`, `1/tan`; the conditions are those of these expressions. -/
def DiffOk (O : Oracle) (ρ : Str → ℝ) (v : Str) : Nat → Expr → Prop
  | 0, _ => True
  | n + 1, e =>
    match e with
    | sum ts => ∀ t ∈ ts, DiffOk O ρ v n t
    | prod ts => ∀ t ∈ ts, DiffOk O ρ v n t
    | pow b x => DiffOk O ρ v n b ∧ DiffOk O ρ v n x
    | log i b => DiffOk O ρ v n i ∧ (b = euler ∨ (v ∉ syms i ∧ v ∉ syms b))
    | absv i => DiffOk O ρ v n i ∧ (v ∉ syms i ∨ 0 < den ρ i)
    | trig f i =>
      match f with
      | .sin | .cos | .tan | .sec => DiffOk O ρ v n i ∧ TrigSide O ρ n i
      | .csc => containsCls isInvTrig i = false ∧ ∀ s q, trigCtor O n .sin i = .ok s →
          opDiv (ctors O n) (rat 1) s = .ok q → DiffOk O ρ v n q
      | .cot => containsCls isInvTrig i = false ∧ Real.cos (den ρ i) ≠ 0 ∧ ∀ s q, trigCtor O n .tan i = .ok s →
          opDiv (ctors O n) (rat 1) s = .ok q → DiffOk O ρ v n q
      | .asin | .acos => DiffOk O ρ v n i ∧ ∀ p z, opPow O (ctors O n) i (rat 2) = .ok p →
          opSub (ctors O n) (rat 1) p = .ok z → RadOk ρ (rat (1 / 2)) z
      | .atan => DiffOk O ρ v n i
    | _ => True

/-- `d` is the derivative of `e` with respect to `v` at `ρ`, and is 0 if `e` does not contain `v`. -/
structure IsDiff (ρ : Str → ℝ) (v : Str) (e d : Expr) : Prop where
  wf : WF d
  dom : DomS true ρ d
  deriv : HasDerivAt (fun t => den (upd ρ v t) e) (den ρ d) (ρ v)
  zero : v ∉ syms e → d = rat 0

theorem den_upd_free {ρ : Str → ℝ} {v : Str} {e : Expr} (h : v ∉ syms e) (t : ℝ) : den (upd ρ v t) e = den ρ e := by
  refine den_congr e fun s hs => ?_
  rw [upd, Function.update_of_ne]
  rintro rfl
  exact h hs

theorem HasDerivAt.pw_const {f : ℝ → ℝ} {f' a c : ℝ} (hf : HasDerivAt f f' a)
    (hc : 0 < f a ∨ ∃ n : ℤ, c = n ∧ (f a ≠ 0 ∨ 1 ≤ n)) :
    HasDerivAt (fun t => pw (f t) c) (c * pw (f a) (c - 1) * f') a := by
  rcases hc with hc | ⟨n, rfl, hn⟩
  · have h1 : (fun t => pw (f t) c) =ᶠ[𝓝 a] fun t => f t ^ c := by
      have : ∀ᶠ t in 𝓝 a, 0 < f t := hf.continuousAt.preimage_mem_nhds (Ioi_mem_nhds hc)
      exact this.mono fun t ht => pw_of_nonneg ht.le _
    rw [pw_of_nonneg hc.le]
    refine HasDerivAt.congr_of_eventuallyEq ?_ h1
    have := hf.rpow_const (p := c) (.inl hc.ne')
    exact this.congr_deriv (by ring)
  · have h1 : (fun t => pw (f t) n) = fun t => f t ^ n := by
      funext t; exact pw_int _ _
    rw [h1]
    have h2 : pw (f a) ((n : ℝ) - 1) = f a ^ (n - 1) := by
      have := pw_int (f a) (n - 1)
      push_cast at this
      exact this
    rw [h2]
    have hz : f a ≠ 0 ∨ 0 ≤ n := hn.imp_right (by omega)
    have := (hasDerivAt_zpow n (f a) hz).comp a hf
    exact this

theorem hasDerivAt_sum {ρ : Str → ℝ} {v : Str} : ∀ {ts us : List Expr},
    List.Forall₂ (fun t u => HasDerivAt (fun x => den (upd ρ v x) t) (den ρ u) (ρ v)) ts us →
    HasDerivAt (fun x => den (upd ρ v x) (sum ts)) ((us.map (den ρ)).sum) (ρ v)
  | [], _, .nil => by simp only [den, denS, List.map_nil, List.sum_nil]; exact hasDerivAt_const _ _
  | t :: r, u :: w, .cons h1 h2 => by
    have ih := hasDerivAt_sum h2
    simp only [den] at ih
    simp only [den, denS, List.map_cons, List.sum_cons]
    exact h1.fun_add ih

theorem isDiff_list {ρ : Str → ℝ} {v : Str} : ∀ {ts us : List Expr}, List.Forall₂ (fun t u => IsDiff ρ v t u) ts us →
    ∀ u ∈ us, WF u ∧ DomS true ρ u ∧ (v ∉ symsL ts → u = rat 0)
  | [], _, .nil, u, hu => by simp at hu
  | _ :: _, _ :: _, .cons h1 h2, u, hu => by
    rcases List.mem_cons.1 hu with rfl | hu
    · exact ⟨h1.wf, h1.dom, fun hv => h1.zero (fun h => hv (by simp [symsL, h]))⟩
    · obtain ⟨a, b, c⟩ := isDiff_list h2 u hu
      exact ⟨a, b, fun hv => c (fun h => hv (by simp [symsL, h]))⟩

theorem opPow_zero_exp {O : Oracle} {n : Nat} {b p : Expr} (h : opPow O (ctors O n) b (rat 0) = .ok p) : p = rat 1 := by
  have gen : (ctors O n).pow b (rat 0) = .ok p → p = rat 1 := by
    intro h
    cases n with
    | zero => simp [ctors] at h
    | succ n =>
      have h' : powCtor O (ctors O n) b (rat 0) = .ok p := h
      simp [powCtor, beq] at h'
      exact h'.symm
  cases b with
  | rat q => simpa [opPow, fracPowInt, Bind.bind, Except.bind, Pure.pure, Except.pure, eq_comm] using h
  | _ => exact gen h

/-- What is known of a derivative function applied to the factors. -/
theorem prodDiff_V {O : Oracle} (hO : O.Exact) {n : Nat} {ρ : Str → ℝ} {v : Str} {d : Expr → R Expr} :
    ∀ (ts pre us : List Expr), (∀ t ∈ pre, WF t ∧ DomS true ρ t) → (∀ t ∈ ts, WF t ∧ DomS true ρ t) →
    (∀ t ∈ ts, ∀ u, d t = .ok u → IsDiff ρ v t u) → prodDiffTerms (ctors O n) d pre ts = .ok us →
    (∀ u ∈ us, WF u ∧ DomS true ρ u) ∧ ((∀ t ∈ ts, v ∉ syms t) → ∀ u ∈ us, u = rat 0) ∧
    ∃ D, HasDerivAt (fun x => den (upd ρ v x) (prod ts)) D (ρ v) ∧
      (us.map (den ρ)).sum = (pre.map (den ρ)).prod * D
  | [], pre, us, _, _, _, h => by
    simp only [prodDiffTerms, Except.ok.injEq] at h
    subst h
    refine ⟨by simp, by simp, 0, ?_, by simp⟩
    simp only [den, denP]; exact hasDerivAt_const _ _
  | t :: r, pre, us, hp, ht, hd, h => by
    have hC := ctors_sound hO n
    simp only [prodDiffTerms] at h
    obtain ⟨dt, h1, h⟩ := bind_ok.1 h
    obtain ⟨p, h2, h⟩ := bind_ok.1 h
    obtain ⟨ps, h3, h⟩ := bind_ok.1 h
    have i1 := hd t (by simp) dt h1
    obtain ⟨i2, i3, D, i4, i5⟩ := prodDiff_V hO r (pre ++ [t]) ps (by
      intro u hu
      rcases List.mem_append.1 hu with hu | hu
      · exact hp u hu
      · simp only [List.mem_singleton] at hu; rw [hu]; exact ht t (by simp)) (fun u hu => ht u (by simp [hu]))
      (fun u hu => hd u (by simp [hu])) h3
    have hW : ∀ u ∈ dt :: (pre ++ r), WF u ∧ DomS true ρ u := by
      intro u hu
      rcases List.mem_cons.1 hu with rfl | hu
      · exact ⟨i1.wf, i1.dom⟩
      rcases List.mem_append.1 hu with hu | hu
      · exact hp u hu
      · exact ht u (by simp [hu])
    obtain ⟨v1, d1⟩ := hC.prod (s := true) ρ _ p (fun u hu => (hW u hu).1) (fun u hu => (hW u hu).2) h2
    have w1 := hC.prodW _ p (fun u hu => (hW u hu).1) h2
    simp only [pure_ok] at h
    subst h
    refine ⟨?_, ?_, ?_⟩
    · intro u hu
      rcases List.mem_cons.1 hu with rfl | hu
      · exact ⟨w1, d1⟩
      · exact i2 u hu
    · intro hfree u hu
      rcases List.mem_cons.1 hu with rfl | hu
      · have := i1.zero (hfree t (by simp))
        exact prod_zero hO n (fun u hu => (hW u hu).1) (fun u hu => (hW u hu).2) (by simp [this]) h2
      · exact i3 (fun w hw => hfree w (by simp [hw])) u hu
    · refine ⟨den ρ dt * (r.map (den ρ)).prod + den ρ t * D, ?_, ?_⟩
      · have e : (fun x => den (upd ρ v x) (prod (t :: r))) =
            fun x => den (upd ρ v x) t * den (upd ρ v x) (prod r) := by
          funext x; simp only [den, denP]
        rw [e]
        have := i1.deriv.fun_mul i4
        simpa only [upd_self, den_prod] using this
      · simp only [List.map_cons, List.sum_cons, v1, i5, List.prod_cons, List.map_append, List.prod_append,
          List.map_nil, List.prod_nil]
        ring

theorem diff_sound {O : Oracle} (hO : O.Exact) {ρ : Str → ℝ} {v : Str} : ∀ (n : Nat) {e d : Expr}, WF e →
    DomS true ρ e → DiffOk O ρ v n e → diffE O n v e = .ok d → IsDiff ρ v e d
  | 0, _, _, _, _, _, h => by simp [diffE] at h
  | n + 1, e, d, we, de, hok, h => by
    have hC := ctors_sound hO n
    have ih := fun {e d : Expr} => diff_sound hO (ρ := ρ) (v := v) n (e := e) (d := d)
    have constE : ∀ {e : Expr}, v ∉ syms e → IsDiff ρ v e (rat 0) := by
      intro e hv
      refine ⟨by simp, by simp, ?_, fun _ => rfl⟩
      simp only [den_upd_free hv, den_rat, Rat.cast_zero]
      exact hasDerivAt_const _ _
    /- `m * di` where `m` has value `k` -/
    have mulD : ∀ {i di m : Expr} {k : ℝ}, IsDiff ρ v i di → WF m → DomS true ρ m → den ρ m = k →
        opMul (ctors O n) m di = .ok d → WF d ∧ DomS true ρ d ∧ den ρ d = k * den ρ di ∧ (v ∉ syms i → d = rat 0) := by
      intro i di m k hi wm dm hk hmul
      obtain ⟨v1, d1⟩ := opMul_V hC wm hi.wf dm hi.dom hmul
      refine ⟨opMul_W hC wm hi.wf hmul, d1, by rw [v1, hk], fun hv => ?_⟩
      rw [hi.zero hv] at hmul
      exact opMul_zero hO wm dm hmul
    unfold diffE at h
    cases e with
    | rat q => simp only [Except.ok.injEq] at h; subst h; exact constE (by simp [syms])
    | flt q => simp [DomS] at de
    | pi => simp only [Except.ok.injEq] at h; subst h; exact constE (by simp [syms])
    | euler => simp only [Except.ok.injEq] at h; subst h; exact constE (by simp [syms])
    | inf => simp [DomS] at de
    | neginf => simp [DomS] at de
    | any k => simp [DomS] at de
    | sym s =>
      simp only [Except.ok.injEq] at h
      subst h
      split
      · next hs =>
        subst hs
        refine ⟨by simp, by simp, ?_, by simp [syms]⟩
        simp only [den, upd, Function.update_self, Rat.cast_one]
        exact hasDerivAt_id _
      · next hs => exact constE (by simpa [syms] using Ne.symm hs)
    | sum ts =>
      obtain ⟨us, h1, h⟩ := bind_ok.1 h
      rw [mapR_ok] at h1
      have hall : List.Forall₂ (fun t u => IsDiff ρ v t u) ts us :=
        forall₂_of_mem h1 fun t ht u hu =>
          ih ((WF_sum).1 we t ht) (Dom_sum.1 de t ht) ((show ∀ t ∈ ts, DiffOk O ρ v n t from hok) t ht) hu
      have hu := isDiff_list hall
      obtain ⟨v1, d1⟩ := hC.sum (s := true) ρ us d (fun u h => (hu u h).1) (fun u h => (hu u h).2.1) h
      refine ⟨hC.sumW us d (fun u h => (hu u h).1) h, d1, ?_, fun hv => ?_⟩
      · rw [v1]
        exact hasDerivAt_sum (hall.imp fun _ _ h => h.deriv)
      · exact sum_zero n (fun u h => (hu u h).2.2 hv) h
    | prod ts =>
      obtain ⟨us, h1, h⟩ := bind_ok.1 h
      rw [WF_prod] at we
      rw [Dom_prod] at de
      simp only [DiffOk] at hok
      obtain ⟨a, b, D, c1, c2⟩ := prodDiff_V hO ts [] us (by simp) (fun t ht => ⟨we.2 t ht, de t ht⟩)
        (fun t ht u hu => ih (we.2 t ht) (de t ht) (hok t ht) hu) h1
      obtain ⟨v1, d1⟩ := hC.sum (s := true) ρ us d (fun u h => (a u h).1) (fun u h => (a u h).2) h
      refine ⟨hC.sumW us d (fun u h => (a u h).1) h, d1, ?_, fun hv => ?_⟩
      · rw [v1, c2]; simpa using c1
      · refine sum_zero n (b fun t ht hv' => hv ?_) h
        simp only [syms]
        exact symsL_mem.2 ⟨t, ht, hv'⟩
    | pow b x =>
      obtain ⟨db, dx, h3, h4, h5⟩ := id de
      obtain ⟨wb, wx, hbo⟩ := id we
      simp only [DiffOk] at hok
      have hpos : intExp x = false → 0 < den ρ b := fun hi =>
        lt_of_le_of_ne (h4 hi).nonneg (Ne.symm ((h5 rfl).resolve_right (by simp [hi])))
      dsimp only at h
      split at h
      · next hx =>
        have hxv : v ∉ syms x := by
          rw [← contains_iff]; simpa using hx
        obtain ⟨x1, e1, h⟩ := bind_ok.1 h
        obtain ⟨p, e2, h⟩ := bind_ok.1 h
        obtain ⟨m, e3, h⟩ := bind_ok.1 h
        obtain ⟨db', e4, h⟩ := bind_ok.1 h
        have ib := ih wb db hok.1 e4
        obtain ⟨vx1, dx1⟩ := opSub_V hC wx (WF_rat 1) dx (Dom_rat ρ 1) e1
        have wx1 := opSub_W hC wx (WF_rat 1) e1
        have hp : WF p ∧ DomS true ρ p ∧ den ρ p = pw (den ρ b) (den ρ x - 1) := by
          have hint : intExp x = true → ∃ k : ℤ, x = rat k ∧ x1 = rat ((k - 1 : ℤ) : ℚ) := by
            intro hi
            obtain ⟨k, rfl⟩ := intExp_iff.1 hi
            refine ⟨k, rfl, ?_⟩
            simp only [opSub, Except.ok.injEq] at e1
            rw [← e1]; push_cast; rfl
          by_cases hcase : den ρ b = 0 ∧ x1 = rat 0
          · obtain ⟨hb0, rfl⟩ := hcase
            have hp1 : p = rat 1 := opPow_zero_exp e2
            subst hp1
            refine ⟨by simp, by simp, ?_⟩
            have : den ρ x - 1 = 0 := by simpa using vx1.symm
            rw [this]; simp
          · have hpd : PowDomS true ρ b x1 := by
              have hor : den ρ b ≠ 0 ∨ intExp x1 = true ∧ 1 ≤ den ρ x1 := by
                by_cases hb0 : den ρ b = 0
                · right
                  obtain ⟨hi, h1⟩ := (h5 rfl).resolve_left (by simpa using hb0)
                  obtain ⟨k, rfl, rfl⟩ := hint hi
                  have hk : (1 : ℤ) ≤ k := by exact_mod_cast (by simpa using h1 : (1 : ℝ) ≤ k)
                  have hk1 : k ≠ 1 := by
                    rintro rfl
                    exact hcase ⟨hb0, by norm_num⟩
                  refine ⟨intExp_iff.2 ⟨_, rfl⟩, ?_⟩
                  simp only [den_rat, Rat.cast_intCast]
                  exact_mod_cast (by omega : (1 : ℤ) ≤ k - 1)
                · exact .inl hb0
              refine ⟨db, dx1, hor.imp_right (fun h => by linarith [h.2]), ?_, fun _ => hor⟩
              intro hi1
              cases hi : intExp x with
              | false => exact (h4 hi).radOk
              | true =>
                obtain ⟨k, _, rfl⟩ := hint hi
                rw [intExp_iff.2 ⟨_, rfl⟩] at hi1
                simp at hi1
            obtain ⟨a, b'⟩ := opPow_V hC wb wx1 hpd e2
            refine ⟨opPow_W hC wb wx1 e2, b', ?_⟩
            rw [a, vx1]; simp
        obtain ⟨wp, dp, vp⟩ := hp
        obtain ⟨vm, dm⟩ := opMul_V hC wx wp dx dp e3
        obtain ⟨a1, a2, a3, a4⟩ := mulD ib (opMul_W hC wx wp e3) dm vm h
        refine ⟨a1, a2, ?_, fun hv => a4 (fun h => hv (by simp [syms, h]))⟩
        rw [a3, vp]
        have := HasDerivAt.pw_const (c := den ρ x) ib.deriv (by
          simp only [upd_self]
          cases hi : intExp x with
          | false => exact .inl (hpos hi)
          | true =>
            obtain ⟨k, rfl⟩ := intExp_iff.1 hi
            refine .inr ⟨k, by simp, (h5 rfl).imp_right (fun h => ?_)⟩
            exact_mod_cast (by simpa using h.2 : (1 : ℝ) ≤ k))
        simp only [upd_self] at this
        simpa only [den, den_upd_free hxv] using this
      · next hx =>
        split at h
        · next hb =>
          have hbv : v ∉ syms b := by
            rw [← contains_iff]; simpa using hb
          have hxi : intExp x = false := by
            by_contra hi
            obtain ⟨k, rfl⟩ := intExp_iff.1 (by simpa using hi)
            simp [contains] at hx
          have hbp := hpos hxi
          obtain ⟨l, e1, h⟩ := bind_ok.1 h
          obtain ⟨m, e2, h⟩ := bind_ok.1 h
          obtain ⟨dx', e3, h⟩ := bind_ok.1 h
          have ix := ih wx dx hok.2 e3
          have he : Real.log (den ρ euler) = 1 := by simp [den]
          have hlv := logCtor_V (st := true) hO.isPi hO.isE (ρ := ρ) (i := b) (b := euler)
            ⟨db.domF, by simp [DomF], hbp, by simp [den, Real.exp_pos], by simp [den]⟩ e1
          have wl : WF l := logCtor_W wb (by simp [WF]) e1
          have dl := hlv.2.2 db (by simp [DomS]) (h4 hxi)
          obtain ⟨vm, dm⟩ := opMul_V hC wl we dl de e2
          obtain ⟨a1, a2, a3, a4⟩ := mulD ix (opMul_W hC wl we e2) dm vm h
          refine ⟨a1, a2, ?_, fun hv => a4 (fun h => hv (by simp [syms, h]))⟩
          rw [a3, hlv.1, he, div_one]
          have hfun : (fun t => den (upd ρ v t) (pow b x)) = fun t => (den ρ b) ^ (den (upd ρ v t) x) := by
            funext t
            simp only [den, den_upd_free hbv]
            exact pw_of_nonneg hbp.le _
          rw [hfun]
          have := ix.deriv.const_rpow hbp
          convert this using 1
          simp only [den, upd_self, pw_of_nonneg hbp.le]
          ring
        · simp at h
    | log i b =>
      obtain ⟨di, e1, hD⟩ := bind_ok.1 h
      simp only [DiffOk] at hok
      obtain ⟨g1, g2, g3, g4, g5, g6⟩ := id de
      have ii := ih we.1 g1 hok.1 e1
      obtain ⟨v1, d1⟩ := opDiv_V hC ii.wf we.1 ii.dom g1 g4.ne' hD
      have hz : v ∉ syms i → d = rat 0 := by
        intro hv
        rw [ii.zero hv] at hD
        exact opDiv_zero hO we.1 g1 g4.ne' hD
      rcases hok.2 with rfl | ⟨hv1, hv2⟩
      · refine ⟨opDiv_W hC ii.wf we.1 hD, d1, ?_, fun hv => hz (fun h => hv (by simp [syms, h]))⟩
        rw [v1]
        have e : (fun t => den (upd ρ v t) (log i euler)) = fun t => Real.log (den (upd ρ v t) i) := by
          funext t; simp [den]
        rw [e]
        have := ii.deriv.log (by simpa using g4.ne')
        simpa only [upd_self] using this
      · rw [hz hv1]
        exact constE (by simp [syms, hv1, hv2])
    | absv i =>
      simp only [DiffOk] at hok
      have ii := ih (e := i) we de.1 hok.1 h
      refine ⟨ii.wf, ii.dom, ?_, fun hv => ii.zero hv⟩
      rcases hok.2 with hv | hp
      · rw [ii.zero hv]
        exact (constE (e := absv i) hv).deriv
      · have e : (fun t => den (upd ρ v t) (absv i)) =ᶠ[𝓝 (ρ v)] fun t => den (upd ρ v t) i := by
          have : ∀ᶠ t in 𝓝 (ρ v), 0 < den (upd ρ v t) i :=
            ii.deriv.continuousAt.preimage_mem_nhds (Ioi_mem_nhds (by simpa using hp))
          refine this.mono fun t ht => ?_
          simp only [den]; exact abs_of_pos ht
        exact ii.deriv.congr_of_eventuallyEq e
    | trig f i =>
      obtain ⟨di0, hfo, hfi⟩ := id de
      have wi : WF i := we
      /- `csc`, `cot` -/
      have recip : ∀ (g : TrigFn) (s q : Expr), g = .sin ∨ g = .tan → g.ok (den ρ i) → g.real (den ρ i) ≠ 0 →
          containsCls isInvTrig i = false → trigCtor O n g i = .ok s → opDiv (ctors O n) (rat 1) s = .ok q →
          DiffOk O ρ v n q → diffE O n v q = .ok d →
          (∀ t, f.real t = 1 / g.real t) → IsDiff ρ v (trig f i) d := by
        intro g s q hg gok gne hno e1 e2 hq e3 hrec
        have hgi : g.isInverse = false := by rcases hg with rfl | rfl <;> rfl
        have ws := trigCtor_W hO n wi e1
        have wq := opDiv_W hC (WF_rat 1) ws e2
        have local' : ∀ σ, DomS true σ i → g.ok (den σ i) → g.real (den σ i) ≠ 0 →
            den σ q = 1 / g.real (den σ i) ∧ DomS true σ q := by
          intro σ h1 h2 h3
          obtain ⟨a, b⟩ := trigCtor_V hO n hgi wi h1 h2 (trigSide_of_noInv O σ n hno)
            (by rintro rfl; simp at hg) e1
          have := opDiv_V hC (WF_rat 1) ws (Dom_rat σ 1) b (by rw [a]; exact h3) e2
          rw [a] at this
          simpa using this
        have hop := openAt (v := v) i di0
        have n1 : Near ρ v (fun σ => g.ok (den σ i)) :=
          (TrigFn.okOpen hop.1 gok (TrigFn.inner_of hgi _)).mono fun σ h => h.1
        have n2 : Near ρ v (fun σ => g.real (den σ i) ≠ 0) := by
          have := (hop.1.comp (TrigFn.contAt gok)).preimage_mem_nhds
            (isOpen_compl_singleton.mem_nhds (show g.real (den (upd ρ v (ρ v)) i) ∈ ({0} : Set ℝ)ᶜ by simpa using gne))
          exact this
        have hloc := local' ρ di0 gok gne
        have hI := ih wq hloc.2 hq e3
        refine ⟨hI.wf, hI.dom, ?_, fun hv => hI.zero ?_⟩
        · refine hI.deriv.congr_of_eventuallyEq ?_
          have := (hop.2.1.and n1).and n2
          refine Filter.Eventually.mono this fun t ht => ?_
          show den (upd ρ v t) (trig f i) = den (upd ρ v t) q
          rw [(local' _ ht.1.1 ht.1.2 ht.2).1]
          simp only [den, hrec]
        · intro hv'
          have hs := (adm_syms O (fun s => s ∈ syms i)).opDiv (by simp [syms])
            ((adm_syms O (fun s => s ∈ syms i)).ptrig n g (fun s hs => hs) e1) e2
          exact hv (hs v hv')
      cases f with
      | sin =>
        obtain ⟨c, e1, h⟩ := bind_ok.1 h
        obtain ⟨di, e2, h⟩ := bind_ok.1 h
        simp only [DiffOk] at hok
        have ii := ih wi di0 hok.1 e2
        obtain ⟨vc, dc⟩ := trigCtor_V hO n (f := .cos) rfl wi di0 trivial hok.2 (by simp) e1
        obtain ⟨a1, a2, a3, a4⟩ := mulD ii (trigCtor_W hO n wi e1) dc vc h
        refine ⟨a1, a2, ?_, a4⟩
        rw [a3]
        simpa only [den, TrigFn.real, upd_self] using ii.deriv.sin
      | cos =>
        obtain ⟨s, e1, h⟩ := bind_ok.1 h
        obtain ⟨m, e3, h⟩ := bind_ok.1 h
        obtain ⟨di, e2, h⟩ := bind_ok.1 h
        simp only [DiffOk] at hok
        have ii := ih wi di0 hok.1 e2
        obtain ⟨vc, dc⟩ := trigCtor_V hO n (f := .sin) rfl wi di0 trivial hok.2 (by simp) e1
        have wc := trigCtor_W hO n wi e1
        obtain ⟨vm, dm⟩ := opNeg_V hC wc dc e3
        obtain ⟨a1, a2, a3, a4⟩ := mulD ii (opNeg_W hC wc e3) dm vm h
        refine ⟨a1, a2, ?_, a4⟩
        rw [a3, vc]
        simpa only [den, TrigFn.real, upd_self] using ii.deriv.cos
      | tan =>
        obtain ⟨s, e1, h⟩ := bind_ok.1 h
        obtain ⟨p, e3, h⟩ := bind_ok.1 h
        obtain ⟨di, e2, h⟩ := bind_ok.1 h
        simp only [DiffOk] at hok
        have hcos : Real.cos (den ρ i) ≠ 0 := hfo
        have ii := ih wi di0 hok.1 e2
        obtain ⟨vc, dc⟩ := trigCtor_V hO n (f := .sec) rfl wi di0 hcos hok.2 (by simp) e1
        have wc := trigCtor_W hO n wi e1
        obtain ⟨wp, vp, dp⟩ := sq_V hC wc dc e3
        obtain ⟨a1, a2, a3, a4⟩ := mulD ii wp dp vp h
        refine ⟨a1, a2, ?_, a4⟩
        rw [a3, vc]
        have e : (fun t => den (upd ρ v t) (trig .tan i)) = fun t => Real.tan (den (upd ρ v t) i) := by
          funext t; simp only [den, TrigFn.real, Real.tan_eq_sin_div_cos]
        rw [e]
        have := (Real.hasDerivAt_tan (x := den (upd ρ v (ρ v)) i) (by simpa using hcos)).comp (ρ v) ii.deriv
        simp only [upd_self] at this
        exact this.congr_deriv (by simp only [TrigFn.real]; ring)
      | csc =>
        obtain ⟨s, e1, h⟩ := bind_ok.1 h
        obtain ⟨q, e2, h⟩ := bind_ok.1 h
        simp only [DiffOk] at hok
        exact recip .sin s q (.inl rfl) trivial hfo hok.1 e1 e2 (hok.2 s q e1 e2) h (fun t => rfl)
      | sec =>
        obtain ⟨s, e1, h⟩ := bind_ok.1 h
        obtain ⟨t, e2, h⟩ := bind_ok.1 h
        obtain ⟨m, e3, h⟩ := bind_ok.1 h
        obtain ⟨di, e4, h⟩ := bind_ok.1 h
        simp only [DiffOk] at hok
        have hcos : Real.cos (den ρ i) ≠ 0 := hfo
        have ii := ih wi di0 hok.1 e4
        obtain ⟨vs, ds⟩ := trigCtor_V hO n (f := .sec) rfl wi di0 hcos hok.2 (by simp) e1
        obtain ⟨vt, dt⟩ := trigCtor_V hO n (f := .tan) rfl wi di0 hcos hok.2 (by simp) e2
        have ws := trigCtor_W hO n wi e1
        have wt := trigCtor_W hO n wi e2
        obtain ⟨vm, dm⟩ := opMul_V hC ws wt ds dt e3
        obtain ⟨a1, a2, a3, a4⟩ := mulD ii (opMul_W hC ws wt e3) dm vm h
        refine ⟨a1, a2, ?_, a4⟩
        rw [a3, vs, vt]
        have e : (fun t => den (upd ρ v t) (trig .sec i)) = fun t => (Real.cos (den (upd ρ v t) i))⁻¹ := by
          funext t; simp only [den, TrigFn.real, one_div]
        rw [e]
        have := ii.deriv.cos.inv (by simpa using hcos)
        simp only [upd_self] at this
        exact this.congr_deriv (by simp only [TrigFn.real]; field_simp)
      | cot =>
        obtain ⟨s, e1, h⟩ := bind_ok.1 h
        obtain ⟨q, e2, h⟩ := bind_ok.1 h
        simp only [DiffOk] at hok
        have hsin : Real.sin (den ρ i) ≠ 0 := hfo
        exact recip .tan s q (.inr rfl) hok.2.1 (div_ne_zero hsin hok.2.1) hok.1 e1 e2 (hok.2.2 s q e1 e2) h
          (fun t => by simp only [TrigFn.real, one_div_div])
      | asin =>
        obtain ⟨p, e1, h⟩ := bind_ok.1 h
        obtain ⟨z, e2, h⟩ := bind_ok.1 h
        obtain ⟨s, e3, h⟩ := bind_ok.1 h
        obtain ⟨q, e4, h⟩ := bind_ok.1 h
        obtain ⟨di, e5, h⟩ := bind_ok.1 h
        simp only [DiffOk] at hok
        have hin : -1 < den ρ i ∧ den ρ i < 1 := hfi rfl
        have ii := ih wi di0 hok.1 e5
        obtain ⟨wp, vp, dp⟩ := sq_V hC wi di0 e1
        obtain ⟨vz, dz⟩ := opSub_V hC (WF_rat 1) wp (Dom_rat ρ 1) dp e2
        have wz := opSub_W hC (WF_rat 1) wp e2
        rw [vp, den_rat, Rat.cast_one] at vz
        have hz : 0 < den ρ z := by rw [vz]; nlinarith
        obtain ⟨vs, ds⟩ := opSqrt_V hC wz dz (hok.2 p z e1 e2) (fun _ => hz.ne') e3
        have ws := opSqrt_W hC wz e3
        obtain ⟨vq, dq⟩ := opDiv_V hC (WF_rat 1) ws (Dom_rat ρ 1) ds (by rw [vs]; exact (Real.sqrt_pos.2 hz).ne') e4
        obtain ⟨a1, a2, a3, a4⟩ := mulD ii (opDiv_W hC (WF_rat 1) ws e4) dq vq h
        refine ⟨a1, a2, ?_, a4⟩
        rw [a3, vs, vz, den_rat, Rat.cast_one]
        have := (Real.hasDerivAt_arcsin (x := den (upd ρ v (ρ v)) i) (by simpa using hin.1.ne')
          (by simpa using hin.2.ne)).comp (ρ v) ii.deriv
        simp only [upd_self] at this
        exact this
      | acos =>
        obtain ⟨p, e1, h⟩ := bind_ok.1 h
        obtain ⟨z, e2, h⟩ := bind_ok.1 h
        obtain ⟨s, e3, h⟩ := bind_ok.1 h
        obtain ⟨q, e4, h⟩ := bind_ok.1 h
        obtain ⟨di, e5, h⟩ := bind_ok.1 h
        simp only [DiffOk] at hok
        have hin : -1 < den ρ i ∧ den ρ i < 1 := hfi rfl
        have ii := ih wi di0 hok.1 e5
        obtain ⟨wp, vp, dp⟩ := sq_V hC wi di0 e1
        obtain ⟨vz, dz⟩ := opSub_V hC (WF_rat 1) wp (Dom_rat ρ 1) dp e2
        have wz := opSub_W hC (WF_rat 1) wp e2
        rw [vp, den_rat, Rat.cast_one] at vz
        have hz : 0 < den ρ z := by rw [vz]; nlinarith
        obtain ⟨vs, ds⟩ := opSqrt_V hC wz dz (hok.2 p z e1 e2) (fun _ => hz.ne') e3
        have ws := opSqrt_W hC wz e3
        obtain ⟨vq, dq⟩ := opDiv_V hC (WF_rat (-1)) ws (Dom_rat ρ (-1)) ds (by rw [vs]; exact (Real.sqrt_pos.2 hz).ne') e4
        obtain ⟨a1, a2, a3, a4⟩ := mulD ii (opDiv_W hC (WF_rat (-1)) ws e4) dq vq h
        refine ⟨a1, a2, ?_, a4⟩
        rw [a3, vs, vz, den_rat]
        have := (Real.hasDerivAt_arccos (x := den (upd ρ v (ρ v)) i) (by simpa using hin.1.ne')
          (by simpa using hin.2.ne)).comp (ρ v) ii.deriv
        simp only [upd_self] at this
        exact this.congr_deriv (by push_cast; ring)
      | atan =>
        obtain ⟨p, e1, h⟩ := bind_ok.1 h
        obtain ⟨z, e2, h⟩ := bind_ok.1 h
        obtain ⟨q, e4, h⟩ := bind_ok.1 h
        obtain ⟨di, e5, h⟩ := bind_ok.1 h
        simp only [DiffOk] at hok
        have ii := ih wi di0 hok e5
        obtain ⟨wp, vp, dp⟩ := sq_V hC wi di0 e1
        obtain ⟨vz, dz⟩ := opAdd_V hC (WF_rat 1) wp (Dom_rat ρ 1) dp e2
        have wz := opAdd_W hC (WF_rat 1) wp e2
        rw [vp, den_rat, Rat.cast_one] at vz
        have hz : 0 < den ρ z := by rw [vz]; positivity
        obtain ⟨vq, dq⟩ := opDiv_V hC (WF_rat 1) wz (Dom_rat ρ 1) dz hz.ne' e4
        obtain ⟨a1, a2, a3, a4⟩ := mulD ii (opDiv_W hC (WF_rat 1) wz e4) dq vq h
        refine ⟨a1, a2, ?_, a4⟩
        rw [a3, vz, den_rat, Rat.cast_one]
        have := (Real.hasDerivAt_arctan (den (upd ρ v (ρ v)) i)).comp (ρ v) ii.deriv
        simp only [upd_self] at this
        exact this

end Simpy
