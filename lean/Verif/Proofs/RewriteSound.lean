import Verif.Proofs.USubSound
import Verif.Proofs.ClassSound

/-! RewriteTrig and RewritePythagorean. -/

namespace Simpy
open Expr Node

variable {O : Oracle}

/-- `r` is well formed and defined, with value `x`. -/
def Val (st : Bool) (ρ : Str → ℝ) (r : Expr) (x : ℝ) : Prop := WF r ∧ DomS st ρ r ∧ den ρ r = x

namespace Val
variable {C : Ctors} {st : Bool} {ρ : Str → ℝ} {a b r : Expr} {x y : ℝ}

theorem rat (q : ℚ) : Val st ρ (Expr.rat q) q := ⟨by simp, by simp, by simp⟩

theorem congr (h : Val st ρ a x) (e : x = y) : Val st ρ a y := e ▸ h

theorem one : Val st ρ (Expr.rat 1) 1 := (Val.rat 1).congr (by simp)

theorem self (w : WF a) (d : DomS st ρ a) : Val st ρ a (den ρ a) := ⟨w, d, rfl⟩

theorem div (hC : Sound C) (ha : Val st ρ a x) (hb : Val st ρ b y) (hy : y ≠ 0) (h : opDiv C a b = .ok r) :
    Val st ρ r (x / y) := by
  obtain ⟨w1, d1, rfl⟩ := ha
  obtain ⟨w2, d2, rfl⟩ := hb
  obtain ⟨v, d⟩ := opDiv_V hC w1 w2 d1 d2 hy h
  exact ⟨opDiv_W hC w1 w2 h, d, v⟩

theorem mul (hC : Sound C) (ha : Val st ρ a x) (hb : Val st ρ b y) (h : opMul C a b = .ok r) : Val st ρ r (x * y) := by
  obtain ⟨w1, d1, rfl⟩ := ha
  obtain ⟨w2, d2, rfl⟩ := hb
  obtain ⟨v, d⟩ := opMul_V hC w1 w2 d1 d2 h
  exact ⟨opMul_W hC w1 w2 h, d, v⟩

theorem add (hC : Sound C) (ha : Val st ρ a x) (hb : Val st ρ b y) (h : opAdd C a b = .ok r) : Val st ρ r (x + y) := by
  obtain ⟨w1, d1, rfl⟩ := ha
  obtain ⟨w2, d2, rfl⟩ := hb
  obtain ⟨v, d⟩ := opAdd_V hC w1 w2 d1 d2 h
  exact ⟨opAdd_W hC w1 w2 h, d, v⟩

theorem sub (hC : Sound C) (ha : Val st ρ a x) (hb : Val st ρ b y) (h : opSub C a b = .ok r) : Val st ρ r (x - y) := by
  obtain ⟨w1, d1, rfl⟩ := ha
  obtain ⟨w2, d2, rfl⟩ := hb
  obtain ⟨v, d⟩ := opSub_V hC w1 w2 d1 d2 h
  exact ⟨opSub_W hC w1 w2 h, d, v⟩

theorem neg (hC : Sound C) (ha : Val st ρ a x) (h : opNeg C a = .ok r) : Val st ρ r (-x) := by
  obtain ⟨w1, d1, rfl⟩ := ha
  obtain ⟨v, d⟩ := opNeg_V hC w1 d1 h
  exact ⟨opNeg_W hC w1 h, d, v⟩

/-- Powers with a positive integer exponent. -/
theorem npow (hC : Sound C) (ha : Val st ρ a x) {k : Nat} (hk : 1 ≤ k) (h : opPow O C a (Expr.rat k) = .ok r) :
    Val st ρ r (x ^ k) := by
  obtain ⟨w1, d1, rfl⟩ := ha
  have hk' : (1 : ℝ) ≤ (k : ℝ) := by exact_mod_cast hk
  have hd : PowDomS st ρ a (Expr.rat k) := by
    refine ⟨d1, by simp, .inr (by simp), fun hx => ?_, fun _ => .inr ⟨?_, by simpa using hk'⟩⟩
    · simp [intExp] at hx
    · simp [intExp]
  obtain ⟨v, d⟩ := opPow_V hC w1 (by simp) hd h
  refine ⟨opPow_W hC w1 (by simp) h, d, ?_⟩
  rw [v]
  have : den ρ (Expr.rat (k : ℚ)) = ((k : ℤ) : ℝ) := by simp
  rw [this, pw_int]; simp

theorem sq (hC : Sound C) (ha : Val st ρ a x) (h : opPow O C a (Expr.rat 2) = .ok r) : Val st ρ r (x ^ 2) :=
  npow (k := 2) hC ha (by norm_num) (by exact_mod_cast h)

theorem trig (hO : O.Exact) {n : Nat} {f : TrigFn} (hf : f.isInverse = false)
    (wi : WF a) (di : DomS st ρ a) (hn : containsCls isInvTrig a = false) (hok : f.ok (den ρ a)) (h : trigCtor O n f a = .ok r) :
    Val st ρ r (f.real (den ρ a)) := by
  obtain ⟨v, d⟩ := trigCtor_V hO n hf wi di hok (trigSide_of_noInv O ρ n hn) (by
    rintro - ⟨g, w, rfl, hg⟩
    simp [containsCls, isInvTrig, hg] at hn) h
  exact ⟨trigCtor_W hO n wi h, d, v⟩

theorem prod (hC : Sound C) {ts : List Expr} {xs : List ℝ} (ht : List.Forall₂ (Val st ρ) ts xs) (h : C.prod ts = .ok r) :
    Val st ρ r xs.prod := by
  have w : ∀ t ∈ ts, WF t := by
    clear h
    induction ht with
    | nil => simp
    | cons a _ ih => simpa using ⟨a.1, by simpa using ih⟩
  have d : ∀ t ∈ ts, DomS st ρ t := by
    clear h w
    induction ht with
    | nil => simp
    | cons a _ ih => simpa using ⟨a.2.1, by simpa using ih⟩
  have e : ts.map (den ρ) = xs := by
    clear h w d
    induction ht with
    | nil => rfl
    | cons a _ ih => simp [a.2.2, ih]
  obtain ⟨v1, d1⟩ := hC.prod ρ _ _ w d h
  exact ⟨hC.prodW _ _ w h, d1, by rw [v1, e]⟩

theorem sum (hC : Sound C) {ts : List Expr} {xs : List ℝ} (ht : List.Forall₂ (Val st ρ) ts xs) (h : C.sum ts = .ok r) :
    Val st ρ r xs.sum := by
  have w : ∀ t ∈ ts, WF t := by
    clear h
    induction ht with
    | nil => simp
    | cons a _ ih => simpa using ⟨a.1, by simpa using ih⟩
  have d : ∀ t ∈ ts, DomS st ρ t := by
    clear h w
    induction ht with
    | nil => simp
    | cons a _ ih => simpa using ⟨a.2.1, by simpa using ih⟩
  have e : ts.map (den ρ) = xs := by
    clear h w d
    induction ht with
    | nil => rfl
    | cons a _ ih => simp [a.2.2, ih]
  obtain ⟨v1, d1⟩ := hC.sum ρ _ _ w d h
  exact ⟨hC.sumW _ _ w h, d1, by rw [v1, e]⟩

end Val

theorem toSinCos_ok (hO : O.Exact) (st : Bool) (ρ : Str → ℝ) : NewOk st ρ (fun _ => True) (toSinCos O) := by
  intro f g hg
  cases f <;> simp [toSinCos] at hg <;> subst hg <;> refine ⟨rfl, ?_⟩ <;> intro n i r wi di hn hok _ h
  · obtain ⟨a, h1, h⟩ := bind_ok.1 h
    obtain ⟨b, h2, h⟩ := bind_ok.1 h
    exact Val.div (ctors_sound hO n) (.trig hO (f := .sin) rfl wi di hn trivial h1) (.trig hO (f := .cos) rfl wi di hn trivial h2)
      hok h
  · obtain ⟨a, h1, h⟩ := bind_ok.1 h
    exact Val.div (ctors_sound hO n) .one (.trig hO (f := .sin) rfl wi di hn trivial h1) hok h
  · obtain ⟨a, h1, h⟩ := bind_ok.1 h
    exact Val.div (ctors_sound hO n) .one (.trig hO (f := .cos) rfl wi di hn trivial h1) hok h
  · obtain ⟨a, h1, h⟩ := bind_ok.1 h
    obtain ⟨b, h2, h⟩ := bind_ok.1 h
    exact Val.div (ctors_sound hO n) (.trig hO (f := .cos) rfl wi di hn trivial h1) (.trig hO (f := .sin) rfl wi di hn trivial h2)
      hok h

/-- Neither sin nor cos vanishes: where all six functions are defined and invertible. -/
def SC (t : ℝ) : Prop := Real.sin t ≠ 0 ∧ Real.cos t ≠ 0

theorem toTanCsc_ok (hO : O.Exact) (st : Bool) (ρ : Str → ℝ) : NewOk st ρ SC (toTanCsc O) := by
  intro f g hg
  cases f <;> simp [toTanCsc] at hg <;> subst hg <;> refine ⟨rfl, ?_⟩ <;> intro n i r wi di hn hok ⟨hs, hc⟩ h
  · obtain ⟨a, h1, h⟩ := bind_ok.1 h
    refine (Val.div (ctors_sound hO n) .one (.trig hO (f := .csc) rfl wi di hn hs h1) ?_ h).congr ?_
    · simpa [TrigFn.real] using hs
    · simp [TrigFn.real]
  · obtain ⟨a, h1, h⟩ := bind_ok.1 h
    obtain ⟨b, h2, h⟩ := bind_ok.1 h
    obtain ⟨c, h3, h⟩ := bind_ok.1 h
    have ht : TrigFn.tan.real (den ρ i) ≠ 0 := div_ne_zero hs hc
    refine (Val.div (ctors_sound hO n) (.div (ctors_sound hO n) .one (.trig hO (f := .tan) rfl wi di hn hc h1) ht h2)
      (.trig hO (f := .csc) rfl wi di hn hs h3) ?_ h).congr ?_
    · simpa [TrigFn.real] using hs
    · simp only [TrigFn.real]; field_simp
  · obtain ⟨a, h1, h⟩ := bind_ok.1 h
    obtain ⟨b, h2, h⟩ := bind_ok.1 h
    refine (Val.mul (ctors_sound hO n) (.trig hO (f := .tan) rfl wi di hn hc h1) (.trig hO (f := .csc) rfl wi di hn hs h2)
      h).congr ?_
    simp only [TrigFn.real]; field_simp
  · obtain ⟨a, h1, h⟩ := bind_ok.1 h
    refine (Val.div (ctors_sound hO n) .one (.trig hO (f := .tan) rfl wi di hn hc h1) (div_ne_zero hs hc) h).congr ?_
    simp [TrigFn.real]

theorem toCotSec_ok (hO : O.Exact) (st : Bool) (ρ : Str → ℝ) : NewOk st ρ SC (toCotSec O) := by
  intro f g hg
  cases f <;> simp [toCotSec] at hg <;> subst hg <;> refine ⟨rfl, ?_⟩ <;> intro n i r wi di hn hok ⟨hs, hc⟩ h
  · obtain ⟨a, h1, h⟩ := bind_ok.1 h
    obtain ⟨b, h2, h⟩ := bind_ok.1 h
    obtain ⟨c, h3, h⟩ := bind_ok.1 h
    refine (Val.div (ctors_sound hO n) (.div (ctors_sound hO n) .one (.trig hO (f := .cot) rfl wi di hn hs h1)
      (div_ne_zero hc hs) h2) (.trig hO (f := .sec) rfl wi di hn hc h3) ?_ h).congr ?_
    · simpa [TrigFn.real] using hc
    · simp only [TrigFn.real]; field_simp
  · obtain ⟨a, h1, h⟩ := bind_ok.1 h
    refine (Val.div (ctors_sound hO n) .one (.trig hO (f := .sec) rfl wi di hn hc h1) ?_ h).congr ?_
    · simpa [TrigFn.real] using hc
    · simp [TrigFn.real]
  · obtain ⟨a, h1, h⟩ := bind_ok.1 h
    refine (Val.div (ctors_sound hO n) .one (.trig hO (f := .cot) rfl wi di hn hs h1) (div_ne_zero hc hs) h).congr ?_
    simp [TrigFn.real]
  · obtain ⟨a, h1, h⟩ := bind_ok.1 h
    obtain ⟨b, h2, h⟩ := bind_ok.1 h
    refine (Val.mul (ctors_sound hO n) (.trig hO (f := .cot) rfl wi di hn hs h1) (.trig hO (f := .sec) rfl wi di hn hc h2)
      h).congr ?_
    simp only [TrigFn.real]; field_simp

/-! ### The symbols -/

/-- The replacements keep a property of expressions. -/
def NewQ (Q : Expr → Prop) (new : TrigFn → Option (Nat → Expr → R Expr)) : Prop :=
  ∀ f g, new f = some g → ∀ n i r, Q i → g n i = .ok r → Q r

theorem toSinCos_QE {Q : Expr → Prop} (hE : AdmE O Q)
    (pt : ∀ (n : Nat) (f : TrigFn) {i r : Expr}, f.isInverse = false → Q i → trigCtor O n f i = .ok r → Q r) : NewQ Q (toSinCos O) := by
  intro f g hg
  cases f <;> simp [toSinCos] at hg <;> subst hg <;> intro n i r qi h
  · obtain ⟨a, h1, h⟩ := bind_ok.1 h
    obtain ⟨b, h2, h⟩ := bind_ok.1 h
    exact hE.opDiv (pt n _ rfl qi h1) (pt n _ rfl qi h2) h
  · obtain ⟨a, h1, h⟩ := bind_ok.1 h
    exact hE.opDiv (hE.rat _) (pt n _ rfl qi h1) h
  · obtain ⟨a, h1, h⟩ := bind_ok.1 h
    exact hE.opDiv (hE.rat _) (pt n _ rfl qi h1) h
  · obtain ⟨a, h1, h⟩ := bind_ok.1 h
    obtain ⟨b, h2, h⟩ := bind_ok.1 h
    exact hE.opDiv (pt n _ rfl qi h1) (pt n _ rfl qi h2) h

theorem toSinCos_Q {Q : Expr → Prop} (hQ : Adm O Q) : NewQ Q (toSinCos O) :=
  toSinCos_QE hQ.toAdmE fun n f _ _ _ => hQ.ptrig n f

theorem toTanCsc_Q {Q : Expr → Prop} (hQ : Adm O Q) : NewQ Q (toTanCsc O) := by
  intro f g hg
  have hE := hQ.toAdmE
  cases f <;> simp [toTanCsc] at hg <;> subst hg <;> intro n i r qi h
  · obtain ⟨a, h1, h⟩ := bind_ok.1 h
    exact hE.opDiv (hE.rat _) (hQ.ptrig n _ qi h1) h
  · obtain ⟨a, h1, h⟩ := bind_ok.1 h
    obtain ⟨b, h2, h⟩ := bind_ok.1 h
    obtain ⟨c, h3, h⟩ := bind_ok.1 h
    exact hE.opDiv (hE.opDiv (hE.rat _) (hQ.ptrig n _ qi h1) h2) (hQ.ptrig n _ qi h3) h
  · obtain ⟨a, h1, h⟩ := bind_ok.1 h
    obtain ⟨b, h2, h⟩ := bind_ok.1 h
    exact hE.opMul (hQ.ptrig n _ qi h1) (hQ.ptrig n _ qi h2) h
  · obtain ⟨a, h1, h⟩ := bind_ok.1 h
    exact hE.opDiv (hE.rat _) (hQ.ptrig n _ qi h1) h

theorem toCotSec_Q {Q : Expr → Prop} (hQ : Adm O Q) : NewQ Q (toCotSec O) := by
  intro f g hg
  have hE := hQ.toAdmE
  cases f <;> simp [toCotSec] at hg <;> subst hg <;> intro n i r qi h
  · obtain ⟨a, h1, h⟩ := bind_ok.1 h
    obtain ⟨b, h2, h⟩ := bind_ok.1 h
    obtain ⟨c, h3, h⟩ := bind_ok.1 h
    exact hE.opDiv (hE.opDiv (hE.rat _) (hQ.ptrig n _ qi h1) h2) (hQ.ptrig n _ qi h3) h
  · obtain ⟨a, h1, h⟩ := bind_ok.1 h
    exact hE.opDiv (hE.rat _) (hQ.ptrig n _ qi h1) h
  · obtain ⟨a, h1, h⟩ := bind_ok.1 h
    exact hE.opDiv (hE.rat _) (hQ.ptrig n _ qi h1) h
  · obtain ⟨a, h1, h⟩ := bind_ok.1 h
    obtain ⟨b, h2, h⟩ := bind_ok.1 h
    exact hE.opMul (hQ.ptrig n _ qi h1) (hQ.ptrig n _ qi h2) h

/-! ## RewriteTrig -/

/-- RewriteTrig: every new integrand has the value of the old one where none of sin and cos of the arguments vanish. -/
theorem rewriteTrig_ok (hO : O.Exact) {n : Nat} {ρ : Str → ℝ} {v : Str} {A : Str → Prop} {e : Expr} {gs : List Expr}
    (he : Integrand ρ A e) (ha : ∀ f i, Sub (trig f i) e → f.isInverse = false → Real.sin (den ρ i) ≠ 0 ∧ Real.cos (den ρ i) ≠ 0)
    (ht1 : RunTameC O (toSinCos O) n e = true) (ht2 : RunTameC O (toTanCsc O) n e = true)
    (ht3 : RunTameC O (toCotSec O) n e = true) (h : rewriteTrig O n e = .ok gs) :
    ∀ g ∈ gs, (∀ i k, Reduces (posed ρ v A e) (fun _ => posed ρ v A g) i k .rewriteTrig) ∧ Integrand ρ A g := by
  have key : ∀ {S new r}, NewOk true ρ S new → ArgsOk ρ S new e → RunTameC O new n e = true → NewQ (fun e => ∀ s ∈ syms e, A s) new →
      replaceClass O new n e = .ok r →
      (∀ i k, Reduces (posed ρ v A e) (fun _ => posed ρ v A r) i k .rewriteTrig) ∧ Integrand ρ A r := by
    intro S new r hn hA ht hQ hr
    obtain ⟨a, b, c⟩ := replaceClass_sound hO hn n he.wf he.reg hA ht hr
    exact ⟨fun i k => rewrite_ok c rfl (by simp) (by simp) i k, a, b, Adm.replaceClass (adm_syms O A) hQ n he.scope hr⟩
  have argsOk : ∀ {new}, NewOk true ρ SC new → ArgsOk ρ SC new e := by
    intro new hn f i hs hf
    obtain ⟨g, hg⟩ := Option.isSome_iff_exists.1 hf
    exact ha f i hs (hn f g hg).1
  unfold rewriteTrig at h
  split at h
  · obtain ⟨r1, h1, h⟩ := bind_ok.1 h
    obtain ⟨r2, h2, h⟩ := bind_ok.1 h
    obtain ⟨r3, h3, h⟩ := bind_ok.1 h
    have := pure_ok.1 h
    subst this
    intro g hg
    have := (List.mem_filter.1 hg).1
    simp only [List.mem_cons, List.not_mem_nil, or_false] at this
    rcases this with rfl | rfl | rfl
    · exact key (toSinCos_ok hO true ρ) (fun _ _ _ _ => trivial) ht1 (toSinCos_Q (adm_syms O A)) h1
    · exact key (toTanCsc_ok hO true ρ) (argsOk (toTanCsc_ok hO true ρ)) ht2 (toTanCsc_Q (adm_syms O A)) h2
    · exact key (toCotSec_ok hO true ρ) (argsOk (toCotSec_ok hO true ρ)) ht3 (toCotSec_Q (adm_syms O A)) h3
  · cases h; simp

/-! ## RewritePythagorean -/

theorem pythOdd_some {e : Expr} {f : TrigFn} {i : Expr} {q : ℚ} (h : pythOdd e = some (f, i, q)) :
    e = pow (trig f i) (rat q) ∧ (f = .sin ∨ f = .cos) ∧ ∃ k : Nat, 1 ≤ k ∧ q = 2 * k + 1 := by
  unfold pythOdd at h
  split at h
  · split at h
    · next h' =>
      simp only [Option.some.injEq, Prod.mk.injEq] at h
      obtain ⟨rfl, rfl, rfl⟩ := h
      obtain ⟨h1, h2, h3, h4⟩ := h'
      rename_i q
      refine ⟨rfl, h1, ?_⟩
      have hq : (q.num : ℚ) = q := Rat.den_eq_one_iff q |>.1 h3
      have hn : 1 < q.num := by
        have : (1 : ℚ) < (q.num : ℚ) := by rw [hq]; exact h2
        exact_mod_cast this
      refine ⟨((q.num - 1) / 2).toNat, by omega, ?_⟩
      have h5 : q.num = 2 * (((q.num - 1) / 2).toNat : ℤ) + 1 := by omega
      rw [← hq]
      exact_mod_cast h5
    · cases h
  · cases h

theorem pythPerform_V (hO : O.Exact) {n : Nat} {st : Bool} {ρ : Str → ℝ} {f : TrigFn} {i r : Expr} {q : ℚ} {k : Nat}
    (hf : f = .sin ∨ f = .cos) (hk : 1 ≤ k) (hq : q = 2 * k + 1) (wi : WF i) (di : DomS st ρ i)
    (hn : containsCls isInvTrig i = false) (h : pythPerform O n f i q = .ok r) :
    Val st ρ r (f.real (den ρ i) ^ (2 * k + 1)) := by
  have hC := ctors_sound hO n
  have hs := Real.sin_sq_add_cos_sq (den ρ i)
  unfold pythPerform at h
  obtain ⟨c, h1, h⟩ := bind_ok.1 h
  obtain ⟨p, h2, h⟩ := bind_ok.1 h
  obtain ⟨d, h3, h⟩ := bind_ok.1 h
  obtain ⟨m, h4, h⟩ := bind_ok.1 h
  obtain ⟨s, h5, h6⟩ := bind_ok.1 h
  clear h
  have hm : (q - 1) / 2 = (k : ℚ) := by rw [hq]; ring
  rw [hm] at h4
  rcases hf with rfl | rfl
  · refine (Val.mul hC (.npow hC (.sub hC .one (.sq hC (.trig hO (f := .cos) rfl wi di hn trivial h1) h2) h3) hk h4)
      (.trig hO (f := .sin) rfl wi di hn trivial h5) h6).congr ?_
    simp only [TrigFn.real]
    rw [show 1 - Real.cos (den ρ i) ^ 2 = Real.sin (den ρ i) ^ 2 by linarith]; ring
  · refine (Val.mul hC (.npow hC (.sub hC .one (.sq hC (.trig hO (f := .sin) rfl wi di hn trivial h1) h2) h3) hk h4)
      (.trig hO (f := .cos) rfl wi di hn trivial h5) h6).congr ?_
    simp only [TrigFn.real]
    rw [show 1 - Real.sin (den ρ i) ^ 2 = Real.cos (den ρ i) ^ 2 by linarith]; ring

mutual
theorem pythReplace_V (hO : O.Exact) {n : Nat} {st : Bool} {ρ : Str → ℝ} : ∀ {e : Expr} {b : Bool} {r : Expr}, WF e → DomS st ρ e →
    containsCls isInvTrig e = false → pythReplace O n e = .ok (b, r) → Val st ρ r (den ρ e) := by
  intro e b r w d hn h
  have gen : (match pythOdd e with
    | some (f, i, q) => (pythPerform O n f i q).map (true, ·)
    | none => .ok (false, e)) = .ok (b, r) → Val st ρ r (den ρ e) := by
    clear h
    intro h
    split at h
    · next f i q hq =>
      obtain ⟨rfl, hf, k, hk, hq⟩ := pythOdd_some hq
      cases hp : pythPerform O n f i q with
      | error er => rw [hp] at h; cases h
      | ok s =>
        rw [hp] at h
        simp only [Except.map, Except.ok.injEq, Prod.mk.injEq] at h
        obtain ⟨-, rfl⟩ := h
        have hn' : containsCls isInvTrig i = false := by
          simp only [containsCls, Bool.or_eq_false_iff] at hn; tauto
        refine (pythPerform_V (i := i) hO hf hk hq w.1 d.1.1 hn' hp).congr ?_
        simp only [den]
        have : ((q : ℚ) : ℝ) = (((2 * k + 1 : ℕ) : ℤ) : ℝ) := by rw [hq]; push_cast; ring
        rw [this, pw_int, zpow_natCast]
    · cases h; exact .self w d
  cases e with
  | prod ts =>
    rw [pythReplace] at h
    split at h
    · cases h
    · next c us hu =>
      cases hp : (ctors O n).prod us with
      | error er => rw [hp] at h; cases h
      | ok s =>
        rw [hp] at h
        simp only [Except.map, Except.ok.injEq, Prod.mk.injEq] at h
        obtain ⟨-, rfl⟩ := h
        have hn' : ∀ t ∈ ts, containsCls isInvTrig t = false := by
          intro t ht
          simp only [containsCls, Bool.or_eq_false_iff] at hn
          exact Bool.eq_false_iff.2 fun hc => by simp [containsClsL_iff.2 ⟨t, ht, hc⟩] at hn
        refine (Val.prod (ctors_sound hO n) (pythReplaceL_V hO (WF_prod.1 w).2 (Dom_prod.1 d) hn' hu) hp).congr ?_
        rw [den_prod]
  | _ => exact gen h
theorem pythReplaceL_V (hO : O.Exact) {n : Nat} {st : Bool} {ρ : Str → ℝ} : ∀ {ts : List Expr} {b : Bool} {us : List Expr},
    (∀ t ∈ ts, WF t) → (∀ t ∈ ts, DomS st ρ t) → (∀ t ∈ ts, containsCls isInvTrig t = false) →
    pythReplaceL O n ts = .ok (b, us) → List.Forall₂ (Val st ρ) us (ts.map (den ρ)) := by
  intro ts b us w d hn h
  cases ts with
  | nil => simp only [pythReplaceL, Except.ok.injEq, Prod.mk.injEq] at h; obtain ⟨-, rfl⟩ := h; simp
  | cons t ts =>
    rw [pythReplaceL] at h
    split at h
    · cases h
    · next hu =>
      split at h
      · cases h
      · next hv =>
        simp only [Except.ok.injEq, Prod.mk.injEq] at h
        obtain ⟨-, rfl⟩ := h
        exact .cons (pythReplace_V hO (w t (by simp)) (d t (by simp)) (hn t (by simp)) hu)
          (pythReplaceL_V hO (fun s hs => w s (by simp [hs])) (fun s hs => d s (by simp [hs])) (fun s hs => hn s (by simp [hs])) hv)
end

theorem pythPerform_Q {Q : Expr → Prop} (hQ : Adm O Q) {n : Nat} {f : TrigFn} {i r : Expr} {q : ℚ} (qi : Q i)
    (h : pythPerform O n f i q = .ok r) : Q r := by
  have hE := hQ.toAdmE
  unfold pythPerform at h
  obtain ⟨c, h1, h⟩ := bind_ok.1 h
  obtain ⟨p, h2, h⟩ := bind_ok.1 h
  obtain ⟨d, h3, h⟩ := bind_ok.1 h
  obtain ⟨m, h4, h⟩ := bind_ok.1 h
  obtain ⟨s, h5, h⟩ := bind_ok.1 h
  exact hE.opMul (hE.opPow (hE.opSub (hE.rat _) (hE.opPow (hQ.ptrig n _ qi h1) (hE.rat _) h2) h3) (hE.rat _) h4)
    (hQ.ptrig n _ qi h5) h

mutual
theorem pythReplace_Q {Q : Expr → Prop} (hQ : Adm O Q) {n : Nat} : ∀ {e : Expr} {b : Bool} {r : Expr}, Q e →
    pythReplace O n e = .ok (b, r) → Q r := by
  intro e b r qe h
  have hE := hQ.toAdmE
  have gen : (match pythOdd e with
    | some (f, i, q) => (pythPerform O n f i q).map (true, ·)
    | none => .ok (false, e)) = .ok (b, r) → Q r := by
    clear h
    intro h
    split at h
    · next f i q hq =>
      obtain ⟨rfl, hf, k, hk, hq⟩ := pythOdd_some hq
      cases hp : pythPerform O n f i q with
      | error er => rw [hp] at h; cases h
      | ok s =>
        rw [hp] at h
        simp only [Except.map, Except.ok.injEq, Prod.mk.injEq] at h
        obtain ⟨-, rfl⟩ := h
        exact pythPerform_Q hQ (hE.trig (hE.pow qe).1) hp
    · cases h; exact qe
  cases e with
  | prod ts =>
    rw [pythReplace] at h
    split at h
    · cases h
    · next c us hu =>
      cases hp : (ctors O n).prod us with
      | error er => rw [hp] at h; cases h
      | ok s =>
        rw [hp] at h
        simp only [Except.map, Except.ok.injEq, Prod.mk.injEq] at h
        obtain ⟨-, rfl⟩ := h
        exact (hE.pres n).prod _ _ (pythReplaceL_Q hQ (hE.prod qe) hu) hp
  | _ => exact gen h
theorem pythReplaceL_Q {Q : Expr → Prop} (hQ : Adm O Q) {n : Nat} : ∀ {ts : List Expr} {b : Bool} {us : List Expr},
    (∀ t ∈ ts, Q t) → pythReplaceL O n ts = .ok (b, us) → ∀ t ∈ us, Q t := by
  intro ts b us w h
  cases ts with
  | nil => simp only [pythReplaceL, Except.ok.injEq, Prod.mk.injEq] at h; obtain ⟨-, rfl⟩ := h; simp
  | cons t ts =>
    rw [pythReplaceL] at h
    split at h
    · cases h
    · next hu =>
      split at h
      · cases h
      · next hv =>
        simp only [Except.ok.injEq, Prod.mk.injEq] at h
        obtain ⟨-, rfl⟩ := h
        have a := pythReplace_Q hQ (w t (by simp)) hu
        have b := pythReplaceL_Q hQ (fun s hs => w s (by simp [hs])) hv
        intro s hs
        rcases List.mem_cons.1 hs with rfl | hs
        · exact a
        · exact b s hs
end

theorem rewritePythagorean_ok (hO : O.Exact) {n : Nat} {ρ : Str → ℝ} {v : Str} {A : Str → Prop} {e g : Expr}
    (he : Integrand ρ A e) (hn : containsCls isInvTrig e = false) (h : rewritePythagorean O n e = .ok (some g)) (i k : Nat) :
    Reduces (posed ρ v A e) (fun _ => posed ρ v A g) i k .rewritePythagorean ∧ Integrand ρ A g := by
  unfold rewritePythagorean at h
  obtain ⟨⟨b, r⟩, h1, h⟩ := bind_ok.1 h
  have := pure_ok.1 h
  split at this
  · simp only [Option.some.injEq] at this
    subst this
    obtain ⟨w, d, hv⟩ := pythReplace_V hO he.wf he.reg hn h1
    exact ⟨rewrite_ok hv rfl (by simp) (by simp) i k, w, d, pythReplace_Q (adm_syms O A) he.scope h1⟩
  · cases this

end Simpy
