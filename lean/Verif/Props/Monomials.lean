import Verif.Proofs.MQVal
import Verif.Proofs.ExactOracle
import Verif.Proofs.Check

/-!
# C88: the laws of exponents hold literally for products of powers of symbols
-/

namespace Simpy
open Expr

variable {O : Oracle} {a b c : Expr}

/-- **C88** Whatever is made of numbers and symbols by multiplying, dividing and raising to powers is a number, a power of a symbol or a
product of powers of different symbols, with or without a number in front: like powers have been put together. -/
theorem products_are_power_terms (h : FromMul O a) : PowerTerm a := by
  obtain ⟨c, d, h1, _, rfl⟩ := MQ.rep h
  exact MQ.form_mono h1 d

/-- **C88** Two such expressions are the same if and only if they have the same values for all positive values of the symbols, where both
are always defined. -/
theorem products_are_canonical (ha : FromMul O a) (hb : FromMul O b) :
    (∀ ρ : Str → ℝ, (∀ s, 0 < ρ s) → Dom ρ a ∧ Dom ρ b) ∧ (a = b ↔ ∀ ρ : Str → ℝ, (∀ s, 0 < ρ s) → den ρ a = den ρ b) := by
  obtain ⟨p, d, h1, _, rfl⟩ := MQ.rep ha
  obtain ⟨q, e, h2, _, rfl⟩ := MQ.rep hb
  refine ⟨fun ρ hρ => ⟨MQ.dom_mono hρ p d, MQ.dom_mono hρ q e⟩, fun h ρ _ => by rw [h], fun h => ?_⟩
  obtain ⟨rfl, rfl⟩ := MQ.mval_inj (a := p) (b := q) (d := d) (e := e) (fun ρ hρ => by rw [← MQ.den_mono hρ, ← MQ.den_mono hρ]; exact h ρ hρ) h1
  rfl

/-- **C88** Multiplying, dividing, negating and raising to a whole power always returns, with a stack of at least 6 levels. -/
theorem products_return (ha : FromMul O a) (hb : FromMul O b) {n : Nat} (hn : 6 ≤ n) :
    (∃ r, opMul (ctors O n) a b = .ok r ∧ ∀ ρ : Str → ℝ, (∀ s, 0 < ρ s) → den ρ r = den ρ a * den ρ b) ∧
    (∃ r, opDiv (ctors O n) a b = .ok r ∧ ∀ ρ : Str → ℝ, (∀ s, 0 < ρ s) → den ρ r = den ρ a / den ρ b) ∧
    (∃ r, opNeg (ctors O n) a = .ok r ∧ ∀ ρ : Str → ℝ, (∀ s, 0 < ρ s) → den ρ r = -den ρ a) ∧
    ∀ k : ℤ, ∃ r, opPow O (ctors O n) a (rat k) = .ok r ∧ ∀ ρ : Str → ℝ, (∀ s, 0 < ρ s) → den ρ r = den ρ a ^ k := by
  obtain ⟨p, d, h1, g1, rfl⟩ := MQ.rep ha
  obtain ⟨q, e, h2, g2, rfl⟩ := MQ.rep hb
  obtain ⟨n, rfl⟩ : ∃ j, n = j + 6 := ⟨n - 6, by omega⟩
  have add : ∀ (ρ : Str → ℝ), (∀ s, 0 < ρ s) → ∀ d e : Str →₀ ℚ, MQ.mval ρ (d + e) = MQ.mval ρ d * MQ.mval ρ e := fun ρ hρ d e => by
    unfold MQ.mval
    exact Finsupp.prod_add_index' (by simp) fun s x y => by push_cast; rw [Real.rpow_add (hρ s)]
  have smul : ∀ (ρ : Str → ℝ), (∀ s, 0 < ρ s) → ∀ (k : ℤ) (d : Str →₀ ℚ), MQ.mval ρ ((k : ℚ) • d) = MQ.mval ρ d ^ k := fun ρ hρ k d => by
    unfold MQ.mval
    rw [Finsupp.prod_of_support_subset (s := d.support) _ Finsupp.support_smul _ (by simp), Finsupp.prod, ← Finset.prod_zpow]
    exact Finset.prod_congr rfl fun s _ => by
      rw [Finsupp.smul_apply, smul_eq_mul]; push_cast; rw [mul_comm, Real.rpow_mul (hρ s).le, Real.rpow_intCast]
  refine ⟨⟨_, MQ.mul_mono (n + 2) h1 h2 g1 g2, fun ρ hρ => ?_⟩, ⟨_, MQ.div_mono n h1 h2 g1 g2, fun ρ hρ => ?_⟩,
    ⟨_, MQ.neg_monoE (n + 2) h1 g1, fun ρ hρ => ?_⟩, fun k => ⟨_, MQ.opPow_mono n h1 g1 k, fun ρ hρ => ?_⟩⟩
  · rw [MQ.den_mono hρ, MQ.den_mono hρ, MQ.den_mono hρ, add ρ hρ]; push_cast; ring
  · have : d - e = d + ((-1 : ℤ) : ℚ) • e := by simp [sub_eq_add_neg]
    rw [MQ.den_mono hρ, MQ.den_mono hρ, MQ.den_mono hρ, this, add ρ hρ, smul ρ hρ, zpow_neg_one]
    push_cast; rw [div_eq_mul_inv, div_eq_mul_inv, mul_inv]; ring
  · rw [MQ.den_mono hρ, MQ.den_mono hρ]; push_cast; ring
  · rw [MQ.den_mono hρ, MQ.den_mono hρ, smul ρ hρ, mul_zpow]; push_cast; rfl

section laws
variable {n : Nat} (hn : 6 ≤ n) (ha : FromMul O a) (hb : FromMul O b) (hc : FromMul O c)
include hn ha hb

/-- **C88** `a*b == b*a`, `a/b == a*b**(-1)`, `(a*b)/b == a`, `(a/b)*b == a`. -/
theorem products_cancel :
    opMul (ctors O n) a b = opMul (ctors O n) b a ∧
    opDiv (ctors O n) a b = (opPow O (ctors O n) b (rat (-1)) >>= fun i => opMul (ctors O n) a i) ∧
    (opMul (ctors O n) a b >>= fun m => opDiv (ctors O n) m b) = .ok a ∧
    (opDiv (ctors O n) a b >>= fun m => opMul (ctors O n) m b) = .ok a := by
  obtain ⟨p, d, h1, g1, rfl⟩ := MQ.rep ha
  obtain ⟨q, e, h2, g2, rfl⟩ := MQ.rep hb
  obtain ⟨n, rfl⟩ : ∃ j, n = j + 6 := ⟨n - 6, by omega⟩
  have ge : MQ.Good (-e) := by simpa using MQ.good_smul g2 (-1)
  have gs : MQ.Good (d - e) := by rw [sub_eq_add_neg]; exact MQ.good_add g1 ge
  have hi := MQ.opPow_mono (O := O) n h2 g2 (-1)
  simp only [Int.cast_neg, Int.cast_one, zpow_neg_one, neg_smul, one_smul] at hi
  rw [MQ.mul_mono (n + 2) h1 h2 g1 g2, MQ.mul_mono (n + 2) h2 h1 g2 g1, MQ.div_mono n h1 h2 g1 g2, hi]
  simp only [NF.ok_bind]
  rw [MQ.mul_mono (n + 2) h1 (inv_ne_zero h2) g1 ge, MQ.div_mono n (mul_ne_zero h1 h2) h2 (MQ.good_add g1 g2) g2,
    MQ.mul_mono (n + 2) (div_ne_zero h1 h2) h2 gs g2]
  refine ⟨by rw [mul_comm, add_comm], by rw [div_eq_mul_inv, sub_eq_add_neg], ?_, ?_⟩
  · rw [mul_div_cancel_right₀ _ h2, add_sub_cancel_right]
  · rw [div_mul_cancel₀ _ h2, sub_add_cancel]

include hc in
/-- **C88** `(a*b)*c == a*(b*c)`, `a/(b/c) == (a*c)/b`, `(a/b)/c == a/(b*c)`; and if `a*b == a*c` then `b == c`. -/
theorem products_associate :
    (opMul (ctors O n) a b >>= fun m => opMul (ctors O n) m c) = (opMul (ctors O n) b c >>= fun m => opMul (ctors O n) a m) ∧
    (opDiv (ctors O n) b c >>= fun m => opDiv (ctors O n) a m) = (opMul (ctors O n) a c >>= fun m => opDiv (ctors O n) m b) ∧
    (opDiv (ctors O n) a b >>= fun m => opDiv (ctors O n) m c) = (opMul (ctors O n) b c >>= fun m => opDiv (ctors O n) a m) ∧
    (opMul (ctors O n) a b = opMul (ctors O n) a c → b = c) := by
  obtain ⟨p, d, h1, g1, rfl⟩ := MQ.rep ha
  obtain ⟨q, e, h2, g2, rfl⟩ := MQ.rep hb
  obtain ⟨r, f, h3, g3, rfl⟩ := MQ.rep hc
  obtain ⟨n, rfl⟩ : ∃ j, n = j + 6 := ⟨n - 6, by omega⟩
  have sub : ∀ {x y : Str →₀ ℚ}, MQ.Good x → MQ.Good y → MQ.Good (x - y) := fun hx hy => by
    rw [sub_eq_add_neg]; exact MQ.good_add hx (by simpa using MQ.good_smul hy (-1))
  rw [MQ.mul_mono (n + 2) h1 h2 g1 g2, MQ.mul_mono (n + 2) h1 h3 g1 g3, MQ.mul_mono (n + 2) h2 h3 g2 g3, MQ.div_mono n h1 h2 g1 g2,
    MQ.div_mono n h2 h3 g2 g3]
  simp only [NF.ok_bind]
  rw [MQ.mul_mono (n + 2) (mul_ne_zero h1 h2) h3 (MQ.good_add g1 g2) g3, MQ.mul_mono (n + 2) h1 (mul_ne_zero h2 h3) g1 (MQ.good_add g2 g3),
    MQ.div_mono n h1 (div_ne_zero h2 h3) g1 (sub g2 g3), MQ.div_mono n (mul_ne_zero h1 h3) h2 (MQ.good_add g1 g3) g2,
    MQ.div_mono n (div_ne_zero h1 h2) h3 (sub g1 g2) g3, MQ.div_mono n h1 (mul_ne_zero h2 h3) g1 (MQ.good_add g2 g3)]
  refine ⟨by rw [mul_assoc, add_assoc], ?_, ?_, fun h => ?_⟩
  · rw [div_div_eq_mul_div, show d - (e - f) = d + f - e by abel]
  · rw [div_div, sub_sub]
  · have h := Except.ok.inj h
    have l1 := MQ.mono_lc (O := O) (p * q) (d + e)
    have l2 := MQ.mono_lx (O := O) (p * q) (d + e)
    rw [h, MQ.mono_lc] at l1
    rw [h, MQ.mono_lx] at l2
    rw [mul_left_cancel₀ h1 l1, add_left_cancel l2]

/-- **C88** `a**j * a**k == a**(j+k)`, `(a**j)**k == a**(j*k)`, `(a*b)**k == a**k * b**k`, `(a/b)**k == a**k / b**k`. -/
theorem powers_of_products (j k : ℤ) :
    (opPow O (ctors O n) a (rat j) >>= fun x => opPow O (ctors O n) a (rat k) >>= fun y => opMul (ctors O n) x y) =
      opPow O (ctors O n) a (rat (j + k : ℤ)) ∧
    (opPow O (ctors O n) a (rat j) >>= fun x => opPow O (ctors O n) x (rat k)) = opPow O (ctors O n) a (rat (j * k : ℤ)) ∧
    (opMul (ctors O n) a b >>= fun m => opPow O (ctors O n) m (rat k)) =
      (opPow O (ctors O n) a (rat k) >>= fun x => opPow O (ctors O n) b (rat k) >>= fun y => opMul (ctors O n) x y) ∧
    (opDiv (ctors O n) a b >>= fun m => opPow O (ctors O n) m (rat k)) =
      (opPow O (ctors O n) a (rat k) >>= fun x => opPow O (ctors O n) b (rat k) >>= fun y => opDiv (ctors O n) x y) := by
  obtain ⟨p, d, h1, g1, rfl⟩ := MQ.rep ha
  obtain ⟨q, e, h2, g2, rfl⟩ := MQ.rep hb
  obtain ⟨n, rfl⟩ : ∃ i, n = i + 6 := ⟨n - 6, by omega⟩
  have sub : ∀ {x y : Str →₀ ℚ}, MQ.Good x → MQ.Good y → MQ.Good (x - y) := fun hx hy => by
    rw [sub_eq_add_neg]; exact MQ.good_add hx (by simpa using MQ.good_smul hy (-1))
  have z : ∀ {x : ℚ} (i : ℤ), x ≠ 0 → x ^ i ≠ 0 := fun i h => zpow_ne_zero i h
  rw [MQ.opPow_mono n h1 g1 j, MQ.opPow_mono n h1 g1 k, MQ.opPow_mono n h1 g1 (j + k), MQ.opPow_mono n h1 g1 (j * k),
    MQ.opPow_mono n h2 g2 k, MQ.mul_mono (n + 2) h1 h2 g1 g2, MQ.div_mono n h1 h2 g1 g2]
  simp only [NF.ok_bind]
  rw [MQ.mul_mono (n + 2) (z j h1) (z k h1) (MQ.good_smul g1 _) (MQ.good_smul g1 _), MQ.opPow_mono n (z j h1) (MQ.good_smul g1 _) k,
    MQ.opPow_mono n (mul_ne_zero h1 h2) (MQ.good_add g1 g2) k, MQ.mul_mono (n + 2) (z k h1) (z k h2) (MQ.good_smul g1 _) (MQ.good_smul g2 _),
    MQ.opPow_mono n (div_ne_zero h1 h2) (sub g1 g2) k, MQ.div_mono n (z k h1) (z k h2) (MQ.good_smul g1 _) (MQ.good_smul g2 _)]
  refine ⟨?_, ?_, ?_, ?_⟩
  · rw [zpow_add₀ h1, Int.cast_add, add_smul]
  · rw [zpow_mul, Int.cast_mul, smul_smul, mul_comm (k : ℚ)]
  · rw [mul_zpow, smul_add]
  · rw [div_zpow, smul_sub]

end laws

/-- **C88** `a/a == 1`, `a*1 == a`, `a/1 == a`, `a**0 == 1`, `a**1 == a`. -/
theorem products_of_one {n : Nat} (hn : 6 ≤ n) (ha : FromMul O a) :
    opDiv (ctors O n) a a = .ok (rat 1) ∧ opMul (ctors O n) a (rat 1) = .ok a ∧ opDiv (ctors O n) a (rat 1) = .ok a ∧
    opPow O (ctors O n) a (rat 0) = .ok (rat 1) ∧ opPow O (ctors O n) a (rat 1) = .ok a := by
  obtain ⟨p, d, h1, g1, rfl⟩ := MQ.rep ha
  obtain ⟨n, rfl⟩ : ∃ j, n = j + 6 := ⟨n - 6, by omega⟩
  have h0 := MQ.opPow_mono (O := O) n h1 g1 0
  have h1' := MQ.opPow_mono (O := O) n h1 g1 1
  simp only [Int.cast_zero, zpow_zero, zero_smul, Int.cast_one, zpow_one, one_smul, MQ.mono_const] at h0 h1'
  refine ⟨?_, ?_, ?_, h0, h1'⟩
  · rw [MQ.div_mono n h1 h1 g1 g1, div_self h1, sub_self, MQ.mono_const]
  · have := MQ.mul_mono (O := O) (n + 2) h1 one_ne_zero g1 MQ.good_zero
    rwa [MQ.mono_const, mul_one, add_zero] at this
  · have := MQ.div_mono (O := O) n h1 one_ne_zero g1 MQ.good_zero
    rwa [MQ.mono_const, div_one, sub_zero] at this

section examples
set_option maxRecDepth 10000
private abbrev x : Expr := sym ['x']
private abbrev y : Expr := sym ['y']

private theorem fx : FromMul exactOracle x := .sym (by decide)
private theorem fy : FromMul exactOracle y := .sym (by decide)
/-- `-2*x*y**(1/2)` -/
private theorem f1 : FromMul exactOracle (prod [rat (-2), x, pow y (rat (1 / 2))]) := by
  have h1 : FromMul exactOracle (pow y (rat (1 / 2))) := .root 9 (s := ['y']) (q := 1 / 2) (by decide) (by decide +kernel)
  have h2 : FromMul exactOracle (prod [x, pow y (rat (1 / 2))]) := .mul 9 fx h1 (by decide +kernel)
  exact .mul 9 (.num (q := -2) (by norm_num)) h2 (by decide +kernel)
/-- `x**(-3)*y/4` -/
private theorem f2 : FromMul exactOracle (prod [rat (1 / 4), y, pow x (rat (-3))]) := by
  have h1 : FromMul exactOracle (pow x (rat (-3))) := .pow 9 (-3) fx (by decide +kernel)
  have h2 : FromMul exactOracle (prod [y, pow x (rat (-3))]) := .mul 9 h1 fy (by decide +kernel)
  exact .div 9 h2 (.num (q := 4) (by norm_num)) (by decide +kernel)

/-- `(-2*x*y**(1/2))**2 / (x**(-3)*y/4)` is `16*x**5`: `y` is gone. -/
example : (opPow exactOracle (ctors exactOracle 6) (prod [rat (-2), x, pow y (rat (1 / 2))]) (rat 2) >>= fun s =>
    opDiv (ctors exactOracle 6) s (prod [rat (1 / 4), y, pow x (rat (-3))])) = .ok (prod [rat 16, pow x (rat 5)]) := by decide +kernel

example : PowerTerm (prod [rat (-2), x, pow y (rat (1 / 2))]) := products_are_power_terms f1

example : opDiv (ctors exactOracle 6) (prod [rat (1 / 4), y, pow x (rat (-3))]) (prod [rat (1 / 4), y, pow x (rat (-3))]) = .ok (rat 1) :=
  (products_of_one le_rfl f2).1
end examples

end Simpy
