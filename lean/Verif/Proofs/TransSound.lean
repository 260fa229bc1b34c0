import Verif.Proofs.SolSound
import Verif.Spec.Transforms
import Verif.Proofs.ExpandSound
import Verif.Props.Diff

/-! The transforms reduce integration problems to simpler ones. -/

namespace Simpy
open Expr Node

variable {O : Oracle}

/-! ## PullConstant, Additivity -/

theorem pullLoop_some {C : Ctors} {v : Str} : ∀ {ts pre : List Expr} {c q : Expr}, pullLoop C v pre ts = .ok (some (c, q)) →
    ∃ l1 l2, pre ++ ts = l1 ++ c :: l2 ∧ v ∉ syms c ∧ C.prod (l1 ++ l2) = .ok q
  | [], pre, c, q, h => by simp [pullLoop] at h
  | t :: r, pre, c, q, h => by
    rw [pullLoop] at h
    split at h
    · obtain ⟨l1, l2, h1, h2, h3⟩ := pullLoop_some h
      exact ⟨l1, l2, by simpa using h1, h2, h3⟩
    · next hv =>
      obtain ⟨q', h1, h⟩ := bind_ok.1 h
      have := pure_ok.1 h
      simp only [Option.some.injEq, Prod.mk.injEq] at this
      obtain ⟨rfl, rfl⟩ := this
      exact ⟨pre, r, rfl, hv, h1⟩

theorem pullConstant_ok (hO : O.Exact) {n : Nat} {ρ : Str → ℝ} {v : Str} {A : Str → Prop} {e c g : Expr}
    (he : Integrand ρ A e) (h : pullConstant O n v e = .ok (some (c, g))) (i k : Nat) :
    Reduces (posed ρ v A e) (fun _ => posed ρ v A g) i k (.pullConstant c) ∧ Integrand ρ A g := by
  cases e with
  | prod ts =>
    rw [pullConstant] at h
    obtain ⟨l1, l2, h1, h2, h3⟩ := pullLoop_some h
    simp only [List.nil_append] at h1
    subst h1
    have hC := ctors_sound hO n
    have w := (WF_prod.1 he.wf).2
    have d := Dom_prod.1 he.reg
    have hA : ∀ t ∈ l1 ++ c :: l2, ∀ s ∈ syms t, A s := fun t ht s hs => he.scope s (by
      simp only [syms, symsL_mem]; exact ⟨t, ht, hs⟩)
    have hsub : ∀ t ∈ l1 ++ l2, t ∈ l1 ++ c :: l2 := by
      intro t ht; simp only [List.mem_append, List.mem_cons] at ht ⊢; tauto
    obtain ⟨v1, d1⟩ := hC.prod ρ (l1 ++ l2) g (fun t ht => w t (hsub t ht)) (fun t ht => d t (hsub t ht)) h3
    have w1 := hC.prodW (l1 ++ l2) g (fun t ht => w t (hsub t ht)) h3
    refine ⟨⟨w c (by simp), d c (by simp), h2, hA c (by simp), rfl, rfl, fun _ => id, ?_⟩, w1, d1,
      (ctors_pres (closed_syms A) O n).prod _ _ (fun t ht => hA t (hsub t ht)) h3⟩
    simp only [posed]
    rw [v1, den_prod]
    simp only [List.map_append, List.map_cons, List.prod_append, List.prod_cons]
    ring
  | _ => simp [pullConstant] at h

theorem additivity_ok {ρ : Str → ℝ} {v : Str} {A : Str → Prop} {ts : List Expr} (he : Integrand ρ A (sum ts)) (i : Nat) :
    Reduces (posed ρ v A (sum ts)) (fun j => posed ρ v A (ts.getD j (rat 0))) i ts.length .additivity ∧
      ∀ t ∈ ts, Integrand ρ A t := by
  refine ⟨⟨fun j _ => ⟨rfl, rfl, fun _ => id⟩, ?_⟩, fun t ht => ⟨WF_sum.1 he.wf t ht, Dom_sum.1 he.reg t ht, fun s hs =>
    he.scope s (by simp only [syms, symsL_mem]; exact ⟨t, ht, hs⟩)⟩⟩
  simp only [posed]
  rw [den_sum]
  congr 1
  apply List.ext_getElem
  · simp
  · intro j h1 h2
    simp only [List.length_map] at h1
    simp [List.getD_eq_getElem?_getD, h1]

/-! ## Rewriting -/

/-- A rewriting that preserves the value reduces the problem. -/
theorem rewrite_ok {ρ : Str → ℝ} {v : Str} {A : Str → Prop} {e g : Expr} {tr : Transf} (hv : den ρ g = den ρ e)
    (htr : usubOf tr = none) (h1 : tr ≠ .additivity) (h2 : ∀ c, tr ≠ .pullConstant c) (i k : Nat) :
    Reduces (posed ρ v A e) (fun _ => posed ρ v A g) i k tr := by
  cases tr <;> first | exact absurd rfl h1 | exact absurd rfl (h2 _) | (simp [usubOf] at htr; done) |
    exact ⟨rfl, rfl, fun _ => id, hv.symm⟩

theorem expandT_ok (hO : O.Exact) {n : Nat} {ρ : Str → ℝ} {v : Str} {A : Str → Prop} {e g : Expr} (he : Integrand ρ A e)
    (ok : ExpandOk O ρ n e) (h : expandT O n e = .ok (some g)) (i k : Nat) :
    Reduces (posed ρ v A e) (fun _ => posed ρ v A g) i k .expand ∧ Integrand ρ A g := by
  unfold expandT at h
  obtain ⟨b, -, h⟩ := bind_ok.1 h
  split at h
  · obtain ⟨r, h1, h⟩ := bind_ok.1 h
    have := pure_ok.1 h
    simp only [Option.some.injEq] at this
    subst this
    obtain ⟨a, b, c⟩ := expand_sound hO n ((adm_WF hO).kid he.wf) he.reg ok h1
    refine ⟨rewrite_ok c rfl (by simp) (by simp) i k, a, b, ?_⟩
    have hA := (adm_syms O A).toAdmE
    exact AdmE.expandE hA n (hA.kid he.scope) h1
  · have := pure_ok.1 h
    simp at this

/-! ## u-substitutions -/

theorem substOk_of_run (hO : O.Exact) {n : Nat} {u : Str} {U S : Expr} (wS : WF S) (wU : WF U)
    (ht : RunTame O (replacePerf O (sym u) U) n S = true) : SubstOk O n u U S := fun _ dU dS =>
  repOk_of_run hO (perfOk_subst wU dU) n wS dS ht

theorem pointAfter_agree {ρ : Str → ℝ} {u : Str} {q : Expr} {A : Str → Prop} (hu : ¬A u) {e : Expr} (he : ∀ s ∈ syms e, A s) :
    ∀ s ∈ syms e, ρ s = pointAfter ρ u q s := by
  intro s hs
  have : s ≠ u := by rintro rfl; exact hu (he _ hs)
  simp [pointAfter, this]

/-- An expression in the old symbols has the old value. -/
theorem Node.Integrand.after {ρ : Str → ℝ} {u : Str} {q e : Expr} {A : Str → Prop} (hu : ¬A u) (he : Integrand ρ A e) :
    Regular (pointAfter ρ u q) e ∧ den (pointAfter ρ u q) e = den ρ e :=
  ⟨DomS_congr e (pointAfter_agree hu he.scope) he.reg, (den_congr e (pointAfter_agree hu he.scope)).symm⟩

/-- `replace(e, q, u)` -/
theorem swap_ok (hO : O.Exact) {n : Nat} {ρ : Str → ℝ} {u : Str} {A : Str → Prop} {e q r : Expr}
    (he : Integrand ρ A e) (hq : Integrand ρ A q) (hu : ¬A u) (ht : RunTame O (replacePerf O q (sym u)) n e = true)
    (h : replaceOld O n e q (sym u) = .ok r) :
    Integrand (pointAfter ρ u q) (fun s => s = u ∨ A s) r ∧ den (pointAfter ρ u q) r = den ρ e := by
  obtain ⟨d1, v1⟩ := he.after (q := q) hu
  obtain ⟨d2, v2⟩ := hq.after (q := q) hu
  have hp : PerfOk true (pointAfter ρ u q) (pointAfter ρ u q) (replacePerf O q (sym u)) := by
    refine ⟨?_, fun k b _ db _ => ⟨db, rfl⟩, fun _ _ _ => rfl⟩
    intro k b w wb db hb
    simp only [replacePerf, Except.ok.injEq] at hb
    split at hb
    · next hbo =>
      cases hb
      rw [Exact.beq_eq hO db d2 hbo]
      refine ⟨by simp [WF], by simp [DomS], ?_⟩
      rw [v2]; simp [den, pointAfter]
    · cases hb
  obtain ⟨a, b, c⟩ := replace_sound hO hp n he.wf d1 (repOk_of_run hO hp n he.wf d1 ht) h
  refine ⟨⟨a, b, ?_⟩, c.trans v1⟩
  refine Adm.replaceE (adm_syms O _) ?_ n (fun s hs => .inr (he.scope s hs)) h
  intro k b w _ hb
  simp only [replacePerf, Except.ok.injEq] at hb
  split at hb
  · cases hb; simp [syms]
  · cases hb

/-- A u-substitution `u = q` with new integrand `g`, `g(u) q' = e`. -/
theorem usub_ok {ρ : Str → ℝ} {u v : Str} {A : Str → Prop} {e q g : Expr} {q' : ℝ} {tr : Transf} (hq : Integrand ρ A q)
    (hv : A v) (hu : ¬A u) (hd : HasDerivAt (fnOf ρ v q) q' (ρ v)) (wg : WF g) (dg : Regular (pointAfter ρ u q) g)
    (sg : ∀ s ∈ syms g, s = u ∨ A s) (hg : v ∉ syms g) (hval : den ρ e = den (pointAfter ρ u q) g * q')
    (htr : usubOf tr = some q) (i k : Nat) :
    Reduces (posed ρ v A e) (fun _ => posedAfter ρ v u A q g) i k tr ∧
      Integrand (pointAfter ρ u q) (scopeAfter A v u) g := by
  have huv : u ≠ v := by rintro rfl; exact hu hv
  have key : Reduces (posed ρ v A e) (fun _ => posedAfter ρ v u A q g) i k (.genericUSub q) :=
    ⟨hq.wf, hq.reg, hq.scope, rfl, by rintro (h | h); exacts [huv h.symm, h.2 rfl],
      fun s hs => hs.imp id fun h => h.1, q', hd, hval⟩
  refine ⟨?_, wg, dg, fun s hs => (sg s hs).imp id fun h => ⟨h, ?_⟩⟩
  · cases tr <;> simp [usubOf] at htr <;> subst htr <;> exact key
  · rintro rfl; exact hg hs

/-- The scheme of PolynomialUSub and LinearUSub: `replace(e, q, u) / q.diff(v)`. -/
theorem swap_div (hO : O.Exact) {n : Nat} {ρ : Str → ℝ} {u v : Str} {A : Str → Prop} {e q r d g : Expr} {tr : Transf}
    (he : Integrand ρ A e) (hq : Integrand ρ A q) (hv : A v) (hu : ¬A u)
    (hok : DiffOk O ρ v n q) (hd : diffE O n v q = .ok d) (hd0 : den ρ d ≠ 0)
    (ht : RunTame O (replacePerf O q (sym u)) n e = true) (hr : replaceOld O n e q (sym u) = .ok r)
    (hg : opDiv (ctors O n) r d = .ok g) (hvg : v ∉ syms g) (htr : usubOf tr = some q) (i k : Nat) :
    Reduces (posed ρ v A e) (fun _ => posedAfter ρ v u A q g) i k tr ∧
      Integrand (pointAfter ρ u q) (scopeAfter A v u) g := by
  have hC := ctors_sound hO n
  obtain ⟨hr, vr⟩ := swap_ok hO he hq hu ht hr
  have hdd := diff_sound hO n hq.wf hq.reg hok hd
  have hdi : Integrand ρ A d := ⟨hdd.wf, hdd.dom, Adm.diffE (adm_syms O A) n hq.scope hd⟩
  obtain ⟨d1, v1⟩ := hdi.after (q := q) hu
  obtain ⟨v2, d2⟩ := opDiv_V hC hr.wf hdi.wf hr.reg d1 (by rwa [v1]) hg
  refine usub_ok hq hv hu hdd.deriv (opDiv_W hC hr.wf hdi.wf hg) d2 ?_ hvg ?_ htr i k
  · exact opDiv_G ((closed_syms _).g O) (ctors_pres (closed_syms _) O n) hr.scope (fun s hs => .inr (hdi.scope s hs)) hg
  · rw [v2, v1, vr]; field_simp

end Simpy
