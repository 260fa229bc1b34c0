import Verif.Proofs.NFRing
import Verif.Proofs.MQMono
import Verif.Props.Factor

/-! # Lemmas: `Sum.factor` on polynomials in several symbols that are multiplied out -/

namespace Simpy
namespace NF
open Expr Lin Mono1 TakenOut

variable {O : Oracle}

/-! ## Natural numbers as exponents -/

/-- The exponents as rational numbers. -/
noncomputable def toQ (d : Str →₀ ℕ) : Str →₀ ℚ := d.mapRange (fun k : ℕ => (k : ℚ)) Nat.cast_zero

@[simp] theorem toQ_apply (d : Str →₀ ℕ) (s : Str) : toQ d s = d s := by simp [toQ]

theorem toQ_support (d : Str →₀ ℕ) : (toQ d).support = d.support := by ext s; simp

theorem toQ_zero {d : Str →₀ ℕ} : toQ d = 0 ↔ d = 0 := by
  rw [← Finsupp.support_eq_empty, toQ_support, Finsupp.support_eq_empty]

theorem mono_toQ {c : ℚ} (h : c ≠ 0) (d : Str →₀ ℕ) : mono O c d = MQ.mono O c (toQ d) := by
  have hf : fs O d = MQ.fs O (toQ d) := by
    unfold fs MQ.fs
    rw [toQ_support]
    exact congrArg (sorted O) (List.map_congr_left fun s _ => by rw [toQ_apply]; rfl)
  unfold mono MQ.mono
  simp only [if_neg h, toQ_zero, hf]

theorem toQ_good {d : Str →₀ ℕ} (h : GoodD d) : MQ.Good (toQ d) := fun s hs => h s fun e => hs (by simp [e])

theorem toQ_sub {d e : Str →₀ ℕ} (h : e ≤ d) : toQ d - toQ e = toQ (d - e) := by
  ext s
  have := h s
  simp [Nat.cast_sub this]

theorem div_mono {n : Nat} {a b : ℚ} {d e : Str →₀ ℕ} (ha : a ≠ 0) (hb : b ≠ 0) (hd : GoodD d) (he : GoodD e) (hle : e ≤ d) :
    opDiv (ctors O (n + 6)) (mono O a d) (mono O b e) = .ok (mono O (a / b) (d - e)) := by
  rw [mono_toQ ha, mono_toQ hb, mono_toQ (div_ne_zero ha hb), ← toQ_sub hle]
  exact MQ.div_mono n ha hb (toQ_good hd) (toQ_good he)

/-! ## The factors of a term -/

/-- The factor for `s ** k`. -/
def fac (p : Str × ℕ) : Fac := ⟨sym p.1, p.2, true⟩

/-- The powers in `d`. -/
structure Lists (L : List (Str × ℕ)) (d : Str →₀ ℕ) : Prop where
  nodup : (L.map Prod.fst).Nodup
  val : ∀ p ∈ L, p.2 = d p.1 ∧ p.2 ≠ 0
  all : ∀ s, d s ≠ 0 → s ∈ L.map Prod.fst

theorem dfHeads_vp : ∀ L : List (Str × ℕ), (∀ p ∈ L, p.2 ≠ 0) → dfHeads (L.map fun p => vp p.1 p.2) = .ok (L.map fac)
  | [], _ => rfl
  | p :: r, h => by
    have hp : (p.2 : ℚ) ≠ 0 := by exact_mod_cast h p (by simp)
    have h0 : (0 : ℚ) < p.2 := lt_of_le_of_ne (Nat.cast_nonneg _) (Ne.symm hp)
    have e : dfHead (vp p.1 p.2) = .ok (fac p) := by
      have := dfHead_var (v := p.1) hp
      rw [abs_of_pos h0, decide_eq_true h0] at this
      exact this
    simp only [List.map_cons, dfHeads, acc_vp, Bool.false_eq_true, if_false, e, dfHeads_vp r fun q hq => h q (by simp [hq])]
    rfl

theorem dfHead_vp (p : Str × ℕ) (h : p.2 ≠ 0) : dfHead (vp p.1 p.2) = .ok (fac p) := by
  have := dfHeads_vp [p] (by simpa using h)
  simp only [List.map_cons, List.map_nil, dfHeads, acc_vp, Bool.false_eq_true, if_false] at this
  cases hh : dfHead (vp p.1 p.2) with
  | error e => rw [hh] at this; cases this
  | ok f => rw [hh] at this; simp [bind, Except.bind, pure, Except.pure] at this; rw [this]

theorem lists_of (d : Str →₀ ℕ) : ∃ L, Lists L d ∧ fs O d = L.map fun p => vp p.1 p.2 := by
  have hp : (fs O d).Perm ((d.support.toList.map fun s => (s, d s)).map fun p => vp p.1 p.2) := by
    rw [List.map_map]; exact sorted_perm _
  obtain ⟨L, hL, he⟩ := perm_map hp
  refine ⟨L, ⟨?_, ?_, ?_⟩, he⟩
  · have := (hL.map Prod.fst)
    rw [List.map_map] at this
    refine this.nodup_iff.2 ?_
    have : (Prod.fst ∘ fun s => (s, d s)) = id := rfl
    rw [this, List.map_id]; exact Finset.nodup_toList _
  · intro p hp
    obtain ⟨s, hs, rfl⟩ := List.mem_map.1 (hL.subset hp)
    exact ⟨rfl, by simpa using hs⟩
  · intro s hs
    exact List.mem_map.2 ⟨(s, d s), hL.symm.subset (List.mem_map.2 ⟨s, by simpa using hs, rfl⟩), rfl⟩

/-- What `_df` finds in a term. -/
inductive Df (c : ℚ) (d : Str →₀ ℕ) : List Fac → Prop
  | num : d = 0 → Df c d [⟨rat c, 1, true⟩]
  | pows {L : List (Str × ℕ)} : d ≠ 0 → Lists L d → Df c d (L.map fac)

theorem dfTerm_mono {c : ℚ} (h : c ≠ 0) (d : Str →₀ ℕ) : ∃ l, dfTerm (mono O c d) = .ok (rat c, l) ∧ Df c d l := by
  by_cases hd : d = 0
  · subst hd; rw [mono_const]; exact ⟨_, rfl, .num rfl⟩
  obtain ⟨L, hL, hf⟩ := lists_of (O := O) d
  have hk : ∀ p ∈ L, p.2 ≠ 0 := fun p hp => (hL.val p hp).2
  refine ⟨_, ?_, .pows hd hL⟩
  have hh := dfHeads_vp L hk
  have hacc : ((L.map fun p => vp p.1 p.2).filter isAcc) = [] := by
    rw [List.filter_eq_nil_iff]
    intro f hf
    obtain ⟨p, _, rfl⟩ := List.mem_map.1 hf
    rw [acc_vp]; simp
  unfold mono
  rw [if_neg h, if_neg hd, hf]
  by_cases h1 : c = 1
  · rw [if_pos h1]
    subst h1
    match L, hk, hh, hacc with
    | [], _, _, _ =>
      have := fs_ne (O := O) hd
      rw [hf] at this; exact absurd rfl this
    | [p], hk, _, _ =>
      have e := dfHead_vp p (hk p (by simp))
      show dfTerm (vp p.1 p.2) = _
      have : dfTerm (vp p.1 p.2) = (do
          let f ← dfHead (vp p.1 p.2)
          return (rat 1, [f])) := by
        rcases vp_cases p.1 p.2 with ⟨_, h⟩ | ⟨_, h⟩ <;> rw [h] <;> rfl
      rw [this, e]; rfl
    | p :: q :: r, _, hh, hacc =>
      show dfTerm (prod ((p :: q :: r).map fun p => vp p.1 p.2)) = _
      simp only [dfTerm, deconProd]
      rw [hacc, hh]
      rfl
  · rw [if_neg h1]
    have hr : (rat c).isAcc = true := rfl
    simp only [dfTerm, deconProd, List.filter_cons, hr, if_true, hacc, dfHeads, hh]
    rfl

/-! ## The common factors -/

/-- The list after one more term. -/
def keep (d : Str →₀ ℕ) (L : List (Str × ℕ)) : List (Str × ℕ) := (L.filter fun p => d p.1 ≠ 0).map fun p => (p.1, min p.2 (d p.1))

theorem lists_keep {L : List (Str × ℕ)} {g : Str →₀ ℕ} (h : Lists L g) (d : Str →₀ ℕ) : Lists (keep d L) (g ⊓ d) := by
  refine ⟨?_, ?_, ?_⟩
  · have : (keep d L).map Prod.fst = (L.filter fun p => d p.1 ≠ 0).map Prod.fst := by
      unfold keep; rw [List.map_map]; rfl
    rw [this]
    exact h.nodup.sublist (List.filter_sublist.map _)
  · intro p hp
    obtain ⟨q, hq, rfl⟩ := List.mem_map.1 hp
    obtain ⟨h1, h2⟩ := List.mem_filter.1 hq
    obtain ⟨h3, h4⟩ := h.val q h1
    simp only [ne_eq, decide_eq_true_eq] at h2
    refine ⟨by rw [h3]; rfl, ?_⟩
    dsimp only
    omega
  · intro s hs
    have hs' : min (g s) (d s) ≠ 0 := hs
    obtain ⟨q, hq, rfl⟩ := List.mem_map.1 (h.all s (by omega))
    refine List.mem_map.2 ⟨_, List.mem_map.2 ⟨q, List.mem_filter.2 ⟨hq, ?_⟩, rfl⟩, rfl⟩
    simp only [ne_eq, decide_eq_true_eq]; omega

theorem match_pows (m : Nat) {d : Str →₀ ℕ} (s : Str) (k : ℕ) : ∀ L : List (Str × ℕ), (∀ p ∈ L, p.2 = d p.1) →
    matchFac (ctors O (m + 1)) (fac (s, k)) (L.map fac) = .ok (if s ∈ L.map Prod.fst then some (fac (s, min k (d s))) else none)
  | [], _ => rfl
  | p :: r, h => by
    have r1 : ∀ s : Str, (ctors O (m + 1)).repr (sym s) = .ok s := fun _ => rfl
    simp only [List.map_cons, matchFac, fac, r1, bind, Except.bind, pure, Except.pure]
    by_cases e : s = p.1
    · rw [if_pos ⟨e, trivial⟩, if_pos (by simp [e])]
      have hp := h p (by simp)
      simp only [Except.ok.injEq, Option.some.injEq, Fac.mk.injEq, and_true, true_and]
      rw [hp, e]; push_cast; rfl
    · rw [if_neg (fun k => e k.1)]
      have := match_pows m s k r (d := d) fun q hq => h q (by simp [hq])
      simp only [fac] at this
      rw [this]
      simp only [List.mem_cons, e, false_or]

theorem good_ratStr {s : Str} (h : goodName s = true) (q : ℚ) : ratStr q ≠ s := by
  obtain ⟨c, r, rfl, _⟩ := MQ.name_shape h
  simp only [goodName, Bool.and_eq_true, Bool.not_eq_true', List.all_eq_true] at h
  obtain ⟨⟨⟨_, h2⟩, h3⟩, _⟩ := h
  refine Name.ratStr ⟨c, r, rfl, ?_, by simpa using h3⟩ q
  rintro rfl
  have := h2 '-' (by simp)
  revert this; decide

theorem facs_term (m : Nat) {c : ℚ} {d g : Str →₀ ℕ} (hd : d ≠ 0 ∨ GoodD g) {l : List Fac} (hl : Df c d l) : ∀ L : List (Str × ℕ), (∀ p ∈ L, p.2 = g p.1 ∧ p.2 ≠ 0) →
    commonFacs (ctors O (m + 1)) l (L.map fac) = .ok ((keep d L).map fac)
  | [], _ => rfl
  | p :: r, h => by
    have ih := facs_term m hd hl r fun q hq => h q (by simp [hq])
    have hm : matchFac (ctors O (m + 1)) (fac p) l = .ok (if d p.1 ≠ 0 then some (fac (p.1, min p.2 (d p.1))) else none) := by
      cases hl with
      | num h0 =>
        subst h0
        have r1 : ∀ s : Str, (ctors O (m + 1)).repr (sym s) = .ok s := fun _ => rfl
        have r2 : ∀ q : ℚ, (ctors O (m + 1)).repr (rat q) = .ok (ratStr q) := fun _ => rfl
        have hg : GoodD g := by rcases hd with hd | hd; exacts [absurd rfl hd, hd]
        have hp := h p (by simp)
        have : ¬ (p.1 = ratStr c) := fun e => good_ratStr (hg p.1 (by rw [← hp.1]; exact hp.2)) c e.symm
        simp [matchFac, fac, r1, r2, bind, Except.bind, pure, Except.pure, this]
      | @pows L' _ hL =>
        have := match_pows (O := O) m (d := d) p.1 p.2 L' fun q hq => (hL.val q hq).1
        rw [show fac p = fac (p.1, p.2) from rfl, this]
        have iff : p.1 ∈ L'.map Prod.fst ↔ d p.1 ≠ 0 := by
          refine ⟨fun h => ?_, fun h => hL.all _ h⟩
          obtain ⟨q, hq, e⟩ := List.mem_map.1 h
          have := hL.val q hq
          rw [e] at this; rw [← this.1]; exact this.2
        simp only [iff]
    simp only [List.map_cons, commonFacs, hm, ih, bind, Except.bind, pure, Except.pure]
    by_cases e : d p.1 ≠ 0
    · simp [e, keep]
    · simp [e, keep]

/-- The greatest common monomial. -/
noncomputable def gcds (g : Str →₀ ℕ) (l : List (ℚ × (Str →₀ ℕ))) : Str →₀ ℕ := l.foldl (fun g p => g ⊓ p.2) g

theorem gcds_le : ∀ (l : List (ℚ × (Str →₀ ℕ))) (g : Str →₀ ℕ), gcds g l ≤ g ∧ ∀ p ∈ l, gcds g l ≤ p.2
  | [], g => ⟨le_refl _, by simp⟩
  | p :: r, g => by
    obtain ⟨h1, h2⟩ := gcds_le r (g ⊓ p.2)
    refine ⟨h1.trans inf_le_left, fun q hq => ?_⟩
    rcases List.mem_cons.1 hq with rfl | hq
    · exact h1.trans inf_le_right
    · exact h2 q hq

theorem le_gcds : ∀ (l : List (ℚ × (Str →₀ ℕ))) {g h : Str →₀ ℕ}, h ≤ g → (∀ p ∈ l, h ≤ p.2) → h ≤ gcds g l
  | [], _, _, h1, _ => h1
  | p :: r, _, _, h1, h2 => le_gcds r (le_inf h1 (h2 p (by simp))) fun q hq => h2 q (by simp [hq])

theorem loop_pows (m : Nat) : ∀ (l : List (ℚ × (Str →₀ ℕ))) (ls : List (List Fac)) (g : Str →₀ ℕ) (L : List (Str × ℕ)), GoodD g → Lists L g →
    List.Forall₂ (fun p l => Df p.1 p.2 l) l ls →
    ∃ L', commonLoop (ctors O (m + 1)) (L.map fac) ls = .ok (L'.map fac) ∧ Lists L' (gcds g l)
  | [], _, g, L, _, hL, .nil => ⟨L, rfl, hL⟩
  | p :: r, _, g, L, hg, hL, .cons (l₂ := ls) (b := b) h1 h2 => by
    have hg' : GoodD (g ⊓ p.2) := fun s hs => hg s fun e => hs (by simp [e])
    obtain ⟨L', e, h'⟩ := loop_pows m r ls (g ⊓ p.2) (keep p.2 L) hg' (lists_keep hL p.2) h2
    refine ⟨L', ?_, h'⟩
    simp only [commonLoop, facs_term m (.inr hg) h1 L hL.val, bind, Except.bind]
    exact e

theorem loop_num (m : Nat) (c : ℚ) {p : ℚ × (Str →₀ ℕ)} {ls : List Fac} (hp : p.2 ≠ 0) (hg : GoodD p.2) (h : Df p.1 p.2 ls) :
    commonFacs (ctors O (m + 1)) ls [⟨rat c, 1, true⟩] = .ok [] := by
  cases h with
  | num h0 => exact absurd h0 hp
  | @pows L _ hL =>
    have : ∀ L : List (Str × ℕ), (∀ p ∈ L, goodName p.1 = true) → matchFac (ctors O (m + 1)) ⟨rat c, 1, true⟩ (L.map fac) = .ok none := by
      intro L
      induction L with
      | nil => intro _; rfl
      | cons q r ih =>
        intro h
        have r1 : ∀ s : Str, (ctors O (m + 1)).repr (sym s) = .ok s := fun _ => rfl
        have r2 : ∀ q : ℚ, (ctors O (m + 1)).repr (rat q) = .ok (ratStr q) := fun _ => rfl
        have hne : ¬ (ratStr c = q.1) := good_ratStr (h q (by simp)) c
        simp only [List.map_cons, matchFac, fac, r1, r2, bind, Except.bind, hne, false_and, if_false]
        exact ih fun x hx => h x (by simp [hx])
    simp only [commonFacs, this L fun q hq => hg q.1 (by rw [← (hL.val q hq).1]; exact (hL.val q hq).2), bind, Except.bind, pure, Except.pure]

theorem gcds_zero (l : List (ℚ × (Str →₀ ℕ))) : gcds 0 l = 0 := by
  have := (gcds_le l 0).1
  exact le_antisymm this (by intro s; simp)

theorem makeProd_facs (m : Nat) {L : List (Str × ℕ)} {g : Str →₀ ℕ} (h : Lists L g) : makeProd (ctors O (m + 3)) (L.map fac) = .ok (mono O 1 g) := by
  have hg : (L.map fun p => Finsupp.single p.1 p.2).sum = g := by
    ext s
    by_cases hs : g s = 0
    · by_contra hne
      rw [hs] at hne
      obtain ⟨k, hk⟩ := exps_mem (l := L) (s := s) (by exact hne)
      have := h.val _ hk
      rw [this.1] at this
      exact this.2 hs
    · obtain ⟨p, hp, rfl⟩ := List.mem_map.1 (h.all s hs)
      have := exps_apply h.nodup (s := p.1) (k := p.2) hp
      rw [← (h.val p hp).1]; exact this
  unfold makeProd
  cases hL : L with
  | nil =>
    subst hL
    simp at hg
    rw [← hg, mono_const]; rfl
  | cons p r =>
    rw [← hL]
    have e1 : (L.map fac).isEmpty = false := by rw [hL]; rfl
    rw [e1]
    simp only [Bool.false_eq_true, if_false]
    have e2 : ∀ L : List (Str × ℕ), (∀ p ∈ L, p.2 ≠ 0) → mapR (fun f : Fac => (ctors O (m + 3)).pow f.base (rat (if f.pos then f.expo else -f.expo))) (L.map fac) =
        .ok (monos O (L.map fun p => (1, Finsupp.single p.1 p.2))) := by
      intro L
      induction L with
      | nil => intro _; rfl
      | cons p r ih =>
        intro h
        have hp : (p.2 : ℚ) ≠ 0 := by exact_mod_cast h p (by simp)
        have e : (ctors O (m + 3)).pow (sym p.1) (rat (p.2 : ℚ)) = .ok (vp p.1 p.2) := pow_var' (m + 2) hp
        have e' : vp p.1 p.2 = mono O 1 (Finsupp.single p.1 p.2) := vp_mono p.1 (by have := h p (by simp); omega)
        have ih := ih fun q hq => h q (by simp [hq])
        have e'' : (ctors O (m + 3)).pow (fac p).base (rat (if (fac p).pos then (fac p).expo else -(fac p).expo)) = .ok (vp p.1 p.2) := e
        rw [List.map_cons, mapR, e'']
        simp only [ih]
        rw [e']; rfl
    rw [e2 L fun p hp => (h.val p hp).2, ok_bind, prod_monos m]
    have f1 : (L.map fun p => ((1 : ℚ), Finsupp.single p.1 p.2)).map Prod.fst = L.map fun _ => 1 := by rw [List.map_map]; rfl
    have f2 : (L.map fun p => ((1 : ℚ), Finsupp.single p.1 p.2)).map Prod.snd = L.map fun p => Finsupp.single p.1 p.2 := by rw [List.map_map]; rfl
    rw [f1, f2, hg]; simp

/-! ## Together -/

theorem mapR_dfTerm : ∀ l : List (ℚ × (Str →₀ ℕ)), (∀ p ∈ l, p.1 ≠ 0) → ∃ ls, mapR dfTerm (monos O l) = .ok ((l.map fun p => rat p.1).zip ls) ∧
    List.Forall₂ (fun p l => Df p.1 p.2 l) l ls
  | [], _ => ⟨[], rfl, .nil⟩
  | p :: r, h => by
    obtain ⟨ls, e, h1⟩ := mapR_dfTerm r fun q hq => h q (by simp [hq])
    obtain ⟨l, e', h2⟩ := dfTerm_mono (O := O) (h p (by simp)) p.2
    refine ⟨l :: ls, ?_, .cons h2 h1⟩
    simp only [monos, List.map_cons, mapR, e'] at e ⊢
    rw [e]; rfl

/-- What the number taken out is. -/
def Number (cs : List ℚ) (k : ℚ) : Prop := CommonNumber cs k ∨ k = 1 ∧ ∃ a ∈ cs, ∃ b ∈ cs, ¬ Divides a b ∧ ¬ Divides b a

/-- The common factor. -/
theorem common_monos (m : Nat) {l : List (ℚ × (Str →₀ ℕ))} (h2 : 2 ≤ l.length) (hc : ∀ p ∈ l, p.1 ≠ 0) (hg : ∀ p ∈ l, GoodD p.2)
    (hn : (l.map Prod.snd).Nodup) : ∃ k g, factorCommon (ctors O (m + 4)) (monos O l) = .ok (mono O k g) ∧ k ≠ 0 ∧ Number (l.map Prod.fst) k ∧
      (∀ p ∈ l, g ≤ p.2) ∧ ∀ h, (∀ p ∈ l, h ≤ p.2) → h ≤ g := by
  obtain ⟨ls, e1, h1⟩ := mapR_dfTerm (O := O) l hc
  have hlen : ls.length = (l.map fun p => rat p.1).length := by rw [List.length_map]; exact h1.length_eq.symm
  have z1 : ((l.map fun p => rat p.1).zip ls).map Prod.snd = ls := List.map_snd_zip (by omega)
  have z2 : ((l.map fun p => rat p.1).zip ls).map Prod.fst = (l.map Prod.fst).map rat := by
    rw [List.map_fst_zip (by omega), List.map_map]; rfl
  obtain ⟨p, q, r, rfl⟩ : ∃ p q r, l = p :: q :: r := by
    match l, h2 with
    | p :: q :: r, _ => exact ⟨p, q, r, rfl⟩
  cases h1 with
  | @cons _ f _ fs' hf hfs =>
  have good_g : GoodD (gcds p.2 (q :: r)) := fun s hs => hg p (by simp) s fun e => by
    have := (gcds_le (q :: r) p.2).1 s
    omega
  have hloop : ∃ L', commonLoop (ctors O (m + 4)) f fs' = .ok (L'.map fac) ∧ Lists L' (gcds p.2 (q :: r)) := by
    cases hf with
    | @pows L h0 hL => exact loop_pows (m + 3) (q :: r) fs' p.2 L (hg p (by simp)) hL hfs
    | num h0 =>
      cases hfs with
      | @cons _ b _ rest hq hrest =>
      have hq0 : q.2 ≠ 0 := by
        intro e
        simp only [List.map_cons, List.nodup_cons, List.mem_cons, not_or] at hn
        exact hn.1.1 (by rw [h0, e])
      refine ⟨[], ?_, ?_⟩
      · simp only [commonLoop, loop_num (m + 3) p.1 hq0 (hg q (by simp)) hq, bind, Except.bind]
        exact commonLoop_nil _
      · rw [h0, gcds_zero]
        exact ⟨by simp, by simp, by simp⟩
  obtain ⟨L', l1, l2⟩ := hloop
  have mk := makeProd_facs (O := O) (m + 1) l2
  have hle := gcds_le (q :: r) p.2
  have last : (∀ x ∈ p :: q :: r, gcds p.2 (q :: r) ≤ x.2) ∧ ∀ h, (∀ x ∈ p :: q :: r, h ≤ x.2) → h ≤ gcds p.2 (q :: r) := by
    refine ⟨fun x hx => ?_, fun h hh => le_gcds _ (hh p (by simp)) fun x hx => hh x (List.mem_cons_of_mem _ hx)⟩
    rcases List.mem_cons.1 hx with rfl | hx
    exacts [hle.1, hle.2 x hx]
  have hcs : ∀ x ∈ p.1 :: (q :: r).map Prod.fst, x ≠ 0 := by
    intro x hx
    obtain ⟨y, hy, rfl⟩ := List.mem_map.1 (show x ∈ (p :: q :: r).map Prod.fst from hx)
    exact hc y hy
  have fc : factorCommon (ctors O (m + 4)) (monos O (p :: q :: r)) = (do
      let cc ← commonCoeff (ctors O (m + 4)) ((p.1 :: (q :: r).map Prod.fst).map rat)
      match cc with
      | some k => opMul (ctors O (m + 4)) (mono O 1 (gcds p.2 (q :: r))) (rat k)
      | none => return mono O 1 (gcds p.2 (q :: r))) := by
    unfold factorCommon
    rw [e1, ok_bind, z1, z2]
    dsimp only
    rw [l1, ok_bind]
    simp only [mk, ok_bind]
    rfl
  rcases common_number (C := ctors O (m + 4)) p.1 ((q :: r).map Prod.fst) hcs with ⟨k, n1, n2, n3⟩ | ⟨n1, n2⟩
  · refine ⟨k, gcds p.2 (q :: r), ?_, n2, .inl n3, last⟩
    rw [fc, n1, ok_bind]
    dsimp only
    have := MQ.mul_mono (O := O) m (a := 1) (b := k) (d := toQ (gcds p.2 (q :: r))) (e := 0) one_ne_zero n2 (toQ_good good_g) MQ.good_zero
    rw [MQ.mono_const, ← mono_toQ one_ne_zero, one_mul, add_zero, ← mono_toQ n2] at this
    exact this
  · refine ⟨1, gcds p.2 (q :: r), ?_, one_ne_zero, .inr ⟨rfl, n2⟩, last⟩
    rw [fc, n1, ok_bind]
    rfl

theorem mapR_div_monos (m : Nat) {k : ℚ} {g : Str →₀ ℕ} (hk : k ≠ 0) (gg : GoodD g) : ∀ l : List (ℚ × (Str →₀ ℕ)), (∀ p ∈ l, p.1 ≠ 0) → (∀ p ∈ l, GoodD p.2) →
    (∀ p ∈ l, g ≤ p.2) → mapR (fun t => opDiv (ctors O (m + 6)) t (mono O k g)) (monos O l) = .ok (monos O (l.map fun p => (p.1 / k, p.2 - g)))
  | [], _, _, _ => rfl
  | p :: r, h1, h2, h3 => by
    have ih := mapR_div_monos m hk gg r (fun q hq => h1 q (by simp [hq])) (fun q hq => h2 q (by simp [hq])) fun q hq => h3 q (by simp [hq])
    simp only [monos, List.map_cons, mapR] at ih ⊢
    rw [div_mono (h1 p (by simp)) hk (h2 p (by simp)) gg (h3 p (by simp))]
    simp only [ih]

theorem pol_scale {k : ℚ} {g : Str →₀ ℕ} (hk : k ≠ 0) : ∀ l : List (ℚ × (Str →₀ ℕ)), (∀ p ∈ l, g ≤ p.2) →
    MvPolynomial.monomial g k * pol (l.map fun p => (p.1 / k, p.2 - g)) = pol l
  | [], _ => by simp [pol]
  | p :: r, h => by
    rw [List.map_cons, pol_cons, pol_cons, mul_add, pol_scale hk r fun q hq => h q (by simp [hq]), MvPolynomial.monomial_mul,
      mul_div_cancel₀ _ hk, add_tsub_cancel_of_le (h p (by simp))]

/-- `factor` of a sum that is multiplied out. -/
theorem factor_polyE (hO : O.Exact) (n : Nat) {p : MvPolynomial Str ℚ} (hp : Good p) {ts : List Expr} (hts : polyE O p = sum ts) :
    ∃ k g s r, factorSum (ctors O (n + 8)) ts = .ok r ∧ opMul (ctors O (n + 8)) (mono O k g) (polyE O s) = .ok r ∧ k ≠ 0 ∧ GoodD g ∧ Good s ∧
      MvPolynomial.monomial g k * s = p ∧ PolyExpr O r ∧ toMv r = p ∧ height r ≤ 5 ∧
      (∃ cs : List ℚ, (∀ c, c ∈ cs ↔ ∃ d ∈ p.support, p.coeff d = c) ∧ Number cs k) ∧ (∀ h, (∀ d ∈ p.support, h ≤ d) ↔ h ≤ g) := by
  have hlen : 2 ≤ (terms O p).length ∧ ts = (sorted O (terms O p)).reverse := by
    rcases polyE_cases (O := O) p with ⟨c, d, rfl⟩ | ⟨h, h2⟩
    · rw [polyE_mono] at hts
      have := sum_mono (O := O) c d
      rw [hts] at this; cases this
    · rw [h] at hts; exact ⟨h2, (Expr.sum.inj hts).symm⟩
  obtain ⟨l, e1, e2, e3, e4⟩ := terms_list (O := O) p
  have hl2 : 2 ≤ l.length := by
    have := congrArg List.length e1
    rw [List.length_reverse, (sorted_perm _).length_eq, monos, List.length_map] at this
    omega
  have hmem : ∀ q ∈ l, q.2 ∈ p.support := fun q hq => by
    rw [MvPolynomial.mem_support_iff, ← (e3 q hq).1]; exact (e3 q hq).2
  have hmem' : ∀ d ∈ p.support, ∃ q ∈ l, q.2 = d := by
    intro d hd
    by_contra hne
    push Not at hne
    rw [MvPolynomial.mem_support_iff] at hd
    apply hd
    rw [← e2]
    clear e1 e2 e3 e4 hl2 hmem hd
    induction l with
    | nil => simp [pol]
    | cons q r ih =>
      rw [pol_cons, MvPolynomial.coeff_add, ih fun x hx => hne x (by simp [hx]), MvPolynomial.coeff_monomial, if_neg (hne q (by simp)), add_zero]
  have hg : ∀ q ∈ l, GoodD q.2 := fun q hq => hp q.2 (hmem q hq)
  have hc : ∀ q ∈ l, q.1 ≠ 0 := fun q hq => (e3 q hq).2
  obtain ⟨k, g, c1, c2, c3, c4, c5⟩ := common_monos (O := O) (n + 4) hl2 hc hg e4
  have gg : GoodD g := by
    match l, hl2 with
    | q :: _, _ =>
      intro s hs
      refine hg q (by simp) s fun e => hs ?_
      have := c4 q (by simp) s
      omega
  have hsub : ∀ q ∈ l, GoodD (q.2 - g) := fun q hq s hs => hg q hq s fun e => hs (by simp [e])
  have hs := sum_polys (O := O) hO (n + 2) (l.map fun q => MvPolynomial.monomial (q.2 - g) (q.1 / k)) fun x hx => by
    obtain ⟨q, hq, rfl⟩ := List.mem_map.1 hx
    exact good_mono (hsub q hq)
  have em : (l.map fun q => MvPolynomial.monomial (q.2 - g) (q.1 / k)).map (polyE O) = monos O (l.map fun q => (q.1 / k, q.2 - g)) := by
    unfold monos
    rw [List.map_map, List.map_map]
    exact List.map_congr_left fun q _ => polyE_mono _ _
  have es : (l.map fun q => MvPolynomial.monomial (q.2 - g) (q.1 / k)).sum = pol (l.map fun q => (q.1 / k, q.2 - g)) := by
    unfold pol; rw [List.map_map]; rfl
  rw [em, es] at hs
  have gs : Good (pol (l.map fun q => (q.1 / k, q.2 - g))) := by
    rw [← es]
    exact good_sum fun x hx => by
      obtain ⟨q, hq, rfl⟩ := List.mem_map.1 hx
      exact good_mono (hsub q hq)
  obtain ⟨r, m1, m2, m3, m4⟩ := mul_polyE (O := O) hO n (p := MvPolynomial.monomial g k) (q := pol (l.map fun q => (q.1 / k, q.2 - g))) (good_mono gg) gs
  have hpq : MvPolynomial.monomial g k * pol (l.map fun q => (q.1 / k, q.2 - g)) = p := by rw [pol_scale c2 l c4, e2]
  rw [polyE_mono] at m1
  refine ⟨k, g, _, r, ?_, m1, c2, gg, gs, hpq, m2, by rw [m3, hpq], m4, ⟨l.map Prod.fst, ?_, c3⟩, ?_⟩
  · rw [hlen.2, e1]
    unfold factorSum
    rw [c1, ok_bind, mapR_div_monos (n + 2) c2 gg l hc hg c4, ok_bind, hs, ok_bind, m1]
  · intro c
    constructor
    · intro h
      obtain ⟨q, hq, rfl⟩ := List.mem_map.1 h
      exact ⟨q.2, hmem q hq, (e3 q hq).1.symm⟩
    · rintro ⟨d, hd, rfl⟩
      obtain ⟨q, hq, rfl⟩ := hmem' d hd
      exact List.mem_map.2 ⟨q, hq, (e3 q hq).1⟩
  · intro h
    constructor
    · exact fun hh => c5 h fun q hq => hh q.2 (hmem q hq)
    · intro hh d hd
      obtain ⟨q, hq, rfl⟩ := hmem' d hd
      exact hh.trans (c4 q hq)

end NF
end Simpy
