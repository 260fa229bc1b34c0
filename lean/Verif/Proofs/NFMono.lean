import Verif.Proofs.NFBase

/-! # Lemmas: monomials in several symbols, as the constructors write them -/

namespace Simpy
namespace NF
open Expr Lin Mono1

variable {O : Oracle}

/-- The powers of the symbols, in order. -/
noncomputable def fs (O : Oracle) (d : Str →₀ ℕ) : List Expr := sorted O (d.support.toList.map fun s => vp s (d s))

/-- A product of the factors, of which there is at least one. -/
def one : List Expr → Expr
  | [f] => f
  | l => prod l

/-- `c * s ** d s * …`. -/
noncomputable def mono (O : Oracle) (c : ℚ) (d : Str →₀ ℕ) : Expr :=
  if c = 0 then rat 0 else if d = 0 then rat c else if c = 1 then one (fs O d) else prod (rat c :: fs O d)

theorem mem_fs {d : Str →₀ ℕ} {f : Expr} : f ∈ fs O d ↔ ∃ s, 1 ≤ d s ∧ f = vp s (d s) := by
  unfold fs
  rw [(sorted_perm _).mem_iff]
  simp only [List.mem_map, Finset.mem_toList, Finsupp.mem_support_iff]
  exact ⟨fun ⟨s, h, e⟩ => ⟨s, by omega, e.symm⟩, fun ⟨s, h, e⟩ => ⟨s, by omega, e.symm⟩⟩

theorem fs_leaf {d : Str →₀ ℕ} {f : Expr} (h : f ∈ fs O d) : Leaf f := by
  obtain ⟨s, h1, rfl⟩ := mem_fs.1 h; exact .pow _ _ h1

theorem fs_zero : fs O 0 = [] := by simp [fs, sorted]
theorem fs_ne {d : Str →₀ ℕ} (h : d ≠ 0) : fs O d ≠ [] := by
  obtain ⟨s, hs⟩ := Finsupp.ne_iff.1 h
  intro e
  have : vp s (d s) ∈ fs O d := mem_fs.2 ⟨s, by simp at hs; omega, rfl⟩
  rw [e] at this; simp at this

theorem exps_apply {l : List (Str × ℕ)} (hn : (l.map Prod.fst).Nodup) {s : Str} {k : ℕ} (h : (s, k) ∈ l) : exps l s = k := by
  induction l with
  | nil => simp at h
  | cons p r ih =>
    simp only [List.map_cons, List.nodup_cons] at hn
    have hx : exps (p :: r) = Finsupp.single p.1 p.2 + exps r := by simp [exps]
    have out : ∀ t, t ∉ r.map Prod.fst → exps r t = 0 := by
      intro t ht
      clear ih hn hx h
      induction r with
      | nil => simp [exps]
      | cons q r ih =>
        simp only [List.map_cons, List.mem_cons, not_or] at ht
        have : exps (q :: r) = Finsupp.single q.1 q.2 + exps r := by simp [exps]
        rw [this, Finsupp.add_apply, ih ht.2, Finsupp.single_eq_of_ne ht.1]
    rw [hx, Finsupp.add_apply]
    rcases List.mem_cons.1 h with rfl | h
    · rw [out _ hn.1]; simp
    · have hne : s ≠ p.1 := fun e => hn.1 (e ▸ List.mem_map.2 ⟨(s, k), h, rfl⟩)
      rw [ih hn.2 h, Finsupp.single_eq_of_ne hne, zero_add]

theorem exps_mem {l : List (Str × ℕ)} {s : Str} (h : exps l s ≠ 0) : ∃ k, (s, k) ∈ l := by
  induction l with
  | nil => simp [exps] at h
  | cons p r ih =>
    have hx : exps (p :: r) = Finsupp.single p.1 p.2 + exps r := by simp [exps]
    rw [hx, Finsupp.add_apply] at h
    by_cases hr : exps r s = 0
    · by_cases e : s = p.1
      · exact ⟨p.2, by simp [e]⟩
      · rw [hr, Finsupp.single_eq_of_ne e] at h; simp at h
    · obtain ⟨k, hk⟩ := ih hr; exact ⟨k, List.mem_cons_of_mem _ hk⟩

theorem vp_inj {s t : Str} {j k : ℕ} (h : vp s j = vp t k) : s = t ∧ j = k := by
  have := congrArg deconPow h
  rw [decon_vp, decon_vp] at this
  simp only [Prod.mk.injEq, sym.injEq, rat.injEq] at this
  exact ⟨this.1, by exact_mod_cast this.2⟩

theorem vps_perm {l : List (Str × ℕ)} (hn : (l.map Prod.fst).Nodup) (h1 : ∀ p ∈ l, 1 ≤ p.2) : (vps l).Perm (fs O (exps l)) := by
  have nd1 : (vps l).Nodup := by
    refine List.Nodup.map_on (fun p hp q hq h => ?_) hn.of_map
    exact Prod.ext (vp_inj h).1 (vp_inj h).2
  have nd2 : (fs O (exps l)).Nodup := by
    refine (sorted_perm _).nodup_iff.2 ?_
    exact List.Nodup.map_on (fun p hp q hq h => (vp_inj h).1) (Finset.nodup_toList _)
  refine (List.perm_ext_iff_of_nodup nd1 nd2).2 fun f => ?_
  rw [mem_fs]
  simp only [vps, List.mem_map]
  constructor
  · rintro ⟨p, hp, rfl⟩
    have := exps_apply hn (s := p.1) (k := p.2) hp
    exact ⟨p.1, by rw [this]; exact h1 p hp, by rw [this]⟩
  · rintro ⟨s, hs, rfl⟩
    obtain ⟨k, hk⟩ := exps_mem (l := l) (s := s) (by omega)
    exact ⟨(s, k), hk, by rw [exps_apply hn hk]⟩

theorem fs_inj {d : Str →₀ ℕ} : ∀ a ∈ fs O d, ∀ b ∈ fs O d, key O a = key O b → a = b := by
  intro a ha b hb h
  obtain ⟨s, h1, rfl⟩ := mem_fs.1 ha
  obtain ⟨t, h2, rfl⟩ := mem_fs.1 hb
  obtain ⟨rfl, h⟩ := key_vp_inj h1 h2 h; rfl

theorem sort_fs (n : Nat) {d : Str →₀ ℕ} {l : List Expr} (hp : l.Perm (fs O d)) : sortTerms (ctors O (n + 2)) l = .ok (fs O d) := by
  refine sort_is (fun a ha => ?_) (fun a ha b hb => fs_inj a (hp.mem_iff.1 ha) b (hp.mem_iff.1 hb)) hp.symm (sorted_le _)
  obtain ⟨s, h1, rfl⟩ := mem_fs.1 (hp.mem_iff.1 ha)
  exact fine_vp n s h1

theorem sort_rat_fs (n : Nat) {d : Str →₀ ℕ} {l : List Expr} (q : ℚ) (hp : l.Perm (rat q :: fs O d)) :
    sortTerms (ctors O (n + 2)) l = .ok (rat q :: fs O d) := by
  have hpos : ∀ f ∈ fs O d, 1 ≤ (key O f).1 := fun f hf => by
    obtain ⟨s, h1, rfl⟩ := mem_fs.1 hf; exact key_vp_pos s h1
  refine sort_is (fun a ha => ?_) (fun a ha b hb h => ?_) hp.symm (List.pairwise_cons.2 ⟨fun f hf => ?_, sorted_le _⟩)
  · rcases List.mem_cons.1 (hp.mem_iff.1 ha) with rfl | ha
    · exact fine_rat _ q
    · obtain ⟨s, h1, rfl⟩ := mem_fs.1 ha
      exact fine_vp n s h1
  · rcases List.mem_cons.1 (hp.mem_iff.1 ha) with rfl | ha <;> rcases List.mem_cons.1 (hp.mem_iff.1 hb) with rfl | hb
    · rfl
    · have := hpos b hb; rw [← h, key_rat] at this; omega
    · have := hpos a ha; rw [h, key_rat] at this; omega
    · exact fs_inj a ha b hb h
  · have := hpos f hf
    exact .inl (by rw [key_rat]; omega)

theorem final_prod {C : Ctors} {s : List Expr} : (∀ c us, s ≠ [c, sum us]) → (match s with
    | [c, sum us] => if beq O c (rat (-1)) then opNeg C (sum us) else return prod s
    | _ => return prod s : R Expr) = .ok (prod s) := by
  intro h
  split
  · exact absurd rfl (h _ _)
  · rfl

/-- A product of numbers and powers of symbols. -/
theorem prod_leaves (n : Nat) {ts : List Expr} (hl : ∀ f ∈ flatPL ts, Leaf f) : (ctors O (n + 3)).prod ts =
    .ok (mono O ((flatPL ts).map lc).prod ((flatPL ts).map lx).sum) := by
  obtain ⟨l, qs, h1, h2, h3, h4, h5, -⟩ := loop_leaves (O := O) (n + 1) _ (flatPL ts) le_rfl hl
  rw [← h2, ← h3]
  show prodCtor O (ctors O (n + 2)) ts = _
  have hperm := vps_perm (O := O) h4 h5
  have hnil : exps l = 0 ↔ vps l = [] := by
    constructor
    · intro h
      rw [h, fs_zero] at hperm
      exact hperm.eq_nil
    · intro h
      have : l = [] := by simpa [vps] using h
      simp [this, exps]
  have hc : combineProd O (ctors O (n + 2)) (flatPL ts) = .ok (if qs.prod = 0 then [rat 0] else if qs.prod = 1 then vps l else vps l ++ [rat qs.prod]) := by
    unfold combineProd
    rw [h1]
    simp only [bind, Except.bind, pure, Except.pure]
    cases qs with
    | nil => simp
    | cons q r =>
      rw [accumulateProd_rat]
      simp only [List.map_cons, List.isEmpty_cons, Bool.false_eq_true, if_false, beq, beq_iff_eq]
      by_cases e0 : (q :: r).prod = 0
      · simp [e0]
      · by_cases e1 : (q :: r).prod = 1
        · simp [e1]
        · simp only [e0, e1, if_false]
  unfold prodCtor
  rw [hc, ok_bind]
  generalize hqd : qs.prod = c at *
  unfold mono
  have hsum : ∀ x us, x ∈ vps l → x ≠ sum us := by
    intro x us hx
    obtain ⟨p, hp, rfl⟩ := List.mem_map.1 hx
    intro h
    have := sum_vp p.1 p.2
    rw [h] at this; simp [isSum] at this
  have hfsum : ∀ x us, x ∈ fs O (exps l) → x ≠ sum us := fun x us hx => hsum x us (hperm.mem_iff.2 hx)
  by_cases c0 : c = 0
  · simp [c0, pure, Except.pure]
  rw [if_neg c0, if_neg c0]
  by_cases hz : exps l = 0
  · rw [if_pos hz, hnil.1 hz]
    by_cases c1 : c = 1
    · simp [c1, pure, Except.pure]
    · simp [c1, pure, Except.pure]
  rw [if_neg hz]
  have hv : vps l ≠ [] := fun h => hz (hnil.2 h)
  by_cases c1 : c = 1
  · rw [if_pos c1, if_pos c1]
    match hvl : vps l, hv with
    | [f], _ =>
      rw [hvl] at hperm
      have := List.singleton_perm.1 hperm
      simp [← this, one, pure, Except.pure]
    | a :: b :: r, _ =>
      rw [hvl] at hperm
      have hs := sort_fs (O := O) n hperm
      dsimp only
      rw [hs, ok_bind]
      refine (final_prod (fun c us h => hfsum (sum us) us (by rw [h]; simp) rfl)).trans ?_
      have hlen := hperm.length_eq
      match hfs : fs O (exps l), hlen with
      | [], hlen => simp at hlen
      | [_], hlen => simp at hlen
      | _ :: _ :: _, _ => rfl
  · rw [if_neg c1, if_neg c1]
    match hvl : vps l, hv with
    | a :: r, _ =>
      rw [hvl] at hperm
      have hp2 : (a :: r ++ [rat c]).Perm (rat c :: fs O (exps l)) :=
        (List.perm_append_singleton _ _).trans (hperm.cons _)
      have hs := sort_rat_fs (O := O) n c hp2
      have hlen := hperm.length_eq
      have : ∀ (X : R Expr), (do
          let s ← (Except.ok (rat c :: fs O (exps l)) : R (List Expr))
          match s with
          | [c, sum us] => if beq O c (rat (-1)) then opNeg (ctors O (n + 2)) (sum us) else return prod s
          | _ => return prod s) = .ok (prod (rat c :: fs O (exps l))) := by
        intro X
        rw [ok_bind]
        exact final_prod (fun c' us h => hfsum (sum us) us (by rw [(List.cons.inj h).2]; simp) rfl)
      cases r with
      | nil => dsimp only [List.cons_append, List.nil_append] at hs ⊢; rw [hs]; exact this (.ok (rat 0))
      | cons b r => dsimp only [List.cons_append] at hs ⊢; rw [hs]; exact this (.ok (rat 0))

/-- The factors of a monomial. -/
theorem flat_mono {c : ℚ} {d : Str →₀ ℕ} (h0 : c ≠ 0) : flatP (mono O c d) = (if c = 1 ∧ d ≠ 0 then [] else [rat c]) ++ fs O d := by
  have hself : flatPL (fs O d) = fs O d := flatPL_id fun f hf => by
    obtain ⟨s, h1, rfl⟩ := mem_fs.1 hf; exact prod_vp s _
  unfold mono
  rw [if_neg h0]
  by_cases hd : d = 0
  · subst hd; simp [fs_zero, flatP]
  rw [if_neg hd]
  by_cases h1 : c = 1
  · simp only [h1, hd, if_true, ne_eq, not_false_iff, and_self, List.nil_append]
    match hf : fs O d with
    | [] => exact absurd hf (fs_ne hd)
    | [f] => rw [hf] at hself; simpa [one, flatPL] using hself
    | a :: b :: r => rw [hf] at hself; simpa [one, flatP] using hself
  · simp only [h1, if_false, false_and, flatP, flatPL, List.cons_append, List.nil_append]
    rw [hself]

theorem mono_leaves {c : ℚ} {d : Str →₀ ℕ} : ∀ f ∈ flatP (mono O c d), Leaf f := by
  by_cases h0 : c = 0
  · intro f hf
    simp [mono, h0, flatP] at hf
    subst hf; exact .num 0
  · rw [flat_mono h0]
    intro f hf
    rcases List.mem_append.1 hf with h | h
    · split at h
      · simp at h
      · simp at h; subst h; exact .num _
    · exact fs_leaf h

theorem fs_lc (d : Str →₀ ℕ) : ((fs O d).map lc).prod = 1 :=
  List.prod_eq_one fun x hx => by
    obtain ⟨f, hf, rfl⟩ := List.mem_map.1 hx
    obtain ⟨s, _, rfl⟩ := mem_fs.1 hf; simp

theorem fs_lx (d : Str →₀ ℕ) : ((fs O d).map lx).sum = d := by
  have : ((fs O d).map lx).Perm ((d.support.toList.map fun s => vp s (d s)).map lx) := (sorted_perm _).map _
  rw [this.sum_eq, List.map_map]
  have : (lx ∘ fun s => vp s (d s)) = fun s => Finsupp.single s (d s) := funext fun s => by simp
  rw [this, Finset.sum_map_toList]
  exact Finsupp.sum_single d

/-- The exponents of `0` do not matter. -/
noncomputable def dg (c : ℚ) (d : Str →₀ ℕ) : Str →₀ ℕ := if c = 0 then 0 else d

theorem mono_lc (c : ℚ) (d : Str →₀ ℕ) : ((flatP (mono O c d)).map lc).prod = c := by
  by_cases h0 : c = 0
  · simp [mono, h0, flatP]
  · rw [flat_mono h0, List.map_append, List.prod_append, fs_lc]
    split
    · rename_i h; simp [h.1]
    · simp

theorem mono_lx (c : ℚ) (d : Str →₀ ℕ) : ((flatP (mono O c d)).map lx).sum = dg c d := by
  by_cases h0 : c = 0
  · simp [mono, h0, flatP, dg]
  · rw [flat_mono h0, List.map_append, List.sum_append, fs_lx, dg, if_neg h0]
    split <;> simp

theorem mono_zero (d : Str →₀ ℕ) : mono O 0 d = rat 0 := by simp [mono]
theorem mono_const (c : ℚ) : mono O c 0 = rat c := by
  by_cases h : c = 0 <;> simp [mono, h]

/-- A list of monomials, given by coefficients and exponents. -/
noncomputable def monos (O : Oracle) (l : List (ℚ × (Str →₀ ℕ))) : List Expr := l.map fun p => mono O p.1 p.2

/-- Products of monomials. -/
theorem prod_monos (n : Nat) (l : List (ℚ × (Str →₀ ℕ))) : (ctors O (n + 3)).prod (monos O l) =
    .ok (mono O (l.map Prod.fst).prod (l.map Prod.snd).sum) := by
  have hleaf : ∀ f ∈ flatPL (monos O l), Leaf f := by
    intro f hf
    rw [flatPL_eq] at hf
    obtain ⟨m, hm, hf⟩ := List.mem_flatMap.1 hf
    obtain ⟨p, _, rfl⟩ := List.mem_map.1 hm
    exact mono_leaves f hf
  rw [prod_leaves n hleaf]
  congr 1
  have e1 : ((flatPL (monos O l)).map lc).prod = (l.map Prod.fst).prod := by
    clear hleaf
    induction l with
    | nil => simp [monos, flatPL]
    | cons p r ih =>
      simp only [monos, List.map_cons, flatPL, List.map_append, List.prod_append, List.prod_cons, mono_lc] at ih ⊢
      rw [ih]
  by_cases hz : (l.map Prod.fst).prod = 0
  · rw [e1, hz, mono_zero, mono_zero]
  · have e2 : ((flatPL (monos O l)).map lx).sum = (l.map Prod.snd).sum := by
      clear hleaf e1
      induction l with
      | nil => simp [monos, flatPL]
      | cons p r ih =>
        simp only [List.map_cons, List.prod_cons, mul_ne_zero_iff] at hz
        simp only [monos, List.map_cons, flatPL, List.map_append, List.sum_append, List.sum_cons, mono_lx] at ih ⊢
        rw [ih hz.2, dg, if_neg hz.1]
    rw [e1, e2]

theorem prod_mono2 (n : Nat) (a b : ℚ) (d e : Str →₀ ℕ) : (ctors O (n + 3)).prod [mono O a d, mono O b e] = .ok (mono O (a * b) (d + e)) := by
  simpa [monos] using prod_monos (O := O) n [(a, d), (b, e)]

theorem vp_mono (s : Str) {k : ℕ} (h : 1 ≤ k) : vp s k = mono O 1 (Finsupp.single s k) := by
  have h2 := prod_leaves (O := O) 0 (ts := [vp s k]) (by
    intro f hf; simp [flatPL, flat_vp] at hf; subst hf; exact .pow s k h)
  have h3 : prodCtor O (ctors O 2) [vp s k] = .ok (vp s k) := by
    simp [prodCtor, flatPL, flat_vp, combineProd, combineProdLoop, acc_vp, bind, Except.bind, pure, Except.pure]
  have h4 : (ctors O 3).prod [vp s k] = prodCtor O (ctors O 2) [vp s k] := rfl
  rw [h4, h3] at h2
  simpa [flatPL, flat_vp] using h2

theorem neg_monoE (n : Nat) (c : ℚ) (d : Str →₀ ℕ) : opNeg (ctors O (n + 3)) (mono O c d) = .ok (mono O (-c) d) := by
  have key : (ctors O (n + 3)).prod [rat (-1), mono O c d] = .ok (mono O (-c) d) := by
    have := prod_mono2 (O := O) n (-1) c 0 d
    rwa [mono_const, neg_one_mul, zero_add] at this
  by_cases h0 : c = 0
  · subst h0; simp [mono, opNeg]
  by_cases hd : d = 0
  · subst hd; simp [mono_const, opNeg]
  rw [← key]
  have hm : mono O c d = if c = 1 then one (fs O d) else prod (rat c :: fs O d) := by rw [mono, if_neg h0, if_neg hd]
  rw [hm]
  by_cases h1 : c = 1
  · rw [if_pos h1]
    match hf : fs O d, fs_ne (O := O) hd with
    | [f], _ =>
      obtain ⟨s, _, rfl⟩ := mem_fs.1 (show f ∈ fs O d by simp [hf])
      rw [one]
      rcases vp_cases s (d s) with ⟨_, h⟩ | ⟨_, h⟩ <;> rw [h] <;> rfl
    | a :: b :: r, _ => rfl
  · rw [if_neg h1]; rfl

end NF
end Simpy
