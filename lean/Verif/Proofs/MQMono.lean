import Verif.Proofs.MQBase

/-! # Lemmas: monomials with rational exponents in several symbols, as the constructors write them -/

namespace Simpy
namespace MQ
open Expr Lin Mono1
open NF (key text_eq lim Le Fine sort_is sorted sorted_perm sorted_le fine_rat key_rat inPow inPow_inj decon_rat ok_bind prod_split
  lc lc_rat like_num final_prod one)

variable {O : Oracle}

/-- Only symbols that can be told apart. -/
def Good (d : Str →₀ ℚ) : Prop := ∀ s, d s ≠ 0 → goodName s = true

/-- The powers of the symbols, in order. -/
noncomputable def fs (O : Oracle) (d : Str →₀ ℚ) : List Expr := sorted O (d.support.toList.map fun s => vp s (d s))

/-- `c * s ** d s * …`. -/
noncomputable def mono (O : Oracle) (c : ℚ) (d : Str →₀ ℚ) : Expr :=
  if d = 0 then rat c else if c = 1 then one (fs O d) else prod (rat c :: fs O d)

theorem mem_fs {d : Str →₀ ℚ} {f : Expr} : f ∈ fs O d ↔ ∃ s, d s ≠ 0 ∧ f = vp s (d s) := by
  unfold fs
  rw [(sorted_perm _).mem_iff]
  simp only [List.mem_map, Finset.mem_toList, Finsupp.mem_support_iff]
  exact ⟨fun ⟨s, h, e⟩ => ⟨s, h, e.symm⟩, fun ⟨s, h, e⟩ => ⟨s, h, e.symm⟩⟩

theorem fs_leaf {d : Str →₀ ℚ} (hd : Good d) {f : Expr} (h : f ∈ fs O d) : Leaf f := by
  obtain ⟨s, h1, rfl⟩ := mem_fs.1 h; exact .pow _ _ (hd s h1) h1

theorem fs_zero : fs O 0 = [] := by simp [fs, sorted]
theorem fs_ne {d : Str →₀ ℚ} (h : d ≠ 0) : fs O d ≠ [] := by
  obtain ⟨s, hs⟩ := Finsupp.ne_iff.1 h
  intro e
  have : vp s (d s) ∈ fs O d := mem_fs.2 ⟨s, by simpa using hs, rfl⟩
  rw [e] at this; simp at this

theorem exps_apply {l : List (Str × ℚ)} (hn : (l.map Prod.fst).Nodup) {s : Str} {k : ℚ} (h : (s, k) ∈ l) : exps l s = k := by
  induction l with
  | nil => simp at h
  | cons p r ih =>
    simp only [List.map_cons, List.nodup_cons] at hn
    have hx : exps (p :: r) = Finsupp.single p.1 p.2 + exps r := by simp [exps]
    have out : ∀ t, t ∉ r.map Prod.fst → exps r t = 0 := by
      intro t ht
      clear ih hn hx h
      induction r with
      | nil => simp [exps]
      | cons q r ih =>
        simp only [List.map_cons, List.mem_cons, not_or] at ht
        have : exps (q :: r) = Finsupp.single q.1 q.2 + exps r := by simp [exps]
        rw [this, Finsupp.add_apply, ih ht.2, Finsupp.single_eq_of_ne ht.1, add_zero]
    rw [hx, Finsupp.add_apply]
    rcases List.mem_cons.1 h with rfl | h
    · rw [out _ hn.1]; simp
    · have hne : s ≠ p.1 := fun e => hn.1 (e ▸ List.mem_map.2 ⟨(s, k), h, rfl⟩)
      rw [ih hn.2 h, Finsupp.single_eq_of_ne hne, zero_add]

theorem exps_mem {l : List (Str × ℚ)} {s : Str} (h : exps l s ≠ 0) : ∃ k, (s, k) ∈ l := by
  induction l with
  | nil => simp [exps] at h
  | cons p r ih =>
    have hx : exps (p :: r) = Finsupp.single p.1 p.2 + exps r := by simp [exps]
    rw [hx, Finsupp.add_apply] at h
    by_cases hr : exps r s = 0
    · by_cases e : s = p.1
      · exact ⟨p.2, by simp [e]⟩
      · rw [hr, Finsupp.single_eq_of_ne e] at h; simp at h
    · obtain ⟨k, hk⟩ := ih hr; exact ⟨k, List.mem_cons_of_mem _ hk⟩

theorem vp_inj {s t : Str} {j k : ℚ} (h : vp s j = vp t k) : s = t ∧ j = k := by
  have := congrArg deconPow h
  rw [decon_vp, decon_vp] at this
  simpa only [Prod.mk.injEq, sym.injEq, rat.injEq] using this

theorem vps_perm {l : List (Str × ℚ)} (hn : (l.map Prod.fst).Nodup) (h1 : ∀ p ∈ l, p.2 ≠ 0) : (vps l).Perm (fs O (exps l)) := by
  have nd1 : (vps l).Nodup := by
    refine List.Nodup.map_on (fun p hp q hq h => ?_) hn.of_map
    exact Prod.ext (vp_inj h).1 (vp_inj h).2
  have nd2 : (fs O (exps l)).Nodup := by
    refine (sorted_perm _).nodup_iff.2 ?_
    exact List.Nodup.map_on (fun p hp q hq h => (vp_inj h).1) (Finset.nodup_toList _)
  refine (List.perm_ext_iff_of_nodup nd1 nd2).2 fun f => ?_
  rw [mem_fs]
  simp only [vps, List.mem_map]
  constructor
  · rintro ⟨p, hp, rfl⟩
    have := exps_apply hn (s := p.1) (k := p.2) hp
    exact ⟨p.1, by rw [this]; exact h1 p hp, by rw [this]⟩
  · rintro ⟨s, hs, rfl⟩
    obtain ⟨k, hk⟩ := exps_mem (l := l) (s := s) hs
    exact ⟨(s, k), hk, by rw [exps_apply hn hk]⟩

theorem fs_inj {d : Str →₀ ℚ} (hd : Good d) : ∀ a ∈ fs O d, ∀ b ∈ fs O d, key O a = key O b → a = b := by
  intro a ha b hb h
  obtain ⟨s, h1, rfl⟩ := mem_fs.1 ha
  obtain ⟨t, h2, rfl⟩ := mem_fs.1 hb
  obtain ⟨rfl, h⟩ := key_vp_inj (hd s h1) (hd t h2) h1 h2 h; rfl

theorem sort_fs (n : Nat) {d : Str →₀ ℚ} (hd : Good d) {l : List Expr} (hp : l.Perm (fs O d)) : sortTerms (ctors O (n + 3)) l = .ok (fs O d) := by
  refine sort_is (fun a ha => ?_) (fun a ha b hb => fs_inj hd a (hp.mem_iff.1 ha) b (hp.mem_iff.1 hb)) hp.symm (sorted_le _)
  obtain ⟨s, h1, rfl⟩ := mem_fs.1 (hp.mem_iff.1 ha)
  exact fine_vp n (hd s h1) h1

theorem sort_rat_fs (n : Nat) {d : Str →₀ ℚ} (hd : Good d) {l : List Expr} (q : ℚ) (hp : l.Perm (rat q :: fs O d)) :
    sortTerms (ctors O (n + 3)) l = .ok (rat q :: fs O d) := by
  have hpos : ∀ f ∈ fs O d, 1 ≤ (key O f).1 := fun f hf => by
    obtain ⟨s, h1, rfl⟩ := mem_fs.1 hf; exact key_vp_pos (hd s h1) h1
  refine sort_is (fun a ha => ?_) (fun a ha b hb h => ?_) hp.symm (List.pairwise_cons.2 ⟨fun f hf => ?_, sorted_le _⟩)
  · rcases List.mem_cons.1 (hp.mem_iff.1 ha) with rfl | ha
    · exact fine_rat _ q
    · obtain ⟨s, h1, rfl⟩ := mem_fs.1 ha
      exact fine_vp n (hd s h1) h1
  · rcases List.mem_cons.1 (hp.mem_iff.1 ha) with rfl | ha <;> rcases List.mem_cons.1 (hp.mem_iff.1 hb) with rfl | hb
    · rfl
    · have := hpos b hb; rw [← h, key_rat] at this; omega
    · have := hpos a ha; rw [h, key_rat] at this; omega
    · exact fs_inj hd a ha b hb h
  · have := hpos f hf
    exact .inl (by rw [key_rat]; omega)

theorem lc_ne {f : Expr} (h : Leaf f) : lc f ≠ 0 := by
  cases h with
  | num q hq => simpa using hq
  | pow s k _ _ => simp

theorem good_add {d e : Str →₀ ℚ} (hd : Good d) (he : Good e) : Good (d + e) := fun s hs => by
  by_cases h : d s = 0
  · exact he s (by simpa [h] using hs)
  · exact hd s h
theorem good_zero : Good 0 := fun s hs => absurd rfl hs
theorem good_single {s : Str} (h : goodName s = true) (k : ℚ) : Good (Finsupp.single s k) := fun t ht => by
  by_cases e : t = s
  · rwa [e]
  · rw [Finsupp.single_eq_of_ne e] at ht; exact absurd rfl ht
theorem good_smul {d : Str →₀ ℚ} (hd : Good d) (k : ℚ) : Good (k • d) := fun s hs => hd s fun h => hs (by simp [h])
theorem good_sum {l : List (Str →₀ ℚ)} (h : ∀ d ∈ l, Good d) : Good l.sum := by
  induction l with
  | nil => exact good_zero
  | cons a r ih => exact good_add (h a (by simp)) (ih fun d hd => h d (by simp [hd]))
theorem lx_good {f : Expr} (h : Leaf f) : Good (lx f) := by
  cases h with
  | num q hq => exact good_zero
  | pow s k hs _ => rw [lx_vp]; exact good_single hs k

theorem lcs_ne {l : List Expr} (h : ∀ f ∈ l, Leaf f) : (l.map lc).prod ≠ 0 := by
  intro h0
  obtain ⟨f, hf, e⟩ := List.mem_map.1 (List.prod_eq_zero_iff.1 h0)
  exact lc_ne (h f hf) e
theorem lxs_good {l : List Expr} (h : ∀ f ∈ l, Leaf f) : Good (l.map lx).sum := good_sum fun d hd => by
  obtain ⟨f, hf, rfl⟩ := List.mem_map.1 hd; exact lx_good (h f hf)

/-- A product of numbers and powers of symbols. -/
theorem prod_leaves (n : Nat) {ts : List Expr} (hl : ∀ f ∈ flatPL ts, Leaf f) : (ctors O (n + 4)).prod ts =
    .ok (mono O ((flatPL ts).map lc).prod ((flatPL ts).map lx).sum) := by
  obtain ⟨l, qs, h1, h2, h3, h4, h5, -⟩ := loop_leaves (O := O) (n + 2) _ (flatPL ts) le_rfl hl
  have c0 : qs.prod ≠ 0 := h2 ▸ lcs_ne hl
  have hg : Good (exps l) := h3 ▸ lxs_good hl
  rw [← h2, ← h3]
  show prodCtor O (ctors O (n + 3)) ts = _
  have hperm := vps_perm (O := O) h4 h5
  have hnil : exps l = 0 ↔ vps l = [] := by
    constructor
    · intro h
      rw [h, fs_zero] at hperm
      exact hperm.eq_nil
    · intro h
      have : l = [] := by simpa [vps] using h
      simp [this, exps]
  have hc : combineProd O (ctors O (n + 3)) (flatPL ts) = .ok (if qs.prod = 0 then [rat 0] else if qs.prod = 1 then vps l else vps l ++ [rat qs.prod]) := by
    unfold combineProd
    rw [h1]
    simp only [bind, Except.bind, pure, Except.pure]
    cases qs with
    | nil => simp
    | cons q r =>
      rw [accumulateProd_rat]
      simp only [List.map_cons, List.isEmpty_cons, Bool.false_eq_true, if_false, beq, beq_iff_eq]
      by_cases e0 : (q :: r).prod = 0
      · simp [e0]
      · by_cases e1 : (q :: r).prod = 1
        · simp [e1]
        · simp only [e0, e1, if_false]
  unfold prodCtor
  rw [hc, ok_bind]
  generalize hqd : qs.prod = c at *
  unfold mono
  have hsum : ∀ x us, x ∈ vps l → x ≠ sum us := by
    intro x us hx
    obtain ⟨p, hp, rfl⟩ := List.mem_map.1 hx
    intro h
    have := sum_vp p.1 p.2
    rw [h] at this; simp [isSum] at this
  have hfsum : ∀ x us, x ∈ fs O (exps l) → x ≠ sum us := fun x us hx => hsum x us (hperm.mem_iff.2 hx)
  rw [if_neg c0]
  by_cases hz : exps l = 0
  · rw [if_pos hz, hnil.1 hz]
    by_cases c1 : c = 1
    · simp [c1, pure, Except.pure]
    · simp [c1, pure, Except.pure]
  rw [if_neg hz]
  have hv : vps l ≠ [] := fun h => hz (hnil.2 h)
  by_cases c1 : c = 1
  · rw [if_pos c1, if_pos c1]
    match hvl : vps l, hv with
    | [f], _ =>
      rw [hvl] at hperm
      have := List.singleton_perm.1 hperm
      simp [← this, one, pure, Except.pure]
    | a :: b :: r, _ =>
      rw [hvl] at hperm
      have hs := sort_fs (O := O) n hg hperm
      dsimp only
      rw [hs, ok_bind]
      refine (final_prod (fun c us h => hfsum (sum us) us (by rw [h]; simp) rfl)).trans ?_
      have hlen := hperm.length_eq
      match hfs : fs O (exps l), hlen with
      | [], hlen => simp at hlen
      | [_], hlen => simp at hlen
      | _ :: _ :: _, _ => rfl
  · rw [if_neg c1, if_neg c1]
    match hvl : vps l, hv with
    | a :: r, _ =>
      rw [hvl] at hperm
      have hp2 : (a :: r ++ [rat c]).Perm (rat c :: fs O (exps l)) :=
        (List.perm_append_singleton _ _).trans (hperm.cons _)
      have hs := sort_rat_fs (O := O) n hg c hp2
      have hlen := hperm.length_eq
      have : ∀ (X : R Expr), (do
          let s ← (Except.ok (rat c :: fs O (exps l)) : R (List Expr))
          match s with
          | [c, sum us] => if beq O c (rat (-1)) then opNeg (ctors O (n + 3)) (sum us) else return prod s
          | _ => return prod s) = .ok (prod (rat c :: fs O (exps l))) := by
        intro X
        rw [ok_bind]
        exact final_prod (fun c' us h => hfsum (sum us) us (by rw [(List.cons.inj h).2]; simp) rfl)
      cases r with
      | nil => dsimp only [List.cons_append, List.nil_append] at hs ⊢; rw [hs]; exact this (.ok (rat 0))
      | cons b r => dsimp only [List.cons_append] at hs ⊢; rw [hs]; exact this (.ok (rat 0))

theorem mono_const (c : ℚ) : mono O c 0 = rat c := by simp [mono]

/-- The factors of a monomial. -/
theorem flat_mono {c : ℚ} {d : Str →₀ ℚ} : flatP (mono O c d) = (if c = 1 ∧ d ≠ 0 then [] else [rat c]) ++ fs O d := by
  have hself : flatPL (fs O d) = fs O d := flatPL_id fun f hf => by
    obtain ⟨s, h1, rfl⟩ := mem_fs.1 hf; exact prod_vp s _
  unfold mono
  by_cases hd : d = 0
  · subst hd; simp [fs_zero, flatP]
  rw [if_neg hd]
  by_cases h1 : c = 1
  · simp only [h1, hd, if_true, ne_eq, not_false_iff, and_self, List.nil_append]
    match hf : fs O d with
    | [] => exact absurd hf (fs_ne hd)
    | [f] => rw [hf] at hself; simpa [one, flatPL] using hself
    | a :: b :: r => rw [hf] at hself; simpa [one, flatP] using hself
  · simp only [h1, if_false, false_and, flatP, flatPL, List.cons_append, List.nil_append]
    rw [hself]

theorem mono_leaves {c : ℚ} (h0 : c ≠ 0) {d : Str →₀ ℚ} (hd : Good d) : ∀ f ∈ flatP (mono O c d), Leaf f := by
  rw [flat_mono]
  intro f hf
  rcases List.mem_append.1 hf with h | h
  · split at h
    · simp at h
    · simp at h; subst h; exact .num _ h0
  · exact fs_leaf hd h

theorem fs_lc (d : Str →₀ ℚ) : ((fs O d).map lc).prod = 1 :=
  List.prod_eq_one fun x hx => by
    obtain ⟨f, hf, rfl⟩ := List.mem_map.1 hx
    obtain ⟨s, _, rfl⟩ := mem_fs.1 hf; simp

theorem fs_lx (d : Str →₀ ℚ) : ((fs O d).map lx).sum = d := by
  have : ((fs O d).map lx).Perm ((d.support.toList.map fun s => vp s (d s)).map lx) := (sorted_perm _).map _
  rw [this.sum_eq, List.map_map]
  have : (lx ∘ fun s => vp s (d s)) = fun s => Finsupp.single s (d s) := funext fun s => by simp
  rw [this, Finset.sum_map_toList]
  exact Finsupp.sum_single d

theorem mono_lc (c : ℚ) (d : Str →₀ ℚ) : ((flatP (mono O c d)).map lc).prod = c := by
  rw [flat_mono, List.map_append, List.prod_append, fs_lc]
  split
  · rename_i h; simp [h.1]
  · simp

theorem mono_lx (c : ℚ) (d : Str →₀ ℚ) : ((flatP (mono O c d)).map lx).sum = d := by
  rw [flat_mono, List.map_append, List.sum_append, fs_lx]
  split <;> simp

/-- A coefficient and exponents. -/
structure Ok1 (p : ℚ × (Str →₀ ℚ)) : Prop where
  ne : p.1 ≠ 0
  good : Good p.2

/-- A list of monomials, given by coefficients and exponents. -/
noncomputable def monos (O : Oracle) (l : List (ℚ × (Str →₀ ℚ))) : List Expr := l.map fun p => mono O p.1 p.2

/-- Products of monomials. -/
theorem prod_monos (n : Nat) {l : List (ℚ × (Str →₀ ℚ))} (h : ∀ p ∈ l, Ok1 p) : (ctors O (n + 4)).prod (monos O l) =
    .ok (mono O (l.map Prod.fst).prod (l.map Prod.snd).sum) := by
  have hleaf : ∀ f ∈ flatPL (monos O l), Leaf f := by
    intro f hf
    rw [flatPL_eq] at hf
    obtain ⟨m, hm, hf⟩ := List.mem_flatMap.1 hf
    obtain ⟨p, hp, rfl⟩ := List.mem_map.1 hm
    exact mono_leaves (h p hp).ne (h p hp).good f hf
  rw [prod_leaves n hleaf]
  have e1 : ((flatPL (monos O l)).map lc).prod = (l.map Prod.fst).prod := by
    clear hleaf h
    induction l with
    | nil => simp [monos, flatPL]
    | cons p r ih =>
      simp only [monos, List.map_cons, flatPL, List.map_append, List.prod_append, List.prod_cons, mono_lc] at ih ⊢
      rw [ih]
  have e2 : ((flatPL (monos O l)).map lx).sum = (l.map Prod.snd).sum := by
    clear hleaf e1 h
    induction l with
    | nil => simp [monos, flatPL]
    | cons p r ih =>
      simp only [monos, List.map_cons, flatPL, List.map_append, List.sum_append, List.sum_cons, mono_lx] at ih ⊢
      rw [ih]
  rw [e1, e2]

theorem prod_mono2 (n : Nat) {a b : ℚ} {d e : Str →₀ ℚ} (ha : a ≠ 0) (hb : b ≠ 0) (hd : Good d) (he : Good e) :
    (ctors O (n + 4)).prod [mono O a d, mono O b e] = .ok (mono O (a * b) (d + e)) := by
  have := prod_monos (O := O) n (l := [(a, d), (b, e)]) (by
    intro p hp
    simp only [List.mem_cons, List.not_mem_nil, or_false] at hp
    rcases hp with rfl | rfl
    · exact ⟨ha, hd⟩
    · exact ⟨hb, he⟩)
  simpa [monos] using this

theorem vp_mono (s : Str) {k : ℚ} (h : k ≠ 0) : vp s k = mono O 1 (Finsupp.single s k) := by
  have h0 : Finsupp.single s k ≠ 0 := by simpa using h
  rw [mono, if_neg h0, if_pos rfl]
  have hp := vps_perm (O := O) (l := [(s, k)]) (by simp) (by simpa using h)
  have he : exps [(s, k)] = Finsupp.single s k := by simp [exps]
  rw [he] at hp
  have := List.singleton_perm.1 hp
  rw [← this]; rfl

/-! ## Powers -/

theorem mono_form {c : ℚ} {d : Str →₀ ℚ} (hd : d ≠ 0) : (∃ s k, k ≠ 0 ∧ c = 1 ∧ mono O c d = vp s k ∧ d = Finsupp.single s k) ∨
    (mono O c d = prod (flatP (mono O c d)) ∧ ((mono O c d).isSubtraction = decide (c < 0))) := by
  have hf := flat_mono (O := O) (c := c) (d := d)
  have hm : mono O c d = if c = 1 then one (fs O d) else prod (rat c :: fs O d) := by rw [mono, if_neg hd]
  by_cases h1 : c = 1
  · rw [if_pos h1] at hm
    match hl : fs O d, fs_ne (O := O) hd with
    | [f], _ =>
      obtain ⟨s, hs, rfl⟩ := mem_fs.1 (show f ∈ fs O d by simp [hl])
      refine .inl ⟨s, d s, hs, h1, by rw [hm, hl]; rfl, ?_⟩
      have := fs_lx (O := O) d
      rw [hl] at this
      simpa using this.symm
    | a :: b :: r, _ =>
      right
      rw [if_pos ⟨h1, hd⟩, List.nil_append] at hf
      rw [hf, hm, hl]
      refine ⟨rfl, ?_⟩
      obtain ⟨s, _, rfl⟩ := mem_fs.1 (show a ∈ fs O d by simp [hl])
      have : ¬ (c < 0) := by rw [h1]; norm_num
      simp only [one, this, decide_false]
      rcases vp_cases s (d s) with ⟨_, h⟩ | ⟨_, h⟩ <;> rw [h] <;> rfl
  · right
    rw [if_neg h1] at hm
    rw [if_neg (by tauto)] at hf
    rw [hf, hm]
    exact ⟨rfl, rfl⟩

theorem neg_monoE (n : Nat) {c : ℚ} (h0 : c ≠ 0) {d : Str →₀ ℚ} (hd : Good d) : opNeg (ctors O (n + 4)) (mono O c d) = .ok (mono O (-c) d) := by
  have key : (ctors O (n + 4)).prod [rat (-1), mono O c d] = .ok (mono O (-c) d) := by
    have := prod_mono2 (O := O) n (a := -1) (b := c) (d := 0) (e := d) (by norm_num) h0 good_zero hd
    rwa [mono_const, neg_one_mul, zero_add] at this
  by_cases d0 : d = 0
  · subst d0; simp [mono_const, opNeg]
  rw [← key]
  rcases mono_form (O := O) (c := c) d0 with ⟨s, k, _, _, h, _⟩ | ⟨h, _⟩
  · rw [h]; rcases vp_cases s k with ⟨_, h⟩ | ⟨_, h⟩ <;> rw [h] <;> rfl
  · rw [h]; rfl

theorem pow_num (n : Nat) {q : ℚ} (hq : q ≠ 0) (k : ℤ) : (ctors O (n + 1)).pow (rat q) (rat k) = .ok (rat (q ^ k)) :=
  rational_power_exact O n q k (.inl hq)

theorem pow_vp (n : Nat) (s : Str) {j : ℚ} (hj : j ≠ 0) (k : ℤ) : (ctors O (n + 2)).pow (vp s j) (rat k) =
    .ok (mono O 1 (Finsupp.single s (j * k))) := by
  by_cases k0 : k = 0
  · subst k0
    rw [Int.cast_zero, mul_zero, Finsupp.single_zero, mono_const]
    simpa using NF.pow_zero' (O := O) (n + 1) (vp s j)
  by_cases k1 : k = 1
  · subst k1
    rw [Int.cast_one, mul_one, ← vp_mono s hj]
    simpa using NF.pow_one' (O := O) (n + 1) (vp s j)
  have hk0 : ¬ ((k : ℚ) = 0) := by exact_mod_cast k0
  have hk1 : ¬ ((k : ℚ) = 1) := by exact_mod_cast k1
  rw [← vp_mono s (mul_ne_zero hj hk0)]
  rcases vp_cases s j with ⟨h1, h⟩ | ⟨h1, h⟩
  · rw [h, h1, one_mul]
    exact pow_var' (n + 1) hk0
  · rw [h]
    show powCtor O (ctors O (n + 1)) (pow (sym s) (rat j)) (rat k) = _
    have hp : (ctors O (n + 1)).pow (sym s) (rat (j * k)) = .ok (vp s (j * k)) := pow_var' n (mul_ne_zero hj hk0)
    have hne : ratEven j = true → ¬ (j = 1 / (k : ℚ)) := by
      intro he h
      simp only [ratEven, Bool.and_eq_true, beq_iff_eq] at he
      have h2 : j * k = 1 := by rw [h]; field_simp
      have h3 : (j.num : ℚ) = j := Rat.coe_int_num_of_den_eq_one he.1
      rw [← h3] at h2
      have h4 : j.num * k = 1 := by exact_mod_cast h2
      have := he.2
      have : (j.num * k) % 2 = 0 := by rw [Int.mul_emod, this]; simp
      rw [h4] at this; norm_num at this
    have hx0 : beq O (rat (k : ℚ)) (rat 0) = false := by simpa [beq] using k0
    have hx1 : beq O (rat (k : ℚ)) (rat 1) = false := by simpa [beq] using k1
    have hb : beq O (pow (sym s) (rat j)) (rat 1) = false := rfl
    have ha : (pow (sym s) (rat j)).isAcc = false := rfl
    unfold powCtor
    simp only [hx0, hx1, hb, ha, Bool.false_and, Bool.false_eq_true, if_false, multiplyExponents]
    have gen : (do let m ← opMul (ctors O (n + 1)) (rat j) (rat k); opPow O (ctors O (n + 1)) (sym s) m) = .ok (vp s (j * k)) := hp
    by_cases he : ratEven j = true
    · rw [if_pos he, if_neg hk0, if_neg (hne he)]; exact gen
    · rw [if_neg he]; exact gen

theorem pow_leaf (n : Nat) {f : Expr} (hf : Leaf f) (k : ℤ) : (ctors O (n + 2)).pow f (rat k) = .ok (mono O (lc f ^ k) ((k : ℚ) • lx f)) := by
  cases hf with
  | num q hq => rw [lc_rat, lx_rat, smul_zero, mono_const]; exact pow_num _ hq k
  | pow s j hs hj => rw [lc_vp, lx_vp, one_zpow, pow_vp n s hj, Finsupp.smul_single, smul_eq_mul, mul_comm]

theorem pow_each (n : Nat) {l : List Expr} (hl : ∀ f ∈ l, Leaf f) (k : ℤ) : powEach (ctors O (n + 2)) (rat k) l =
    .ok (monos O (l.map fun f => (lc f ^ k, (k : ℚ) • lx f))) := by
  unfold powEach
  rw [NF.mapR_ok_of fun f hf => pow_leaf n (hl f hf) k, monos, List.map_map]
  rfl

theorem prod_pow_map (l : List Expr) (k : ℤ) : ((l.map fun f => (lc f ^ k, (k : ℚ) • lx f)).map Prod.fst).prod = (l.map lc).prod ^ k := by
  induction l with
  | nil => simp
  | cons a r ih => simp only [List.map_cons, List.prod_cons, mul_zpow, ih]
theorem sum_smul_map (l : List Expr) (k : ℤ) : ((l.map fun f => (lc f ^ k, (k : ℚ) • lx f)).map Prod.snd).sum = (k : ℚ) • (l.map lx).sum := by
  induction l with
  | nil => simp
  | cons a r ih => simp only [List.map_cons, List.sum_cons, smul_add, ih]

/-- Powers of a product that is not a subtraction. -/
theorem pow_prod_leaves (n : Nat) {l : List Expr} (hl : ∀ f ∈ l, Leaf f) (hs : (prod l).isSubtraction = false) {k : ℤ} (k0 : k ≠ 0) (k1 : k ≠ 1) :
    (ctors O (n + 5)).pow (prod l) (rat k) = .ok (mono O ((l.map lc).prod ^ k) ((k : ℚ) • (l.map lx).sum)) := by
  show powCtor O (ctors O (n + 4)) (prod l) (rat k) = _
  have he := pow_each (O := O) (n + 2) hl k
  have hp := prod_monos (O := O) n (l := l.map fun f => (lc f ^ k, (k : ℚ) • lx f)) (by
    intro p hp
    obtain ⟨f, hf, rfl⟩ := List.mem_map.1 hp
    exact ⟨zpow_ne_zero _ (lc_ne (hl f hf)), good_smul (lx_good (hl f hf)) _⟩)
  rw [prod_pow_map, sum_smul_map] at hp
  have hb : beq O (prod l) (rat 1) = false := rfl
  have hx0 : beq O (rat (k : ℚ)) (rat 0) = false := by simpa [beq] using k0
  have hx1 : beq O (rat (k : ℚ)) (rat 1) = false := by simpa [beq] using k1
  have ha : (prod l).isAcc = false := rfl
  unfold powCtor
  simp only [hx0, hx1, hb, ha, hs, Bool.false_and, Bool.false_eq_true, if_false, Bool.not_false, if_true]
  rw [he, ok_bind]
  exact hp

/-- Powers of monomials. -/
theorem pow_mono (n : Nat) {c : ℚ} (h0 : c ≠ 0) {d : Str →₀ ℚ} (hg : Good d) (k : ℤ) :
    (ctors O (n + 6)).pow (mono O c d) (rat k) = .ok (mono O (c ^ k) ((k : ℚ) • d)) := by
  by_cases k0 : k = 0
  · subst k0
    rw [zpow_zero, Int.cast_zero, zero_smul, mono_const]
    exact NF.pow_zero' (O := O) (n + 5) (mono O c d)
  by_cases k1 : k = 1
  · subst k1
    rw [zpow_one, Int.cast_one, one_smul]
    exact NF.pow_one' (O := O) (n + 5) (mono O c d)
  by_cases hd : d = 0
  · subst hd
    rw [mono_const, pow_num _ h0, smul_zero, mono_const]
  have hpos : ∀ m, ∀ c : ℚ, c ≠ 0 → ¬ c < 0 → (ctors O (m + 5)).pow (mono O c d) (rat k) = .ok (mono O (c ^ k) ((k : ℚ) • d)) := by
    intro m c h0 hc
    rcases mono_form (O := O) (c := c) hd with ⟨s, j, hj, h1, h, hdd⟩ | ⟨h, hs⟩
    · rw [h, h1, pow_vp (m + 3) s hj, one_zpow, hdd, Finsupp.smul_single, smul_eq_mul, mul_comm]
    · have hk := pow_prod_leaves (O := O) m (mono_leaves (O := O) h0 hg) (by rw [← h, hs]; simpa using hc) k0 k1
      rw [← h, mono_lc, mono_lx] at hk
      exact hk
  by_cases hc : c < 0
  · rcases mono_form (O := O) (c := c) hd with ⟨s, j, hj, h1, h, _⟩ | ⟨h, hs⟩
    · rw [h1] at hc; norm_num at hc
    · have hneg := neg_monoE (O := O) (n + 1) h0 hg
      have hp := hpos n (-c) (by simpa using h0) (by linarith)
      rw [decide_eq_true hc] at hs
      generalize hl : flatP (mono O c d) = l at *
      rw [h] at hs hneg ⊢
      show powCtor O (ctors O (n + 5)) (prod l) (rat k) = _
      have hb : beq O (prod l) (rat 1) = false := rfl
      have hx0 : beq O (rat (k : ℚ)) (rat 0) = false := by simpa [beq] using k0
      have hx1 : beq O (rat (k : ℚ)) (rat 1) = false := by simpa [beq] using k1
      have ha : (prod l).isAcc = false := rfl
      unfold powCtor
      simp only [hx0, hx1, hb, ha, hs, Bool.false_and, Bool.false_eq_true, if_false, Bool.not_true, powLog, powTail]
      have hden : ((k : ℚ).den == 1) = true := by simp
      simp only [hden, Bool.and_self, if_true]
      rw [hneg, ok_bind, hp]
      have hnum : (k : ℚ).num = k := Rat.num_intCast _
      rw [hnum]
      rcases Int.even_or_odd k with he | ho
      · rw [if_pos (Int.even_iff.1 he), he.neg_zpow]
      · have hm : ¬ (k % 2 = 0) := by rw [Int.odd_iff.1 ho]; norm_num
        rw [if_neg hm, ok_bind, neg_monoE (n + 1) (zpow_ne_zero _ (by simpa using h0)) (good_smul hg _), ho.neg_zpow, neg_neg]
  · exact NF.lift_pow (Nat.le_succ _) (hpos n c h0 hc)

theorem inv_mono (n : Nat) {c : ℚ} (h0 : c ≠ 0) {d : Str →₀ ℚ} (hg : Good d) :
    (ctors O (n + 6)).pow (mono O c d) (rat (-1)) = .ok (mono O c⁻¹ (-d)) := by
  have := pow_mono (O := O) n h0 hg (-1)
  simpa using this

/-- Quotients of monomials. -/
theorem div_mono (n : Nat) {a b : ℚ} {d e : Str →₀ ℚ} (ha : a ≠ 0) (hb : b ≠ 0) (hd : Good d) (he : Good e) :
    opDiv (ctors O (n + 6)) (mono O a d) (mono O b e) = .ok (mono O (a / b) (d - e)) := by
  have hi := inv_mono (O := O) n hb he
  have hn : Good (-e) := by simpa using good_smul he (-1)
  have hp := prod_mono2 (O := O) (n + 2) ha (inv_ne_zero hb) hd hn
  rw [← div_eq_mul_inv, ← sub_eq_add_neg] at hp
  have gen : (do let i ← (ctors O (n + 6)).pow (mono O b e) (rat (-1)); (ctors O (n + 6)).prod [mono O a d, i]) = .ok (mono O (a / b) (d - e)) := by
    rw [hi, ok_bind]; exact hp
  by_cases h : d = 0 ∧ e = 0
  · rw [h.1, h.2, mono_const, mono_const, sub_zero, mono_const]
    simp [opDiv, hb]
  · rw [← gen]
    have key : ∀ x y : Expr, (∀ p q, ¬ (x = rat p ∧ y = rat q)) → opDiv (ctors O (n + 6)) x y =
        (do let i ← (ctors O (n + 6)).pow y (rat (-1)); (ctors O (n + 6)).prod [x, i]) := by
      intro x y h
      unfold opDiv
      split
      · exact absurd ⟨rfl, rfl⟩ (h _ _)
      · rfl
    have nr : ∀ {c : ℚ} {d : Str →₀ ℚ}, d ≠ 0 → ∀ q, mono O c d ≠ rat q := by
      intro c d hd q e
      have := mono_lx (O := O) c d
      rw [e] at this
      simp [flatP] at this
      exact hd this.symm
    refine key _ _ fun p q ⟨h1, h2⟩ => h ⟨?_, ?_⟩
    · by_contra h'; exact nr h' p h1
    · by_contra h'; exact nr h' q h2

theorem mul_mono (n : Nat) {a b : ℚ} {d e : Str →₀ ℚ} (ha : a ≠ 0) (hb : b ≠ 0) (hd : Good d) (he : Good e) :
    opMul (ctors O (n + 4)) (mono O a d) (mono O b e) = .ok (mono O (a * b) (d + e)) := by
  have hp := prod_mono2 (O := O) n ha hb hd he
  by_cases h : d = 0 ∧ e = 0
  · rw [h.1, h.2, mono_const, mono_const, add_zero, mono_const]
    rfl
  · rw [← hp]
    have key : ∀ x y : Expr, (∀ p q, ¬ (x = rat p ∧ y = rat q)) → opMul (ctors O (n + 4)) x y = (ctors O (n + 4)).prod [x, y] := by
      intro x y h
      unfold opMul
      split
      · exact absurd ⟨rfl, rfl⟩ (h _ _)
      · rfl
    have nr : ∀ {c : ℚ} {d : Str →₀ ℚ}, d ≠ 0 → ∀ q, mono O c d ≠ rat q := by
      intro c d hd q e
      have := mono_lx (O := O) c d
      rw [e] at this
      simp [flatP] at this
      exact hd this.symm
    refine key _ _ fun p q ⟨h1, h2⟩ => h ⟨?_, ?_⟩
    · by_contra h'; exact nr h' p h1
    · by_contra h'; exact nr h' q h2

end MQ
end Simpy
