import Verif.Spec.Heap
import Verif.Proofs.Mono
import Verif.Proofs.Basic

/-! # Lemmas: expressions as objects -/

namespace Simpy
open Expr
namespace Heap

variable {O : Oracle} {h h' h1 h2 : Store} {i j n : Nat} {o : Obj}

/-! ## What an object stands for -/

theorem exprK_stable (ha : Acyclic h) : ∀ (i k k' : Nat), i < k → i < k' → exprK h k i = exprK h k' i
  | i, k + 1, k' + 1, hk, hk' => by
    simp only [exprK]
    match hi : h[i]? with
    | none => rfl
    | some o =>
      have hl := (ha i o hi).2
      dsimp only
      congr 1
      apply List.map_congr_left
      intro j hj
      have := hl j hj
      exact exprK_stable ha j k k' (by omega) (by omega)

theorem lt_of_get (hi : h[i]? = some o) : i < h.length := (List.getElem?_eq_some_iff.1 hi).1

theorem get_of_lt (hi : i < h.length) : ∃ o, h[i]? = some o := ⟨h[i], List.getElem?_eq_getElem hi⟩

theorem exprK_expr (ha : Acyclic h) {k : Nat} (hi : i < h.length) (hk : i < k) : exprK h k i = expr h i :=
  exprK_stable ha i k h.length hk hi

theorem expr_unfold (ha : Acyclic h) (hi : h[i]? = some o) : expr h i = o.head.build (o.kids.map (expr h)) := by
  have hl := lt_of_get hi
  obtain ⟨m, hm⟩ : ∃ m, h.length = m + 1 := ⟨h.length - 1, by omega⟩
  rw [expr, hm]
  simp only [exprK, hi]
  congr 1
  apply List.map_congr_left
  intro j hj
  have := (ha i o hi).2 j hj
  exact exprK_expr ha (by omega) (by omega)

/-- Heads and children. -/
def skel (h : Store) : List (Head × List Nat) := h.map fun o => (o.head, o.kids)

theorem skel_get (hs : skel h' = skel h) (hi : h[i]? = some o) :
    ∃ o', h'[i]? = some o' ∧ o'.head = o.head ∧ o'.kids = o.kids := by
  have e : (skel h')[i]? = (skel h)[i]? := by rw [hs]
  simp only [skel, List.getElem?_map, hi, Option.map_some, Option.map_eq_some_iff] at e
  obtain ⟨o', h1, h2⟩ := e
  exact ⟨o', h1, (Prod.mk.inj h2).1, (Prod.mk.inj h2).2⟩

theorem skel_len (hs : skel h' = skel h) : h'.length = h.length := by
  have := congrArg List.length hs
  simpa [skel] using this

theorem skel_exprK (hs : skel h' = skel h) : ∀ (k i : Nat), exprK h' k i = exprK h k i
  | 0, _ => rfl
  | k + 1, i => by
    simp only [exprK]
    have ih : exprK h' k = exprK h k := funext (skel_exprK hs k)
    match hi : h[i]? with
    | none =>
      have : h'[i]? = none := by
        rw [List.getElem?_eq_none_iff, skel_len hs]; exact List.getElem?_eq_none_iff.1 hi
      rw [this]
    | some o =>
      obtain ⟨o', h1, h2, h3⟩ := skel_get hs hi
      rw [h1]; dsimp only; rw [h2, h3, ih]

theorem skel_expr (hs : skel h' = skel h) (i : Nat) : expr h' i = expr h i := by
  rw [expr, expr, skel_len hs, skel_exprK hs]

theorem skel_acyclic (hs : skel h' = skel h) (ha : Acyclic h) : Acyclic h' := by
  intro i o hi
  obtain ⟨o', h1, h2, h3⟩ := skel_get hs.symm hi
  rw [← h2, ← h3]; exact ha i o' h1

theorem skel_flat (hs : skel h' = skel h) (hf : Flat h) : Flat h' := by
  intro i j o c hi hj hc
  obtain ⟨o', h1, h2, h3⟩ := skel_get hs.symm hi
  obtain ⟨c', h4, h5, h6⟩ := skel_get hs.symm hc
  rw [← h2, ← h5]; exact hf i j o' c' h1 (h3 ▸ hj) h4

theorem skel_modify (f : Obj → Obj) (hf : ∀ o, (f o).head = o.head ∧ (f o).kids = o.kids) : skel (h.modify i f) = skel h := by
  apply List.ext_getElem?
  intro j
  simp only [skel, List.getElem?_map, List.getElem?_modify]
  cases h[j]? with
  | none => rfl
  | some o =>
    by_cases e : i = j
    · simp [e, (hf o).1, (hf o).2]
    · simp [e]

/-! ## Caches -/

/-- The variable of a key. -/
def key (k : Str) : Option Str := if k = [] then none else some k

/-- What is cached in `o` is right for the expression `e`. -/
def CohAt (O : Oracle) (h : Store) (e : Expr) (o : Obj) : Prop :=
  (∀ k a, o.nestings.lookup k = some a → nesting O (key k) e = .ok a) ∧
    (∀ l, o.symbols = some l → l = syms e) ∧ (∀ b, o.expandable = some b → ∃ m, expandableE O m e = .ok b) ∧
    ∀ q p, o.found.lookup q = some p → (∀ j ∈ p.1 ++ p.2, j < h.length) ∧
      ∃ m, found O m q e = .ok (p.1.map (expr h), p.2.map (expr h))

/-- What is cached is right. -/
def Coh (O : Oracle) (h : Store) : Prop := ∀ (i : Nat) (o : Obj), h[i]? = some o → CohAt O h (expr h i) o

theorem coh_modify (hc : Coh O h) (f : Obj → Obj) (hf : ∀ o, (f o).head = o.head ∧ (f o).kids = o.kids)
    (hn : ∀ o, h[i]? = some o → CohAt O h (expr h i) (f o)) : Coh O (h.modify i f) := by
  intro j o hj
  have hs : skel (h.modify i f) = skel h := skel_modify f hf
  suffices hx : CohAt O h (expr h j) o by
    have he : expr (h.modify i f) = expr h := funext (skel_expr hs)
    rw [CohAt, he, skel_len hs]; exact hx
  rw [List.getElem?_modify] at hj
  match hoj : h[j]?, hj with
  | some o', hj =>
    by_cases e : i = j
    · subst e
      simp only [if_true, Option.map_eq_map, Option.map_some, Option.some.injEq] at hj
      rw [← hj]; exact hn o' hoj
    · simp only [e, if_false, Option.map_eq_map, Option.map_some, Option.some.injEq] at hj
      rw [← hj]; exact hc j o' hoj
  | none, hj => simp at hj

/-- The store after a question. -/
def Kept (O : Oracle) (h h' : Store) : Prop := skel h' = skel h ∧ Coh O h'

theorem nestingQ_ok (hc : Coh O h) (i : Nat) (v : Option Str) (hv : ∀ s, v = some s → s ≠ []) :
    Kept O h (nestingQ O h i v).1 ∧ (i < h.length → (nestingQ O h i v).2 = nesting O v (expr h i)) := by
  have hk : key (v.getD []) = v := by
    match v, hv with
    | none, _ => simp [key]
    | some s, hv => simp [key, hv s rfl]
  unfold nestingQ
  match hi : h[i]? with
  | none => exact ⟨⟨rfl, hc⟩, fun hl => absurd hl (by simpa using hi)⟩
  | some o =>
    dsimp only
    have ho := hc i o hi
    match hl : o.nestings.lookup (v.getD []) with
    | some a =>
      refine ⟨⟨rfl, hc⟩, fun _ => ?_⟩
      have := ho.1 _ a hl
      rw [hk] at this
      exact this.symm
    | none =>
      dsimp only
      match hr : nesting O v (expr h i) with
      | .error er => exact ⟨⟨rfl, hc⟩, fun _ => rfl⟩
      | .ok a =>
        refine ⟨⟨skel_modify _ fun _ => ⟨rfl, rfl⟩, coh_modify hc _ (fun _ => ⟨rfl, rfl⟩) ?_⟩, fun _ => rfl⟩
        intro o' ho'
        have hco := hc i o' ho'
        refine ⟨fun k b hkb => ?_, hco.2.1, hco.2.2⟩
        simp only [List.lookup_cons] at hkb
        split at hkb
        · rename_i heq
          have : k = v.getD [] := by simpa using heq
          rw [this, hk, hr]
          exact congrArg _ (Option.some.inj hkb)
        · exact hco.1 k b hkb

/-! ### symbols -/

theorem symsL_map_build (ts : List Expr) : symsL ts = ts.flatMap syms := by
  induction ts with
  | nil => simp [symsL]
  | cons t r ih => simp [symsL, ih]

theorem syms_build {hd : Head} {ts : List Expr} (hf : hd.fits ts.length = true) (hs : ∀ s, hd ≠ .atom (sym s)) :
    syms (hd.build ts) = ts.flatMap syms := by
  cases hd with
  | atom e => cases e <;> simp_all [Head.fits, Head.build, syms]
  | sum => simp [Head.build, syms, symsL_map_build]
  | prod => simp [Head.build, syms, symsL_map_build]
  | pow =>
    match ts, hf with
    | [b, x], _ => simp [Head.build, syms]
  | log =>
    match ts, hf with
    | [b, x], _ => simp [Head.build, syms]
  | trig f =>
    match ts, hf with
    | [b], _ => simp [Head.build, syms]
  | absv =>
    match ts, hf with
    | [b], _ => simp [Head.build, syms]

theorem collect_ok (ha : Acyclic h) {f : Store → Nat → Store × R (List Str)} {k : Nat}
    (hf : ∀ h1 t, skel h1 = skel h → Coh O h1 → Kept O h1 (f h1 t).1 ∧
      (∀ l, (f h1 t).2 = .ok l → l = syms (expr h1 t)) ∧
      (t < h1.length → t < k → (f h1 t).2 = .ok (syms (expr h1 t)))) :
    ∀ (ids : List Nat) (h1 : Store), skel h1 = skel h → Coh O h1 →
      Kept O h1 (collect f h1 ids).1 ∧
      (∀ l, (collect f h1 ids).2 = .ok l → l = (ids.map (expr h1)).flatMap syms) ∧
      ((∀ t ∈ ids, t < h1.length ∧ t < k) → (collect f h1 ids).2 = .ok ((ids.map (expr h1)).flatMap syms))
  | [], h1, hs, hc => by
    simp only [collect]
    exact ⟨⟨rfl, hc⟩, (fun l hl => by cases hl; rfl), fun _ => rfl⟩
  | t :: r, h1, hs, hc => by
    obtain ⟨⟨s2, c2⟩, a2, b2⟩ := hf h1 t hs hc
    simp only [collect]
    match hft : f h1 t, s2, c2, a2, b2 with
    | (h2, .error er), s2, c2, a2, b2 =>
      refine ⟨⟨s2, c2⟩, (fun l hl => by cases hl), fun hall => ?_⟩
      have := b2 (hall t (by simp)).1 (hall t (by simp)).2
      cases this
    | (h2, .ok l2), s2, c2, a2, b2 =>
      dsimp only at s2 c2 a2 b2 ⊢
      obtain ⟨⟨s3, c3⟩, a3, b3⟩ := collect_ok ha hf r h2 (s2.trans hs) c2
      have he : r.map (expr h2) = r.map (expr h1) := List.map_congr_left fun j _ => skel_expr s2 j
      rw [he] at a3 b3
      have hl2 := a2 l2 rfl
      match hcr : collect f h2 r, s3, c3, a3, b3 with
      | (h3, .error er), s3, c3, a3, b3 =>
        refine ⟨⟨s3.trans s2, c3⟩, (fun l hl => by cases hl), fun hall => ?_⟩
        have := b3 fun x hx => by
          rw [skel_len s2]; exact hall x (by simp [hx])
        cases this
      | (h3, .ok l3), s3, c3, a3, b3 =>
        have hl3 := a3 l3 rfl
        refine ⟨⟨s3.trans s2, c3⟩, fun l hl => ?_, fun hall => ?_⟩
        · cases hl
          rw [hl2, hl3]; simp
        · dsimp only
          rw [hl2, hl3]; simp

theorem symbolsQ_ok (ha : Acyclic h) : ∀ (k : Nat) (h1 : Store) (i : Nat), skel h1 = skel h → Coh O h1 →
    Kept O h1 (symbolsQ k h1 i).1 ∧ (∀ l, (symbolsQ k h1 i).2 = .ok l → l = syms (expr h1 i)) ∧
      (i < h1.length → i < k → (symbolsQ k h1 i).2 = .ok (syms (expr h1 i)))
  | 0, h1, i, hs, hc => ⟨⟨rfl, hc⟩, (fun l hl => by cases hl), fun _ hk => by omega⟩
  | k + 1, h1, i, hs, hc => by
    have ha1 := skel_acyclic hs ha
    unfold symbolsQ
    match hi : h1[i]? with
    | none =>
      refine ⟨⟨rfl, hc⟩, (fun l hl => by cases hl), fun hl => ?_⟩
      have := List.getElem?_eq_none_iff.1 hi
      omega
    | some o =>
      have hu := expr_unfold ha1 hi
      have hfit := (ha1 i o hi).1
      dsimp only
      split
      · rename_i s heq
        have he : expr h1 i = sym s := by rw [hu, heq]; rfl
        rw [he]
        exact ⟨⟨rfl, hc⟩, (fun l hl => by cases hl; rfl), fun _ _ => rfl⟩
      · rename_i hne
        split
        · rename_i l hl
          have := (hc i o hi).2.1 l hl
          exact ⟨⟨rfl, hc⟩, (fun l' hl' => by cases hl'; exact this), fun _ _ => by rw [this]⟩
        · obtain ⟨⟨s2, c2⟩, a2, b2⟩ := collect_ok (k := k) ha1 (fun h2 t s c => symbolsQ_ok ha k h2 t (s.trans hs) c) o.kids h1 rfl hc
          have hsy : (o.kids.map (expr h1)).flatMap syms = syms (expr h1 i) := by
            rw [hu, syms_build (by simpa using hfit) hne]
          rw [hsy] at a2 b2
          match hcr : collect (symbolsQ k) h1 o.kids, s2, c2, a2, b2 with
          | (h2, .error er), s2, c2, a2, b2 =>
            refine ⟨⟨s2, c2⟩, (fun l hl => by cases hl), fun hl hk => ?_⟩
            have := b2 fun t ht => by
              have := (ha1 i o hi).2 t ht
              omega
            cases this
          | (h2, .ok l2), s2, c2, a2, b2 =>
            dsimp only at s2 c2 a2 b2 ⊢
            have hl2 := a2 l2 rfl
            refine ⟨⟨Eq.trans (skel_modify _ (by intro _; exact ⟨rfl, rfl⟩)) s2, coh_modify c2 _ (fun _ => ⟨rfl, rfl⟩) fun o' ho' => ?_⟩, ?_, ?_⟩
            · have hco := c2 i o' ho'
              refine ⟨hco.1, fun l hl => ?_, hco.2.2.1, hco.2.2.2⟩
              cases hl
              rw [skel_expr s2]; exact hl2
            · intro l hl; cases hl; exact hl2
            · intro _ _; rw [hl2]

/-! ### expandable -/

theorem expandable_mono {e : Expr} {m m' : Nat} (hm : m ≤ m') : RLe (expandableE O m e) (expandableE O m' e) := by
  induction hm with
  | refl => exact .refl _
  | step _ ih => exact ih.trans (expandableE_le_succ O _ e)

/-- The answer `r` is right for the questions `g m`, of which `g n` has the same recursion limit. -/
def Says {α : Type} (g : Nat → R α) (n : Nat) (r : R α) : Prop := (∀ b, r = .ok b → ∃ m, g m = .ok b) ∧ ∀ b, g n = .ok b → r = .ok b

theorem anyQ_ok {f : Store → Nat → Store × R Bool} {g : Nat → Expr → R Bool} (hg : ∀ m m' e, m ≤ m' → RLe (g m e) (g m' e))
    {ids0 : List Nat}
    (hf : ∀ h1 t, t ∈ ids0 → skel h1 = skel h → Coh O h1 → Kept O h1 (f h1 t).1 ∧ Says (fun m => g m (expr h t)) n (f h1 t).2) :
    ∀ (ids : List Nat) (h1 : Store), (∀ t ∈ ids, t ∈ ids0) → skel h1 = skel h → Coh O h1 →
      Kept O h1 (anyQ f h1 ids).1 ∧ Says (fun m => anyR (g m) (ids.map (expr h))) n (anyQ f h1 ids).2
  | [], h1, _, hs, hc => ⟨⟨rfl, hc⟩, (fun b hb => ⟨0, hb⟩), fun b hb => hb⟩
  | t :: r, h1, hsub, hs, hc => by
    obtain ⟨⟨s2, c2⟩, a2, b2⟩ := hf h1 t (hsub t (by simp)) hs hc
    have hcons : ∀ m b, anyR (g m) ((t :: r).map (expr h)) = .ok b ↔
        (g m (expr h t) = .ok true ∧ b = true) ∨ (g m (expr h t) = .ok false ∧ anyR (g m) (r.map (expr h)) = .ok b) := by
      intro m b
      simp only [List.map_cons, anyR]
      cases g m (expr h t) with
      | error er => constructor
                    · intro hh; cases hh
                    · rintro (⟨hh, _⟩ | ⟨hh, _⟩) <;> cases hh
      | ok c =>
        cases c
        · constructor
          · intro hh; exact Or.inr ⟨rfl, hh⟩
          · rintro (⟨hh, _⟩ | ⟨_, hh⟩)
            · cases hh
            · exact hh
        · constructor
          · intro hh; cases hh; exact Or.inl ⟨rfl, rfl⟩
          · rintro (⟨_, hh⟩ | ⟨hh, _⟩)
            · subst hh; rfl
            · cases hh
    simp only [anyQ]
    match hft : f h1 t, s2, c2, a2, b2 with
    | (h2, .error er), s2, c2, a2, b2 =>
      refine ⟨⟨s2, c2⟩, (fun b hb => by cases hb), fun b hb => ?_⟩
      rcases (hcons n b).1 hb with ⟨hh, _⟩ | ⟨hh, _⟩ <;> · have := b2 _ hh; cases this
    | (h2, .ok true), s2, c2, a2, b2 =>
      refine ⟨⟨s2, c2⟩, (fun b hb => ?_), fun b hb => ?_⟩
      · cases hb
        obtain ⟨m, hm⟩ := a2 true rfl
        exact ⟨m, (hcons m true).2 (Or.inl ⟨hm, rfl⟩)⟩
      · rcases (hcons n b).1 hb with ⟨_, hh⟩ | ⟨hh, _⟩
        · rw [hh]
        · have := b2 _ hh; cases this
    | (h2, .ok false), s2, c2, a2, b2 =>
      obtain ⟨⟨s3, c3⟩, a3, b3⟩ := anyQ_ok hg hf r h2 (fun x hx => hsub x (by simp [hx])) (s2.trans hs) c2
      refine ⟨⟨s3.trans s2, c3⟩, (fun b hb => ?_), fun b hb => ?_⟩
      · obtain ⟨m, hm⟩ := a2 false rfl
        obtain ⟨m', hm'⟩ := a3 b hb
        refine ⟨max m m', (hcons _ b).2 (Or.inr ⟨hg m _ _ (le_max_left _ _) _ hm, ?_⟩)⟩
        exact anyR_le (fun e => hg m' _ e (le_max_right _ _)) _ _ hm'
      · rcases (hcons n b).1 hb with ⟨hh, _⟩ | ⟨_, hh⟩
        · have := b2 _ hh; cases this
        · exact b3 b hh

theorem denHasSum_mono {ts : List Expr} {m m' : Nat} (hm : m ≤ m') : RLe (denHasSum O m ts) (denHasSum O m' ts) := by
  have step : ∀ k, RLe (denHasSum O k ts) (denHasSum O (k + 1) ts) := fun k =>
    .bind (numDen_le (ctors_le_succ O k) ts) fun _ => .refl _
  induction hm with
  | refl => exact .refl _
  | step _ ih => exact ih.trans (step _)

theorem isSumAt_eq (ha : Acyclic h) (hi : i < h.length) : isSumAt h i = (expr h i).isSum := by
  obtain ⟨o, ho⟩ := get_of_lt hi
  have hfit := (ha i o ho).1
  rw [expr_unfold ha ho]
  simp only [isSumAt, ho]
  generalize o.kids.map (expr h) = ts at *
  match hh : o.head with
  | .atom e =>
    rw [hh] at hfit
    cases e <;> simp_all [Head.build, Head.fits, isSum]
  | .sum => rfl
  | .prod => rfl
  | .pow => dsimp only [Head.build]; split <;> simp_all [isSum]
  | .log => dsimp only [Head.build]; split <;> simp_all [isSum]
  | .trig f => dsimp only [Head.build]; split <;> simp_all [isSum]
  | .absv => dsimp only [Head.build]; split <;> simp_all [isSum]

/-- One level of `expandable`. -/
def level (O : Oracle) (hd : Head) (ts : List Expr) (m : Nat) : R Bool :=
  match hd with
  | .prod => do
    let b ← anyR (fun t => if t.isSum then .ok true else expandableE O m t) ts
    if b then return true else denHasSum O m ts
  | .pow => if powerTest ts then .ok true else anyR (expandableE O m) ts
  | _ => anyR (expandableE O m) ts

theorem anyR_one {α : Type} (f : α → R Bool) (t : α) : anyR f [t] = f t := by
  simp only [anyR]
  cases f t with
  | error er => rfl
  | ok b => cases b <;> rfl

theorem anyR_two {α : Type} (f : α → R Bool) (t u : α) : anyR f [t, u] = (do let b ← f t; if b then return true else f u) := by
  simp only [anyR]
  cases f t with
  | error er => rfl
  | ok b =>
    cases b
    · exact anyR_one f u
    · rfl

theorem expandable_build {hd : Head} {ts : List Expr} (hf : hd.fits ts.length = true) (m : Nat) :
    expandableE O (m + 1) (hd.build ts) = level O hd ts m := by
  cases hd with
  | atom e =>
    have : ts = [] := by cases e <;> simp_all [Head.fits]
    subst this
    cases e <;> simp_all [Head.fits, Head.build, expandableE, level, anyR]
  | sum => rfl
  | prod => rfl
  | pow =>
    match ts, hf with
    | [b, x], _ =>
      simp only [Head.build, expandableE, level, powerTest, anyR_two]
  | log =>
    match ts, hf with
    | [b, x], _ => rfl
  | trig f =>
    match ts, hf with
    | [b], _ => simp only [Head.build, expandableE, level, anyR_one]
  | absv =>
    match ts, hf with
    | [b], _ => simp only [Head.build, expandableE, level, anyR_one]

theorem expandableQ_ok (ha : Acyclic h) : ∀ (n : Nat) (h1 : Store) (i : Nat), skel h1 = skel h → Coh O h1 →
    Kept O h1 (expandableQ O n h1 i).1 ∧ (i < h.length → Says (fun m => expandableE O m (expr h i)) n (expandableQ O n h1 i).2) ∧
      (¬ i < h.length → ∀ b, (expandableQ O n h1 i).2 ≠ .ok b)
  | 0, h1, i, hs, hc => ⟨⟨rfl, hc⟩, (fun _ => ⟨(fun b hb => by cases hb), fun b hb => by cases hb⟩), fun _ b hb => by cases hb⟩
  | n + 1, h1, i, hs, hc => by
    have ha1 := skel_acyclic hs ha
    have hlen := skel_len hs
    unfold expandableQ
    match hi : h1[i]? with
    | none =>
      have := List.getElem?_eq_none_iff.1 hi
      exact ⟨⟨rfl, hc⟩, (fun hl => by omega), fun _ b hb => by cases hb⟩
    | some o =>
      have hu := expr_unfold ha1 hi
      have hfit := (ha1 i o hi).1
      have hil := lt_of_get hi
      have hee : expr h1 = expr h := funext (skel_expr hs)
      rw [hee] at hu
      have hlev : ∀ m, expandableE O (m + 1) (expr h i) = level O o.head (o.kids.map (expr h)) m := fun m => by
        rw [hu]; exact expandable_build (by simpa using hfit) m
      have hkl : ∀ t ∈ o.kids, t < h.length := fun t ht => by
        have := (ha1 i o hi).2 t ht
        omega
      dsimp only
      split
      · rename_i b hb
        have hb' := (hc i o hi).2.2.1 b hb
        rw [hee] at hb'
        refine ⟨⟨rfl, hc⟩, (fun _ => ⟨fun b' hb' => ?_, fun b' hb1 => ?_⟩), fun hl => by omega⟩
        · cases hb'; assumption
        · obtain ⟨m, hm⟩ := hb'
          have e1 := expandable_mono (O := O) (le_max_left m (n + 1)) _ hm
          have e2 := expandable_mono (O := O) (le_max_right m (n + 1)) _ hb1
          rw [e1] at e2
          exact e2
      · -- the computation
        have key : ∀ p : Store × R Bool, Kept O h1 p.1 ∧ Says (level O o.head (o.kids.map (expr h))) n p.2 →
            Kept O h1 (match p with
              | (h1, .ok b) => (h1.modify i fun o => { o with expandable := some b }, .ok b)
              | p => p : Store × R Bool).1 ∧
            (i < h.length → Says (fun m => expandableE O m (expr h i)) (n + 1) (match p with
              | (h1, .ok b) => (h1.modify i fun o => { o with expandable := some b }, .ok b)
              | p => p : Store × R Bool).2) ∧
            (¬ i < h.length → ∀ b, (match p with
              | (h1, .ok b) => (h1.modify i fun o => { o with expandable := some b }, .ok b)
              | p => p : Store × R Bool).2 ≠ .ok b) := by
          rintro ⟨h2, r⟩ ⟨⟨s2, c2⟩, a2, b2⟩
          dsimp only at s2 c2 a2 b2
          match r, a2, b2 with
          | .error er, a2, b2 =>
            refine ⟨⟨s2, c2⟩, (fun _ => ⟨(fun b hb => by cases hb), fun b hb => ?_⟩), fun hl => by omega⟩
            dsimp only at hb
            rw [hlev] at hb
            exact b2 b hb
          | .ok b, a2, b2 =>
            obtain ⟨m, hm⟩ := a2 b rfl
            refine ⟨⟨Eq.trans (skel_modify _ (by intro _; exact ⟨rfl, rfl⟩)) s2, coh_modify c2 _ (fun _ => ⟨rfl, rfl⟩) fun o' ho' => ?_⟩,
              (fun _ => ⟨fun b' hb' => ?_, fun b' hb' => ?_⟩), fun hl => by omega⟩
            · have hco := c2 i o' ho'
              refine ⟨hco.1, hco.2.1, fun b' hb' => ?_, hco.2.2.2⟩
              cases hb'
              exact ⟨m + 1, by rw [skel_expr s2, hee, hlev]; exact hm⟩
            · cases hb'
              exact ⟨m + 1, by dsimp only; rw [hlev]; exact hm⟩
            · dsimp only at hb'
              rw [hlev] at hb'
              exact b2 b' hb'
        apply key
        have kids := anyQ_ok (O := O) (h := h) (n := n) (g := expandableE O) (f := expandableQ O n) (ids0 := o.kids)
          (fun m m' e hm => expandable_mono hm)
          (fun h2 t ht s c => by
            have := expandableQ_ok ha n h2 t s c
            exact ⟨this.1, this.2.1 (hkl t ht)⟩) o.kids h1 (fun _ ht => ht) hs hc
        match hh : o.head with
        | .prod =>
          dsimp only
          have kidsP := anyQ_ok (O := O) (h := h) (n := n) (g := fun m t => if t.isSum then .ok true else expandableE O m t)
            (f := fun h t => if isSumAt h t then (h, .ok true) else expandableQ O n h t) (ids0 := o.kids)
            (fun m m' e hm => .ite (.refl _) (expandable_mono hm))
            (fun h2 t ht s c => by
              have e1 : isSumAt h2 t = (expr h t).isSum := by
                rw [isSumAt_eq (skel_acyclic s ha) (by rw [skel_len s]; exact hkl t ht), skel_expr s]
              rw [e1]
              by_cases e2 : (expr h t).isSum = true
              · simp only [e2, if_true]
                exact ⟨⟨rfl, c⟩, (fun b hb => ⟨0, hb⟩), fun b hb => hb⟩
              · simp only [e2, if_false, Bool.false_eq_true]
                have := expandableQ_ok ha n h2 t s c
                exact ⟨this.1, this.2.1 (hkl t ht)⟩) o.kids h1 (fun _ ht => ht) hs hc
          generalize anyQ _ h1 o.kids = p at kidsP
          obtain ⟨h2, r⟩ := p
          obtain ⟨⟨s2, c2⟩, a2, b2⟩ := kidsP
          dsimp only at s2 c2 a2 b2
          match r, a2, b2 with
          | .error er, a2, b2 =>
            refine ⟨⟨s2, c2⟩, (fun b hb => by cases hb), fun b hb => ?_⟩
            simp only [level] at hb
            obtain ⟨b', hb', _⟩ := bind_ok.1 hb
            have := b2 b' hb'
            cases this
          | .ok true, a2, b2 =>
            refine ⟨⟨s2, c2⟩, (fun b hb => ?_), fun b hb => ?_⟩
            · cases hb
              obtain ⟨m, hm⟩ := a2 true rfl
              refine ⟨m, ?_⟩
              simp only [level]
              exact bind_ok.2 ⟨true, hm, rfl⟩
            · simp only [level] at hb
              obtain ⟨b', hb', hb⟩ := bind_ok.1 hb
              cases b2 b' hb'
              exact hb
          | .ok false, a2, b2 =>
            have e2 : o.kids.map (expr h2) = o.kids.map (expr h) :=
              List.map_congr_left fun j _ => by rw [skel_expr s2, hee]
            refine ⟨⟨s2, c2⟩, (fun b hb => ?_), fun b hb => ?_⟩
            · dsimp only at hb
              rw [e2] at hb
              obtain ⟨m, hm⟩ := a2 false rfl
              refine ⟨max m n, ?_⟩
              simp only [level]
              refine bind_ok.2 ⟨false, ?_, ?_⟩
              · exact anyR_le (fun e => .ite (.refl _) (expandable_mono (le_max_left m n))) _ _ hm
              · exact denHasSum_mono (le_max_right m n) _ hb
            · simp only [level] at hb
              obtain ⟨b', hb', hb⟩ := bind_ok.1 hb
              cases b2 b' hb'
              dsimp only
              rw [e2]
              exact hb
        | .pow =>
          dsimp only
          rw [hee]
          by_cases ep : powerTest (o.kids.map (expr h)) = true
          · simp only [ep, if_true]
            exact ⟨⟨rfl, hc⟩, (fun b hb => ⟨0, by simp only [level, ep, if_true]; exact hb⟩), fun b hb => by
              simpa only [level, ep, if_true] using hb⟩
          · simp only [ep, if_false, Bool.false_eq_true]
            refine ⟨kids.1, ?_⟩
            have := kids.2
            simpa only [Says, level, ep, if_false, Bool.false_eq_true] using this
        | .atom e => exact kids
        | .sum => exact kids
        | .log => exact kids
        | .trig f => exact kids
        | .absv => exact kids

/-! ## New objects -/

theorem get_append {o1 : Obj} (hi : (h ++ [o1])[i]? = some o) : h[i]? = some o ∨ (i = h.length ∧ o = o1) := by
  rw [List.getElem?_append] at hi
  split at hi
  · exact Or.inl hi
  · rename_i hl
    have : i = h.length := by
      by_contra hne
      rw [List.getElem?_eq_none (by simp; omega)] at hi
      cases hi
    subst this
    simp at hi
    exact Or.inr ⟨rfl, hi.symm⟩

theorem get_append_old {o1 : Obj} (hi : h[i]? = some o) : (h ++ [o1])[i]? = some o := by
  rw [List.getElem?_append_left (lt_of_get hi)]; exact hi

theorem acyclic_append (ha : Acyclic h) {o1 : Obj} (hf : o1.head.fits o1.kids.length = true) (hk : ∀ j ∈ o1.kids, j < h.length) :
    Acyclic (h ++ [o1]) := by
  intro i o hi
  rcases get_append hi with hi | ⟨rfl, rfl⟩
  · exact ha i o hi
  · exact ⟨hf, hk⟩

theorem exprK_append (ha : Acyclic h) (o1 : Obj) : ∀ (k i : Nat), i < h.length → exprK (h ++ [o1]) k i = exprK h k i
  | 0, _, _ => rfl
  | k + 1, i, hi => by
    obtain ⟨o, ho⟩ := get_of_lt hi
    simp only [exprK, ho, get_append_old ho]
    congr 1
    apply List.map_congr_left
    intro j hj
    have := (ha i o ho).2 j hj
    exact exprK_append ha o1 k j (by omega)

theorem expr_append (ha : Acyclic h) {o1 : Obj} (hi : i < h.length) : expr (h ++ [o1]) i = expr h i := by
  rw [expr, exprK_append ha o1 _ i hi]
  exact exprK_expr ha hi (by simp; omega)

theorem coh_append (ha : Acyclic h) (hc : Coh O h) {hd : Head} {kids : List Nat} : Coh O (h ++ [{ head := hd, kids := kids }]) := by
  intro i o hi
  rcases get_append hi with hi | ⟨rfl, rfl⟩
  · rw [expr_append ha (lt_of_get hi)]
    obtain ⟨a1, a2, a3, a4⟩ := hc i o hi
    refine ⟨a1, a2, a3, fun q p hq => ?_⟩
    obtain ⟨b1, m, b2⟩ := a4 q p hq
    refine ⟨fun j hj => by have := b1 j hj; simp; omega, m, ?_⟩
    rw [b2]
    congr 2 <;> · apply List.map_congr_left; intro j hj; exact (expr_append ha (b1 j (by simp [hj]))).symm
  · exact ⟨fun k a hl => by simp at hl, fun l hl => by simp at hl, fun b hb => by simp at hb, fun q p hq => by simp at hq⟩

theorem flat_append (hfl : Flat h) (ha : Acyclic h) {o1 : Obj} (hk : ∀ j ∈ o1.kids, j < h.length)
    (hn : ∀ j ∈ o1.kids, ∀ c, h[j]? = some c → o1.head.sameAssoc c.head = false) : Flat (h ++ [o1]) := by
  intro i j o c hi hj hc
  rcases get_append hi with hi | ⟨rfl, rfl⟩
  · have := (ha i o hi).2 j hj
    have hl := lt_of_get hi
    rcases get_append hc with hc | ⟨rfl, _⟩
    · exact hfl i j o c hi hj hc
    · omega
  · have := hk j hj
    rcases get_append hc with hc | ⟨rfl, _⟩
    · exact hn j hj c hc
    · omega

/-! ## Flattening flat objects -/

theorem flattenTerms_level {flat : Store → Nat → Store} {c : Head} :
    ∀ {ids : List Nat}, (∀ j ∈ ids, ∃ o, h[j]? = some o ∧ c.sameAssoc o.head = false) → flattenTerms flat c h ids = (h, ids)
  | [], _ => rfl
  | t :: r, hn => by
    obtain ⟨o, ho, hs⟩ := hn t (by simp)
    simp only [flattenTerms, ho, hs, if_false, Bool.false_eq_true]
    rw [flattenTerms_level (ids := r) fun j hj => hn j (by simp [hj])]

theorem modify_same (hi : h[i]? = some o) : (h.modify i fun o' => { o' with kids := o.kids }) = h := by
  apply List.ext_getElem?
  intro j
  rw [List.getElem?_modify]
  by_cases e : i = j
  · subst e; simp [hi]
  · simp [e]

theorem flatten_flat (ha : Acyclic h) (hf : Flat h) (k : Nat) (i : Nat) : flatten k h i = h := by
  cases k with
  | zero => rfl
  | succ k =>
    unfold flatten
    match hi : h[i]? with
    | none => rfl
    | some o =>
      dsimp only
      rw [flattenTerms_level]
      · exact modify_same hi
      · intro j hj
        obtain ⟨c, hc⟩ := get_of_lt (h := h) (i := j) (by have := (ha i o hi).2 j hj; have := lt_of_get hi; omega)
        exact ⟨c, hc, hf i j o c hi hj hc⟩

theorem flattenTerms_flat (ha : Acyclic h) (hf : Flat h) (k : Nat) (c : Head) :
    ∀ ids : List Nat, (flattenTerms (flatten k) c h ids).1 = h
  | [] => rfl
  | t :: r => by
    unfold flattenTerms
    split
    · rfl
    · split
      · dsimp only
        rw [flatten_flat ha hf]
        exact flattenTerms_flat ha hf k c r
      · exact flattenTerms_flat ha hf k c r

/-! ## New objects -/

/-- The store after making new objects: old ones are untouched, new ones have empty caches. -/
structure Ext (h h' : Store) : Prop where
  acyclic : Acyclic h'
  length : h.length ≤ h'.length
  old : ∀ i, i < h.length → h'[i]? = h[i]?
  same : ∀ i, i < h.length → expr h' i = expr h i
  fresh : ∀ (i : Nat) (o : Obj), h.length ≤ i → h'[i]? = some o →
    o.nestings = [] ∧ o.symbols = none ∧ o.expandable = none ∧ o.found = []

theorem Ext.refl (ha : Acyclic h) : Ext h h :=
  ⟨ha, le_rfl, fun _ _ => rfl, fun _ _ => rfl, fun i o hi ho => absurd (lt_of_get ho) (by omega)⟩

theorem Ext.trans (a : Ext h h1) (b : Ext h1 h2) : Ext h h2 := by
  have la := a.length
  refine ⟨b.acyclic, la.trans b.length, fun i hi => (b.old i (by omega)).trans (a.old i hi),
    fun i hi => (b.same i (by omega)).trans (a.same i hi), fun i o hi ho => ?_⟩
  by_cases hl : i < h1.length
  · exact a.fresh i o hi (by rw [← b.old i hl]; exact ho)
  · exact b.fresh i o (by omega) ho

theorem Ext.append (ha : Acyclic h) {hd : Head} {kids : List Nat} (hf : hd.fits kids.length = true) (hk : ∀ j ∈ kids, j < h.length) :
    Ext h (h ++ [{ head := hd, kids := kids }]) := by
  refine ⟨acyclic_append ha hf hk, by simp, fun i hi => by rw [List.getElem?_append_left hi], fun i hi => expr_append ha hi,
    fun i o hi ho => ?_⟩
  rcases get_append ho with ho | ⟨_, rfl⟩
  · exact absurd (lt_of_get ho) (by omega)
  · exact ⟨rfl, rfl, rfl, rfl⟩

theorem Ext.coh (x : Ext h h') (hc : Coh O h) : Coh O h' := by
  intro i o hi
  by_cases hl : i < h.length
  · rw [x.same i hl]
    obtain ⟨a1, a2, a3, a4⟩ := hc i o (by rw [← x.old i hl]; exact hi)
    refine ⟨a1, a2, a3, fun q p hq => ?_⟩
    obtain ⟨b1, m, b2⟩ := a4 q p hq
    refine ⟨fun j hj => lt_of_lt_of_le (b1 j hj) x.length, m, ?_⟩
    rw [b2]
    congr 2 <;> · apply List.map_congr_left; intro j hj; exact (x.same j (b1 j (by simp [hj]))).symm
  · obtain ⟨a1, a2, a3, a4⟩ := x.fresh i o (by omega) hi
    exact ⟨fun k a hk => by simp [a1] at hk, fun l hk => by simp [a2] at hk, fun b hk => by simp [a3] at hk,
      fun q p hk => by simp [a4] at hk⟩

theorem expr_last (ha : Acyclic h) {hd : Head} {kids : List Nat} (hf : hd.fits kids.length = true) (hk : ∀ j ∈ kids, j < h.length) :
    expr (h ++ [{ head := hd, kids := kids }]) h.length = hd.build (kids.map (expr h)) := by
  rw [expr_unfold (acyclic_append ha hf hk) (o := { head := hd, kids := kids }) (by simp)]
  dsimp only
  congr 1
  apply List.map_congr_left
  intro j hj
  exact expr_append ha (hk j hj)

/-- No sum among the summands, no product among the factors. -/
theorem no_sum_flatSum : ∀ (ts : List Expr), ∀ t ∈ flatSum ts, ∀ us, t ≠ Expr.sum us
  | [], t, ht => by simp [flatSum] at ht
  | a :: r, t, ht => by
    have ih := no_sum_flatSum r
    cases a with
    | sum vs =>
      simp only [flatSum, List.mem_append] at ht
      rcases ht with ht | ht
      · exact no_sum_flatSum vs t ht
      · exact ih t ht
    | _ =>
      simp only [flatSum, List.mem_cons] at ht
      rcases ht with rfl | ht
      · intro us; simp [flatE]
      · exact ih t ht

theorem no_prod_flatProd : ∀ (ts : List Expr), ∀ t ∈ flatProd ts, ∀ us, t ≠ Expr.prod us
  | [], t, ht => by simp [flatProd] at ht
  | a :: r, t, ht => by
    have ih := no_prod_flatProd r
    cases a with
    | prod vs =>
      simp only [flatProd, List.mem_append] at ht
      rcases ht with ht | ht
      · exact no_prod_flatProd vs t ht
      · exact ih t ht
    | _ =>
      simp only [flatProd, List.mem_cons] at ht
      rcases ht with rfl | ht
      · intro us; simp [flatE]
      · exact ih t ht

theorem flatSum_plain : ∀ (ts : List Expr), (∀ t ∈ ts, ∀ us, t ≠ Expr.sum us) → flatSum ts = ts.map flatE
  | [], _ => rfl
  | a :: r, h => by
    have ih := flatSum_plain r fun t ht => h t (by simp [ht])
    have ha := h a (by simp)
    cases a <;> simp_all [flatSum]

theorem flatProd_plain : ∀ (ts : List Expr), (∀ t ∈ ts, ∀ us, t ≠ Expr.prod us) → flatProd ts = ts.map flatE
  | [], _ => rfl
  | a :: r, h => by
    have ih := flatProd_plain r fun t ht => h t (by simp [ht])
    have ha := h a (by simp)
    cases a <;> simp_all [flatProd]

theorem map_id_of {ts : List Expr} (hm : ts.map flatE = ts) : ∀ t ∈ ts, flatE t = t := by
  induction ts with
  | nil => simp
  | cons a r ih => simp only [List.map_cons, List.cons.injEq] at hm; simpa [hm.1] using ih hm.2

theorem flat_sum {ts : List Expr} (hf : flatE (Expr.sum ts) = Expr.sum ts) :
    (∀ t ∈ ts, ∀ us, t ≠ Expr.sum us) ∧ ∀ t ∈ ts, flatE t = t := by
  simp only [flatE, Expr.sum.injEq] at hf
  have h1 : ∀ t ∈ ts, ∀ us, t ≠ Expr.sum us := by rw [← hf]; exact no_sum_flatSum ts
  exact ⟨h1, map_id_of (by rw [← flatSum_plain ts h1, hf])⟩

theorem flat_prod {ts : List Expr} (hf : flatE (Expr.prod ts) = Expr.prod ts) :
    (∀ t ∈ ts, ∀ us, t ≠ Expr.prod us) ∧ ∀ t ∈ ts, flatE t = t := by
  simp only [flatE, Expr.prod.injEq] at hf
  have h1 : ∀ t ∈ ts, ∀ us, t ≠ Expr.prod us := by rw [← hf]; exact no_prod_flatProd ts
  exact ⟨h1, map_id_of (by rw [← flatProd_plain ts h1, hf])⟩

/-- What `put` does. -/
structure Put (h : Store) (e : Expr) (p : Store × Nat) : Prop where
  ext : Ext h p.1
  lt : p.2 < p.1.length
  is : expr p.1 p.2 = e
  flat : Flat h → flatE e = e → Flat p.1

structure PutL (h : Store) (es : List Expr) (p : Store × List Nat) : Prop where
  ext : Ext h p.1
  lt : ∀ j ∈ p.2, j < p.1.length
  is : p.2.map (expr p.1) = es
  flat : Flat h → (∀ e ∈ es, flatE e = e) → Flat p.1

theorem Put.node {hs : Store} (x : Ext h hs) {hd : Head} {kids : List Nat} {e : Expr} (hf : hd.fits kids.length = true)
    (hk : ∀ j ∈ kids, j < hs.length) (he : hd.build (kids.map (expr hs)) = e)
    (hfl : Flat h → flatE e = e → Flat hs ∧ ∀ j ∈ kids, ∀ c, hs[j]? = some c → hd.sameAssoc c.head = false) :
    Put h e (hs ++ [{ head := hd, kids := kids }], hs.length) :=
  ⟨x.trans (.append x.acyclic hf hk), by simp, (expr_last x.acyclic hf hk).trans he,
    fun a b => flat_append (hfl a b).1 x.acyclic hk (hfl a b).2⟩

theorem not_same_sum (ha : Acyclic h) {c : Obj} (hj : h[j]? = some c) (hn : ∀ us, expr h j ≠ Expr.sum us) :
    Head.sum.sameAssoc c.head = false := by
  match hc : c.head with
  | .sum => exact absurd (by rw [expr_unfold ha hj, hc]; rfl) (hn (c.kids.map (expr h)))
  | .atom _ | .prod | .pow | .log | .trig _ | .absv => rfl

theorem not_same_prod (ha : Acyclic h) {c : Obj} (hj : h[j]? = some c) (hn : ∀ us, expr h j ≠ Expr.prod us) :
    Head.prod.sameAssoc c.head = false := by
  match hc : c.head with
  | .prod => exact absurd (by rw [expr_unfold ha hj, hc]; rfl) (hn (c.kids.map (expr h)))
  | .atom _ | .sum | .pow | .log | .trig _ | .absv => rfl

mutual
theorem put_ok : ∀ (e : Expr) {h : Store}, Acyclic h → Put h e (put h e)
  | Expr.sum ts, h, ha => by
    have p := putL_ok ts ha
    rw [put]
    refine .node p.ext rfl p.lt (by rw [p.is]; rfl) fun a b => ?_
    obtain ⟨b1, b2⟩ := flat_sum b
    refine ⟨p.flat a b2, fun j hj c hc => not_same_sum p.ext.acyclic hc (b1 _ ?_)⟩
    have := List.mem_map_of_mem (f := expr (putL h ts).1) hj
    rwa [p.is] at this
  | Expr.prod ts, h, ha => by
    have p := putL_ok ts ha
    rw [put]
    refine .node p.ext rfl p.lt (by rw [p.is]; rfl) fun a b => ?_
    obtain ⟨b1, b2⟩ := flat_prod b
    refine ⟨p.flat a b2, fun j hj c hc => not_same_prod p.ext.acyclic hc (b1 _ ?_)⟩
    have := List.mem_map_of_mem (f := expr (putL h ts).1) hj
    rwa [p.is] at this
  | Expr.pow b x, h, ha => by
    have p := put_ok b ha
    have q := put_ok x p.ext.acyclic
    have hlt := lt_of_lt_of_le p.lt q.ext.length
    rw [put]
    refine .node (p.ext.trans q.ext) rfl (by simp [hlt, q.lt]) ?_ fun a c => ?_
    · simp [Head.build, q.is, q.ext.same _ p.lt, p.is]
    · simp only [flatE, Expr.pow.injEq] at c
      exact ⟨q.flat (p.flat a c.1) c.2, fun _ _ _ _ => rfl⟩
  | Expr.log i b, h, ha => by
    have p := put_ok i ha
    have q := put_ok b p.ext.acyclic
    have hlt := lt_of_lt_of_le p.lt q.ext.length
    rw [put]
    refine .node (p.ext.trans q.ext) rfl (by simp [hlt, q.lt]) ?_ fun a c => ?_
    · simp [Head.build, q.is, q.ext.same _ p.lt, p.is]
    · simp only [flatE, Expr.log.injEq] at c
      exact ⟨q.flat (p.flat a c.1) c.2, fun _ _ _ _ => rfl⟩
  | Expr.trig f i, h, ha => by
    have p := put_ok i ha
    rw [put]
    refine .node p.ext rfl (by simp [p.lt]) (by simp [Head.build, p.is]) fun a c => ?_
    simp only [flatE, Expr.trig.injEq, true_and] at c
    exact ⟨p.flat a c, fun _ _ _ _ => rfl⟩
  | Expr.absv i, h, ha => by
    have p := put_ok i ha
    rw [put]
    refine .node p.ext rfl (by simp [p.lt]) (by simp [Head.build, p.is]) fun a c => ?_
    simp only [flatE, Expr.absv.injEq] at c
    exact ⟨p.flat a c, fun _ _ _ _ => rfl⟩
  | Expr.rat _, h, ha | Expr.sym _, h, ha | Expr.any _, h, ha | Expr.pi, h, ha | Expr.euler, h, ha | Expr.flt _, h, ha
  | Expr.inf, h, ha | Expr.neginf, h, ha => by
    simp only [put]
    exact .node (.refl ha) rfl (by simp) rfl fun a _ => ⟨a, fun _ _ _ _ => rfl⟩
theorem putL_ok : ∀ (es : List Expr) {h : Store}, Acyclic h → PutL h es (putL h es)
  | [], h, ha => by
    rw [putL]
    exact ⟨.refl ha, by simp, rfl, fun a _ => a⟩
  | t :: r, h, ha => by
    have p := put_ok t ha
    have q := putL_ok r p.ext.acyclic
    rw [putL]
    refine ⟨p.ext.trans q.ext, ?_, ?_, fun a b => q.flat (p.flat a (b t (by simp))) fun e he => b e (by simp [he])⟩
    · intro j hj
      rcases List.mem_cons.1 hj with rfl | hj
      · exact lt_of_lt_of_le p.lt q.ext.length
      · exact q.lt j hj
    · simp [q.is, q.ext.same _ p.lt, p.is]
end

theorem placeL_ok {olds : List Nat} : ∀ (es : List Expr) {h : Store}, Acyclic h → (∀ j ∈ olds, j < h.length) →
    PutL h es (placeL olds h es)
  | [], h, ha, _ => ⟨.refl ha, by simp [placeL], rfl, fun a _ => a⟩
  | t :: r, h, ha, ho => by
    have p : Put h t (place olds h t) := by
      unfold place
      split
      · rename_i j hj
        have h1 := List.mem_of_find?_eq_some hj
        have h2 := List.find?_some hj
        exact ⟨.refl ha, ho j h1, by simpa using h2, fun a _ => a⟩
      · exact put_ok t ha
    rw [placeL]
    have q := placeL_ok r p.ext.acyclic (olds := olds) fun j hj => lt_of_lt_of_le (ho j hj) p.ext.length
    refine ⟨p.ext.trans q.ext, ?_, ?_, fun a b => q.flat (p.flat a (b t (by simp))) fun e he => b e (by simp [he])⟩
    · intro j hj
      rcases List.mem_cons.1 hj with rfl | hj
      · exact lt_of_lt_of_le p.lt q.ext.length
      · exact q.lt j hj
    · simp [q.is, q.ext.same _ p.lt, p.is]

theorem skel_ext {hs : Store} (hk : skel h' = skel hs) (x : Ext h hs) :
    Acyclic h' ∧ h.length ≤ h'.length ∧ ∀ i, i < h.length → expr h' i = expr h i :=
  ⟨skel_acyclic hk x.acyclic, by rw [skel_len hk]; exact x.length, fun i hi => (skel_expr hk i).trans (x.same i hi)⟩

/-- The three outcomes of a question. -/
theorem askQ_cases (ha : Acyclic h) (n : Nat) (q : Query) (i : Nat) :
    (∃ er, askQ O n h q i = (h, .error er) ∧ (i < h.length → found O n q (expr h i) = .error er)) ∨
    (∃ o p, askQ O n h q i = (h, .ok p) ∧ h[i]? = some o ∧ o.found.lookup q = some p) ∨
    ∃ hs js ks w, Ext h hs ∧ skel (askQ O n h q i).1 = skel hs ∧ (askQ O n h q i).2 = .ok (js, ks) ∧
      (∀ j ∈ js ++ ks, j < hs.length) ∧ i < h.length ∧ found O n q (expr h i) = .ok w ∧ w = (js.map (expr hs), ks.map (expr hs)) ∧
      (Flat h → (∀ e ∈ w.1 ++ w.2, flatE e = e) → Flat hs) ∧
      ((askQ O n h q i).1 = hs ∨ (askQ O n h q i).1 = hs.modify i fun o => { o with found := (q, (js, ks)) :: o.found }) := by
  unfold askQ
  match hi : h[i]? with
  | none => exact .inl ⟨_, rfl, fun hl => absurd hl (by simpa using hi)⟩
  | some o =>
    dsimp only
    match hl : o.found.lookup q with
    | some p => exact .inr (.inl ⟨o, p, rfl, rfl, hl⟩)
    | none =>
      dsimp only
      match hr : found O n q (expr h i) with
      | .error er => exact .inl ⟨er, rfl, fun _ => rfl⟩
      | .ok w =>
        have holds : ∀ j ∈ i :: o.kids, j < h.length := by
          have hlt := lt_of_get hi
          intro j hj
          rcases List.mem_cons.1 hj with rfl | hj
          · exact hlt
          · exact lt_trans ((ha i o hi).2 j hj) hlt
        have a := placeL_ok (olds := i :: o.kids) w.1 ha holds
        have b := placeL_ok (olds := i :: o.kids) w.2 a.ext.acyclic fun j hj => lt_of_lt_of_le (holds j hj) a.ext.length
        dsimp only
        refine .inr (.inr ⟨_, _, _, w, a.ext.trans b.ext, ?_, rfl, ?_, lt_of_get hi, rfl, ?_, fun f g => ?_, ?_⟩)
        · split
          · exact skel_modify _ fun _ => ⟨rfl, rfl⟩
          · rfl
        · intro j hj
          rcases List.mem_append.1 hj with hj | hj
          · exact lt_of_lt_of_le (a.lt j hj) b.ext.length
          · exact b.lt j hj
        · refine Prod.ext ?_ b.is.symm
          dsimp only
          refine a.is.symm.trans ?_
          apply List.map_congr_left
          intro j hj
          exact (b.ext.same j (a.lt j hj)).symm
        · exact b.flat (a.flat f fun e he => g e (by simp [he])) fun e he => g e (by simp [he])
        · split
          · exact .inr rfl
          · exact .inl rfl

/-! ## One event -/

/-- All is in order. -/
structure Good (O : Oracle) (h : Store) : Prop where
  acyclic : Acyclic h
  flat : Flat h
  coh : Coh O h

theorem Good.nil : Good O [] :=
  ⟨fun i o hi => by simp at hi, fun i j o c hi => by simp at hi, fun i o hi => by simp at hi⟩

theorem Good.kept (g : Good O h) (k : Kept O h h') : Good O h' :=
  ⟨skel_acyclic k.1 g.acyclic, skel_flat k.1 g.flat, k.2⟩

theorem Good.new (g : Good O h) {hd : Head} {kids : List Nat} (hf : hd.fits kids.length = true) (hk : ∀ j ∈ kids, j < h.length)
    (hn : ∀ j ∈ kids, ∀ c, h[j]? = some c → hd.sameAssoc c.head = false) : Good O (h ++ [{ head := hd, kids := kids }]) :=
  ⟨acyclic_append g.acyclic hf hk, flat_append g.flat g.acyclic hk hn, coh_append g.acyclic g.coh⟩

theorem found_mono {q : Query} {e : Expr} {m m' : Nat} (hm : m ≤ m') : RLe (found O m q e) (found O m' q e) := by
  induction hm with
  | refl => exact .refl _
  | step _ ih =>
    rename_i k _
    refine ih.trans ?_
    cases q with
    | numDen =>
      simp only [found]
      split
      · exact .bind (numDen_le (ctors_le_succ O k) _) fun _ => .refl _
      · exact .refl _
    | expand =>
      simp only [found]
      exact .bind (expandE_le_succ O k e) fun _ => .refl _
    | _ => exact .refl _

theorem step_good (g : Good O h) (op : Op) (hm : Harmless O h op) (hl : Level O h op) (hv : Named op) :
    Good O (step O h op).1 ∧ Right O h op (step O h op).2 := by
  cases op with
  | new hd kids =>
    simp only [step]
    split
    · rename_i hc
      simp only [Bool.and_eq_true, List.all_eq_true, decide_eq_true_eq] at hc
      exact ⟨g.new hc.1 hc.2 hl, trivial⟩
    · exact ⟨g, trivial⟩
  | operands c ids =>
    simp only [step]
    rw [flattenTerms_flat g.acyclic g.flat]
    exact ⟨g, trivial⟩
  | log i b =>
    simp only [step]
    split
    · rename_i j hj
      rw [hm j hj]
      exact ⟨g, trivial⟩
    · split
      · rename_i hc
        simp only [Bool.and_eq_true, decide_eq_true_eq] at hc
        refine ⟨g.new (by simp [Head.fits]) (by simp [hc]) ?_, trivial⟩
        intro j hj c hcc
        simp [Head.sameAssoc]
      · exact ⟨g, trivial⟩
  | nesting i v =>
    simp only [step]
    have := nestingQ_ok g.coh i v fun s hs => by subst hs; exact hv
    exact ⟨g.kept this.1, this.2⟩
  | symbols n i =>
    simp only [step]
    have := symbolsQ_ok (O := O) g.acyclic n h i rfl g.coh
    exact ⟨g.kept this.1, this.2⟩
  | expandable n i =>
    simp only [step]
    have := expandableQ_ok (O := O) g.acyclic n h i rfl g.coh
    refine ⟨g.kept this.1, fun b hb => ?_, fun hl b hb => (this.2.1 hl).2 b hb⟩
    by_cases hl : i < h.length
    · exact (this.2.1 hl).1 b hb
    · exact absurd hb (this.2.2 hl b)
  | ask n q i =>
    have hst : step O h (.ask n q i) = ((askQ O n h q i).1, .objs (askQ O n h q i).2) := rfl
    rcases askQ_cases (O := O) g.acyclic n q i with ⟨er, he, hx⟩ | ⟨o, p, he, hi, hq⟩ |
      ⟨hs, js, ks, w, x, hk, h2, hlt, hi, hw, hww, hfl, hor⟩
    · simp only [Right, hst, he]
      exact ⟨g, fun p hp => by simp at hp, fun hl w hw => by rw [hx hl] at hw; cases hw⟩
    · simp only [Right, hst, he]
      obtain ⟨_, m, hm⟩ := (g.coh i o hi).2.2.2 q p hq
      refine ⟨g, fun p' hp => ?_, fun _ w hw => ⟨p, rfl, ?_⟩⟩
      · cases hp; exact ⟨m, hm⟩
      · have h1 := found_mono (q := q) (e := expr h i) (le_max_left m n) _ hm
        have h2 := found_mono (q := q) (e := expr h i) (le_max_right m n) _ hw
        rw [h1] at h2
        cases h2; rfl
    · have hf : Flat hs := hfl g.flat (by simpa [Level] using hl w hw)
      have hc := x.coh g.coh
      have hex : expr (askQ O n h q i).1 = expr hs := funext (skel_expr hk)
      simp only [Right, hst]
      refine ⟨⟨skel_acyclic hk x.acyclic, skel_flat hk hf, ?_⟩, ?_, ?_⟩
      · rcases hor with h1 | h1
        · show Coh O (askQ O n h q i).1
          rw [h1]; exact hc
        · show Coh O (askQ O n h q i).1
          rw [h1]
          refine coh_modify hc _ (fun _ => ⟨rfl, rfl⟩) fun o ho => ?_
          obtain ⟨a1, a2, a3, a4⟩ := hc i o ho
          refine ⟨a1, a2, a3, fun q' p hp => ?_⟩
          simp only [List.lookup_cons] at hp
          split at hp
          · rename_i heq
            have hqq : q' = q := by simpa using heq
            cases hp
            rw [hqq, x.same i hi]
            exact ⟨hlt, n, by rw [hw, hww]⟩
          · exact a4 q' p hp
      · intro p hp
        rw [h2] at hp
        cases hp
        exact ⟨n, by rw [hw, hww, hex]⟩
      · intro _ w' hw'
        rw [hw] at hw'
        cases hw'
        exact ⟨_, h2, by rw [hww, hex]⟩

theorem run_good : ∀ (ops : List Op) {h : Store}, Good O h →
    Along O (fun h op => Harmless O h op ∧ Level O h op ∧ Named op) h ops →
    Good O (run O h ops).1 ∧ AllRight O h ops (run O h ops).2
  | [], h, g, _ => ⟨g, trivial⟩
  | op :: ops, h, g, ⟨⟨hm, hl, hv⟩, hr⟩ => by
    have s := step_good g op hm hl hv
    have r := run_good ops s.1 hr
    exact ⟨r.1, s.2, r.2⟩

theorem ask_bound (g : Good O h) {q : Query} {p : List Nat × List Nat} (hp : (askQ O n h q i).2 = .ok p) :
    ∀ j ∈ p.1 ++ p.2, j < (askQ O n h q i).1.length := by
  rcases askQ_cases (O := O) g.acyclic n q i with ⟨er, he, hx⟩ | ⟨o, p', he, hi, hq⟩ | ⟨hs, js, ks, w, x, hk, h2, hlt, _⟩
  · rw [he] at hp; cases hp
  · rw [he] at hp ⊢
    cases hp
    exact ((g.coh i o hi).2.2.2 q p hq).1
  · rw [h2] at hp
    cases hp
    rw [skel_len hk]
    exact hlt

theorem along_append {P : Store → Op → Prop} : ∀ (as bs : List Op) (h : Store),
    Along O P h (as ++ bs) ↔ Along O P h as ∧ Along O P (run O h as).1 bs
  | [], bs, h => by simp [Along, run]
  | a :: as, bs, h => by simp only [List.cons_append, Along, run, along_append as bs, and_assoc]

theorem run_append : ∀ (as bs : List Op) (h : Store), (run O h (as ++ bs)).1 = (run O (run O h as).1 bs).1
  | [], _, _ => rfl
  | _ :: as, bs, _ => run_append as bs _

theorem along_imp {P Q : Store → Op → Prop} (hpq : ∀ h op, P h op → Q h op) : ∀ (as : List Op) (h : Store),
    Along O P h as → Along O Q h as
  | [], _, _ => trivial
  | a :: as, h, ⟨x, y⟩ => ⟨hpq _ _ x, along_imp hpq as _ y⟩

/-! ## Flattening in general -/

/-- The summands of a flat expression. -/
def summands : Expr → List Expr
  | Expr.sum us => us
  | e => [e]

/-- The factors of a flat expression. -/
def factors : Expr → List Expr
  | Expr.prod us => us
  | e => [e]

/-- Children as seen by a parent. -/
def parts (c : Head) (e : Expr) : List Expr :=
  match c with
  | .sum => summands e
  | .prod => factors e
  | _ => [e]

theorem flatSum_eq : ∀ ts : List Expr, flatSum ts = (ts.map flatE).flatMap summands
  | [] => by simp [flatSum]
  | t :: r => by
    have ih := flatSum_eq r
    cases t <;> simp [flatSum, flatE, ih, summands]

theorem flatProd_eq : ∀ ts : List Expr, flatProd ts = (ts.map flatE).flatMap factors
  | [] => by simp [flatProd]
  | t :: r => by
    have ih := flatProd_eq r
    cases t <;> simp [flatProd, flatE, ih, factors]

theorem flatMap_single {α : Type} (l : List α) : l.flatMap (fun e => [e]) = l := by
  induction l with
  | nil => rfl
  | cons a r ih => simp [ih]

/-- A flat expression is made of what its children are when flat. -/
theorem flatE_build {hd : Head} {ts : List Expr} (hf : hd.fits ts.length = true) :
    flatE (hd.build ts) = hd.build ((ts.map flatE).flatMap (parts hd)) := by
  cases hd with
  | atom e => cases e <;> simp_all [Head.fits, Head.build, flatE]
  | sum => simp only [Head.build, flatE, flatSum_eq, parts]; rfl
  | prod => simp only [Head.build, flatE, flatProd_eq, parts]; rfl
  | pow =>
    match ts, hf with
    | [b, x], _ => simp [Head.build, flatE, parts]
  | log =>
    match ts, hf with
    | [b, x], _ => simp [Head.build, flatE, parts]
  | trig f =>
    match ts, hf with
    | [b], _ => simp [Head.build, flatE, parts]
  | absv =>
    match ts, hf with
    | [b], _ => simp [Head.build, flatE, parts]

/-- What an object is when flat. -/
def fl (h : Store) (i : Nat) : Expr := flatE (expr h i)

theorem fl_unfold (ha : Acyclic h) (hi : h[i]? = some o) : fl h i = o.head.build ((o.kids.map (fl h)).flatMap (parts o.head)) := by
  rw [fl, expr_unfold ha hi, flatE_build (by simpa using (ha i o hi).1), List.map_map]
  rfl

theorem parts_same {c d : Head} (hs : c.sameAssoc d = true) (ts : List Expr) : parts c (d.build ts) = ts := by
  cases c <;> cases d <;> simp_all [Head.sameAssoc, parts, Head.build, summands, factors]

theorem sameAssoc_fits {c d : Head} (hs : c.sameAssoc d = true) (k k' : Nat) : c.fits k = true ∧ d.fits k' = true := by
  cases c <;> cases d <;> simp_all [Head.sameAssoc, Head.fits]

theorem sameAssoc_eq {c d : Head} (hs : c.sameAssoc d = true) : c = d := by
  cases c <;> cases d <;> simp_all [Head.sameAssoc]

theorem build_inj {c : Head} (hs : c.sameAssoc c = true) {ts us : List Expr} (he : c.build ts = c.build us) : ts = us := by
  cases c <;> simp_all [Head.sameAssoc, Head.build]

/-- The objects are the same up to flattening. -/
structure Sim (h h' : Store) : Prop where
  acyclic : Acyclic h'
  length : h'.length = h.length
  heads : ∀ (i : Nat) (o : Obj), h[i]? = some o → ∃ o' : Obj, h'[i]? = some o' ∧ o'.head = o.head
  same : ∀ i, i < h.length → fl h' i = fl h i

theorem Sim.refl (ha : Acyclic h) : Sim h h := ⟨ha, rfl, fun _ o ho => ⟨o, ho, rfl⟩, fun _ _ => rfl⟩

theorem Sim.trans (a : Sim h h1) (b : Sim h1 h2) : Sim h h2 :=
  ⟨b.acyclic, b.length.trans a.length, fun i o ho => by
    obtain ⟨o1, h1, e1⟩ := a.heads i o ho
    obtain ⟨o2, h2, e2⟩ := b.heads i o1 h1
    exact ⟨o2, h2, e2.trans e1⟩, fun i hi => (b.same i (by rw [a.length]; exact hi)).trans (a.same i hi)⟩

/-- Replacing the children of a sum or product by a list that is the same when flat. -/
theorem sim_modify (ha : Acyclic h) (hi : h[i]? = some o) {l : List Nat} (hl : ∀ j ∈ l, j < i) (hf : o.head.fits l.length = true)
    (he : (l.map (fl h)).flatMap (parts o.head) = (o.kids.map (fl h)).flatMap (parts o.head)) :
    Sim h (h.modify i fun o => { o with kids := l }) := by
  have get : ∀ j o', (h.modify i fun o => { o with kids := l })[j]? = some o' →
      (j = i ∧ o' = { o with kids := l }) ∨ (j ≠ i ∧ h[j]? = some o') := by
    intro j o' hj
    rw [List.getElem?_modify] at hj
    by_cases e : i = j
    · subst e
      simp only [hi, if_true, Option.map_eq_map, Option.map_some, Option.some.injEq] at hj
      exact Or.inl ⟨rfl, hj.symm⟩
    · simp only [e, if_false] at hj
      refine Or.inr ⟨fun h => e h.symm, ?_⟩
      cases hjj : h[j]? with
      | none => rw [hjj] at hj; cases hj
      | some x => rw [hjj] at hj; exact hj
  have ha' : Acyclic (h.modify i fun o => { o with kids := l }) := by
    intro j o' hj
    rcases get j o' hj with ⟨rfl, rfl⟩ | ⟨_, hj⟩
    · exact ⟨hf, hl⟩
    · exact ha j o' hj
  have hlen : (h.modify i fun o => { o with kids := l }).length = h.length := by simp
  refine ⟨ha', hlen, fun j o1 hj => ?_, fun j => ?_⟩
  · rw [List.getElem?_modify, hj]
    by_cases e : i = j
    · exact ⟨{ o1 with kids := l }, by simp [e], rfl⟩
    · exact ⟨o1, by simp [e], rfl⟩
  · induction j using Nat.strongRecOn with
    | ind j ih =>
      intro hj
      obtain ⟨o', ho'⟩ := get_of_lt (h := h.modify i fun o => { o with kids := l }) (i := j) (by rw [hlen]; exact hj)
      rw [fl_unfold ha' ho']
      rcases get j o' ho' with ⟨rfl, rfl⟩ | ⟨_, hj'⟩
      · dsimp only
        have e1 : l.map (fl (h.modify j fun o => { o with kids := l })) = l.map (fl h) :=
          List.map_congr_left fun t ht => ih t (hl t ht) (by have := hl t ht; omega)
        rw [e1, he, ← fl_unfold ha hi]
      · have e1 : o'.kids.map (fl (h.modify i fun o => { o with kids := l })) = o'.kids.map (fl h) :=
          List.map_congr_left fun t ht => ih t ((ha j o' hj').2 t ht) (by have := (ha j o' hj').2 t ht; omega)
        rw [e1, ← fl_unfold ha hj']

theorem flattenTerms_sim {c : Head} {flat : Store → Nat → Store}
    (hflat : ∀ (h : Store) (t : Nat) (o : Obj), Acyclic h → h[t]? = some o → c.sameAssoc o.head = true → Sim h (flat h t)) :
    ∀ (ids : List Nat) (h : Store), Acyclic h → Sim h (flattenTerms flat c h ids).1 ∧
      ((∀ t ∈ ids, t < h.length) → ∀ B, (∀ t ∈ ids, t < B) → (∀ t ∈ (flattenTerms flat c h ids).2, t < B) ∧
      ((flattenTerms flat c h ids).2.map (fl h)).flatMap (parts c) = (ids.map (fl h)).flatMap (parts c))
  | [], h, ha => ⟨.refl ha, fun _ B _ => ⟨fun t ht => by simp [flattenTerms] at ht, rfl⟩⟩
  | t :: r, h, ha => by
    unfold flattenTerms
    match ht : h[t]? with
    | none =>
      refine ⟨.refl ha, fun hl => ?_⟩
      have := hl t (by simp)
      have := List.getElem?_eq_none_iff.1 ht
      omega
    | some o =>
      dsimp only
      by_cases hs : c.sameAssoc o.head = true
      · simp only [hs, if_true]
        have s1 := hflat h t o ha ht hs
        obtain ⟨s2, k2⟩ := flattenTerms_sim hflat r (flat h t) s1.acyclic
        refine ⟨s1.trans s2, fun hl B hB => ?_⟩
        obtain ⟨b2, e2⟩ := k2 (fun x hx => by rw [s1.length]; exact hl x (by simp [hx])) B (fun x hx => hB x (by simp [hx]))
        obtain ⟨o1, ho1, hd1⟩ := s1.heads t o ht
        have hkl := (s1.acyclic t o1 ho1).2
        have htB := hB t (by simp)
        have htl := hl t (by simp)
        have e3 : ∀ l : List Nat, (∀ x ∈ l, x < h.length) → l.map (fl (flat h t)) = l.map (fl h) :=
          fun l hl => List.map_congr_left fun x hx => s1.same x (hl x hx)
        have hlen2 : ∀ x ∈ (flattenTerms flat c (flat h t) r).2, x < h.length :=
          (k2 (fun x hx => by rw [s1.length]; exact hl x (by simp [hx])) h.length (fun x hx => hl x (by simp [hx]))).1
        rw [e3 _ hlen2, e3 _ fun x hx => hl x (by simp [hx])] at e2
        simp only [ho1, Option.map_some, Option.getD_some]
        refine ⟨fun x hx => ?_, ?_⟩
        · rcases List.mem_append.1 hx with hx | hx
          · have := hkl x hx; omega
          · exact b2 x hx
        · rw [List.map_append, List.flatMap_append, e2, List.map_cons, List.flatMap_cons]
          congr 1
          have e4 := fl_unfold s1.acyclic ho1
          rw [e3 _ fun x hx => by have := hkl x hx; omega, s1.same t htl, hd1] at e4
          rw [e4, ← sameAssoc_eq hs, parts_same (by rw [← sameAssoc_eq hs] at hs; exact hs)]
      · simp only [hs, if_false, Bool.false_eq_true]
        obtain ⟨s2, k2⟩ := flattenTerms_sim hflat r h ha
        refine ⟨s2, fun hl B hB => ?_⟩
        obtain ⟨b2, e2⟩ := k2 (fun x hx => hl x (by simp [hx])) B (fun x hx => hB x (by simp [hx]))
        refine ⟨fun x hx => ?_, ?_⟩
        · rcases List.mem_cons.1 hx with rfl | hx
          · exact hB _ (by simp)
          · exact b2 x hx
        · simp only [List.map_cons, List.flatMap_cons, e2]

theorem flatten_sim : ∀ (k : Nat) (h : Store) (i : Nat) (o : Obj), Acyclic h → h[i]? = some o → Sim h (flatten k h i)
  | 0, h, i, o, ha, _ => .refl ha
  | k + 1, h, i, o, ha, hi => by
    unfold flatten
    rw [hi]
    dsimp only
    have hkl := (ha i o hi).2
    have hil := lt_of_get hi
    by_cases hs : o.head.sameAssoc o.head = true
    · obtain ⟨s, kk⟩ := flattenTerms_sim (c := o.head) (flat := flatten k) (fun h t o ha ht _ => flatten_sim k h t o ha ht) o.kids h ha
      obtain ⟨b, e⟩ := kk (fun t ht => by have := hkl t ht; omega) i hkl
      obtain ⟨o1, ho1, hd1⟩ := s.heads i o hi
      refine s.trans (sim_modify s.acyclic ho1 b ?_ ?_)
      · rw [hd1]; exact (sameAssoc_fits hs _ 0).1
      · have e1 : ∀ l : List Nat, (∀ x ∈ l, x < i) → l.map (fl (flattenTerms (flatten k) o.head h o.kids).1) = l.map (fl h) :=
          fun l hl => List.map_congr_left fun x hx => s.same x (by have := hl x hx; omega)
        have e2 := fl_unfold s.acyclic ho1
        rw [s.same i hil, fl_unfold ha hi, hd1] at e2
        rw [hd1, e1 _ b, e]
        exact build_inj hs e2
    · rw [flattenTerms_level]
      · rw [modify_same hi]; exact .refl ha
      · intro j hj
        obtain ⟨c, hc⟩ := get_of_lt (h := h) (i := j) (by have := hkl j hj; omega)
        refine ⟨c, hc, ?_⟩
        by_contra hne
        have hne : o.head.sameAssoc c.head = true := by simpa using hne
        rw [← sameAssoc_eq hne] at hne
        exact hs hne

/-! ## One event, in general -/

theorem sim_skel (ha : Acyclic h) (hs : skel h' = skel h) : Sim h h' :=
  ⟨skel_acyclic hs ha, skel_len hs, fun i o hi => by
    obtain ⟨o', h1, h2, _⟩ := skel_get hs hi
    exact ⟨o', h1, h2⟩, fun i _ => by rw [fl, fl, skel_expr hs]⟩

theorem nestingQ_skel (v : Option Str) : skel (nestingQ O h i v).1 = skel h := by
  unfold nestingQ
  split
  · rfl
  · split
    · rfl
    · split
      · exact skel_modify _ fun _ => ⟨rfl, rfl⟩
      · rfl

theorem collect_skel {f : Store → Nat → Store × R (List Str)} (hf : ∀ h t, skel (f h t).1 = skel h) :
    ∀ (ids : List Nat) (h : Store), skel (collect f h ids).1 = skel h
  | [], _ => rfl
  | t :: r, h => by
    have h1 := hf h t
    unfold collect
    split
    · rename_i e; rw [e] at h1; exact h1
    · rename_i h2 l e
      rw [e] at h1
      have h3 := collect_skel hf r h2
      split
      · rename_i e; rw [e] at h3; exact h3.trans h1
      · rename_i e; rw [e] at h3; exact h3.trans h1

theorem symbolsQ_skel : ∀ (k : Nat) (h : Store) (i : Nat), skel (symbolsQ k h i).1 = skel h
  | 0, _, _ => rfl
  | k + 1, h, i => by
    unfold symbolsQ
    split
    · rfl
    · split
      · rfl
      · split
        · rfl
        · rename_i o _ _ _ _ _
          have h1 := collect_skel (symbolsQ_skel k) o.kids h
          split
          · rename_i e; rw [e] at h1; exact h1
          · rename_i e
            rw [e] at h1
            exact Eq.trans (skel_modify _ (by intro _; exact ⟨rfl, rfl⟩)) h1

theorem anyQ_skel {f : Store → Nat → Store × R Bool} (hf : ∀ h t, skel (f h t).1 = skel h) :
    ∀ (ids : List Nat) (h : Store), skel (anyQ f h ids).1 = skel h
  | [], _ => rfl
  | t :: r, h => by
    have h1 := hf h t
    unfold anyQ
    split
    · rename_i h2 e
      rw [e] at h1
      exact (anyQ_skel hf r h2).trans h1
    · exact h1

theorem expandableQ_skel : ∀ (n : Nat) (h : Store) (i : Nat), skel (expandableQ O n h i).1 = skel h
  | 0, _, _ => rfl
  | n + 1, h, i => by
    unfold expandableQ
    split
    · rfl
    · rename_i o _
      split
      · rfl
      · have key : ∀ p : Store × R Bool, skel p.1 = skel h →
            skel (match p with
              | (h1, .ok b) => (h1.modify i fun o => { o with expandable := some b }, .ok b)
              | p => p : Store × R Bool).1 = skel h := by
          rintro ⟨h2, r⟩ hs
          match r with
          | .ok b => exact Eq.trans (skel_modify _ (by intro _; exact ⟨rfl, rfl⟩)) hs
          | .error _ => exact hs
        apply key
        have kids := anyQ_skel (f := expandableQ O n) (fun h t => expandableQ_skel n h t) o.kids h
        split
        · have kidsP := anyQ_skel (f := fun h t => if isSumAt h t then (h, .ok true) else expandableQ O n h t)
            (fun h t => by split; rfl; exact expandableQ_skel n h t) o.kids h
          split
          · rename_i e; rw [e] at kidsP; exact kidsP
          · exact kidsP
        · split
          · rfl
          · exact kids
        · exact kids

/-- Nothing but flattening happens to old objects. -/
structure Later (h h' : Store) : Prop where
  acyclic : Acyclic h'
  length : h.length ≤ h'.length
  heads : ∀ (i : Nat) (o : Obj), h[i]? = some o → ∃ o' : Obj, h'[i]? = some o' ∧ o'.head = o.head
  same : ∀ i, i < h.length → fl h' i = fl h i

theorem Sim.later (s : Sim h h') : Later h h' := ⟨s.acyclic, s.length.symm.le, s.heads, s.same⟩

theorem Later.trans (a : Later h h1) (b : Later h1 h2) : Later h h2 :=
  ⟨b.acyclic, a.length.trans b.length, fun i o ho => by
    obtain ⟨o1, h1, e1⟩ := a.heads i o ho
    obtain ⟨o2, h2, e2⟩ := b.heads i o1 h1
    exact ⟨o2, h2, e2.trans e1⟩, fun i hi => (b.same i (by have := a.length; omega)).trans (a.same i hi)⟩

theorem later_append (ha : Acyclic h) {o1 : Obj} (hf : o1.head.fits o1.kids.length = true) (hk : ∀ j ∈ o1.kids, j < h.length) :
    Later h (h ++ [o1]) :=
  ⟨acyclic_append ha hf hk, by simp, fun i o hi => ⟨o, get_append_old hi, rfl⟩, fun i hi => by rw [fl, fl, expr_append ha hi]⟩

theorem step_later (ha : Acyclic h) (op : Op) (hm : Harmless O h op) : Later h (step O h op).1 := by
  cases op with
  | new hd kids =>
    simp only [step]
    split
    · rename_i hc
      simp only [Bool.and_eq_true, List.all_eq_true, decide_eq_true_eq] at hc
      exact later_append ha hc.1 hc.2
    · exact (Sim.refl ha).later
  | operands c ids =>
    exact (flattenTerms_sim (fun h t o ha ht _ => flatten_sim _ h t o ha ht) ids h ha).1.later
  | log i b =>
    simp only [step]
    split
    · rename_i j hj
      rw [hm j hj]
      exact (Sim.refl ha).later
    · split
      · rename_i hc
        simp only [Bool.and_eq_true, decide_eq_true_eq] at hc
        exact later_append ha (by simp [Head.fits]) (by simp [hc])
      · exact (Sim.refl ha).later
  | nesting i v => exact (sim_skel ha (nestingQ_skel v)).later
  | symbols n i => exact (sim_skel ha (symbolsQ_skel n h i)).later
  | expandable n i => exact (sim_skel ha (expandableQ_skel n h i)).later
  | ask n q i =>
    show Later h (askQ O n h q i).1
    rcases askQ_cases (O := O) ha n q i with ⟨er, he, _⟩ | ⟨o, p, he, _, _⟩ | ⟨hs, js, ks, w, x, hk, _, _, _, _, _, _, _⟩
    · rw [he]; exact (Sim.refl ha).later
    · rw [he]; exact (Sim.refl ha).later
    · have hl : Later h hs := ⟨x.acyclic, x.length, fun i o ho => ⟨o, by rw [x.old i (lt_of_get ho)]; exact ho, rfl⟩,
        fun i hi => by rw [fl, fl, x.same i hi]⟩
      exact hl.trans (sim_skel x.acyclic hk).later

theorem run_later : ∀ (ops : List Op) {h : Store}, Acyclic h → Along O (Harmless O) h ops → Later h (run O h ops).1
  | [], _, ha, _ => (Sim.refl ha).later
  | op :: ops, h, ha, ⟨hm, hr⟩ => by
    have s := step_later ha op hm
    exact s.trans (run_later ops s.acyclic hr)

/-- Old objects stay what they are. -/
structure Still (h h' : Store) : Prop where
  acyclic : Acyclic h'
  flat : Flat h'
  length : h.length ≤ h'.length
  same : ∀ i, i < h.length → expr h' i = expr h i

theorem step_still (ha : Acyclic h) (hf : Flat h) (op : Op) (hm : Harmless O h op) (hl : Level O h op) : Still h (step O h op).1 := by
  have self : Still h h := ⟨ha, hf, le_rfl, fun _ _ => rfl⟩
  have app : ∀ {hd : Head} {kids : List Nat}, hd.fits kids.length = true → (∀ j ∈ kids, j < h.length) →
      (∀ j ∈ kids, ∀ c, h[j]? = some c → hd.sameAssoc c.head = false) → Still h (h ++ [{ head := hd, kids := kids }]) :=
    fun h1 h2 h3 => ⟨acyclic_append ha h1 h2, flat_append hf ha h2 h3, by simp, fun i hi => expr_append ha hi⟩
  have sk : ∀ {h'}, skel h' = skel h → Still h h' := fun hs =>
    ⟨skel_acyclic hs ha, skel_flat hs hf, (skel_len hs).symm.le, fun i _ => skel_expr hs i⟩
  cases op with
  | new hd kids =>
    simp only [step]
    split
    · rename_i hc
      simp only [Bool.and_eq_true, List.all_eq_true, decide_eq_true_eq] at hc
      exact app hc.1 hc.2 hl
    · exact self
  | operands c ids =>
    simp only [step]
    rw [flattenTerms_flat ha hf]
    exact self
  | log i b =>
    simp only [step]
    split
    · rename_i j hj
      rw [hm j hj]
      exact self
    · split
      · rename_i hc
        simp only [Bool.and_eq_true, decide_eq_true_eq] at hc
        refine app (by simp [Head.fits]) (by simp [hc]) ?_
        intro j hj c hcc
        simp [Head.sameAssoc]
      · exact self
  | nesting i v => exact sk (nestingQ_skel v)
  | symbols n i => exact sk (symbolsQ_skel n h i)
  | expandable n i => exact sk (expandableQ_skel n h i)
  | ask n q i =>
    show Still h (askQ O n h q i).1
    rcases askQ_cases (O := O) ha n q i with ⟨er, he, _⟩ | ⟨o, p, he, _, _⟩ | ⟨hs, js, ks, w, x, hk, _, _, _, hw, _, hfl, _⟩
    · rw [he]; exact self
    · rw [he]; exact self
    · obtain ⟨a1, a2, a3⟩ := skel_ext hk x
      exact ⟨a1, skel_flat hk (hfl hf (by simpa [Level] using hl w hw)), a2, a3⟩

theorem run_still : ∀ (ops : List Op) {h : Store}, Acyclic h → Flat h → Along O (fun h op => Harmless O h op ∧ Level O h op) h ops →
    Still h (run O h ops).1
  | [], _, ha, hf, _ => ⟨ha, hf, le_rfl, fun _ _ => rfl⟩
  | op :: ops, h, ha, hf, ⟨⟨hm, hl⟩, hr⟩ => by
    have s := step_still ha hf op hm hl
    have r := run_still ops s.acyclic s.flat hr
    exact ⟨r.acyclic, r.flat, s.length.trans r.length, fun i hi => (r.same i (by have := s.length; omega)).trans (s.same i hi)⟩

/-! ## Values -/

mutual
theorem den_flatE (ρ : Str → ℝ) : ∀ e : Expr, den ρ (flatE e) = den ρ e
  | Expr.sum ts => by simp only [flatE, den]; exact den_flatSum ρ ts
  | Expr.prod ts => by simp only [flatE, den]; exact den_flatProd ρ ts
  | Expr.pow b x => by
    have h1 := den_flatE ρ b
    have h2 := den_flatE ρ x
    simp only [flatE, den, h1, h2]
  | Expr.log i b => by
    have h1 := den_flatE ρ i
    have h2 := den_flatE ρ b
    simp only [flatE, den, h1, h2]
  | Expr.trig f i => by
    have h1 := den_flatE ρ i
    simp only [flatE, den, h1]
  | Expr.absv i => by
    have h1 := den_flatE ρ i
    simp only [flatE, den, h1]
  | Expr.rat _ | Expr.flt _ | Expr.euler | Expr.pi | Expr.sym _ | Expr.any _ | Expr.inf | Expr.neginf => rfl
theorem den_flatSum (ρ : Str → ℝ) : ∀ ts : List Expr, denS ρ (flatSum ts) = denS ρ ts
  | [] => rfl
  | t :: r => by
    have ih := den_flatSum ρ r
    have it := den_flatE ρ t
    cases t
    case sum us =>
      simp only [flatE, den] at it
      simp only [flatSum, denS, denS_eq, List.map_append, List.sum_append, den] at *
      rw [it, ih]
    all_goals simp only [flatSum, denS, ih, it]
theorem den_flatProd (ρ : Str → ℝ) : ∀ ts : List Expr, denP ρ (flatProd ts) = denP ρ ts
  | [] => rfl
  | t :: r => by
    have ih := den_flatProd ρ r
    have it := den_flatE ρ t
    cases t
    case prod us =>
      simp only [flatE, den] at it
      simp only [flatProd, denP, denP_eq, List.map_append, List.prod_append, den] at *
      rw [it, ih]
    all_goals simp only [flatProd, denP, ih, it]
end

theorem part_lt (ha : Acyclic h) : ∀ {i j : Nat}, Part h i j → j < i := by
  intro i j hp
  induction hp with
  | kid ho hj => exact (ha _ _ ho).2 _ hj
  | trans _ _ h1 h2 => exact h2.trans h1

end Heap
end Simpy
