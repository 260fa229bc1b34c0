import Verif.Model.Debug
import Verif.Spec.Read
import Verif.Proofs.ReprReads
import Verif.Proofs.NFFactor
import Verif.Proofs.PythSound

/-! # Lemmas: the text of `debug_repr` can be read back -/

namespace Simpy

/-- A name that `debug_repr` does not confuse with anything else. -/
def plainName (s : Str) : Bool := goodName s && !s.contains ','

namespace Dbg
open Expr

/-- A number, pi, e, or a symbol. -/
inductive Atom : Expr → Prop
  | rat (q : ℚ) : Atom (rat q)
  | pi : Atom pi
  | euler : Atom euler
  | sym (s : Str) : plainName s = true → Atom (sym s)

end Dbg
open Expr Dbg

/-- Sums, products and powers of numbers, pi, e, symbols and trigonometric functions of them. -/
inductive DebugPlain : Expr → Prop
  | atom {e : Expr} : Atom e → DebugPlain e
  | fn (f : TrigFn) {e : Expr} : Atom e → DebugPlain (trig f e)
  | sum {ts : List Expr} : (∀ t ∈ ts, DebugPlain t) → DebugPlain (sum ts)
  | prod {ts : List Expr} : (∀ t ∈ ts, DebugPlain t) → DebugPlain (prod ts)
  | pow {b x : Expr} : DebugPlain b → DebugPlain x → DebugPlain (pow b x)

namespace Dbg

def delim (c : Char) : Bool := c = '(' || c = ')' || c = ','

/-- The text up to the first bracket or comma. -/
def word : Expr → Str
  | rat q => ratStr q
  | pi => ['p', 'i']
  | euler => ['e']
  | sym s => s
  | trig f _ => f.label
  | sum _ => ['S', 'u', 'm']
  | prod _ => ['P', 'r', 'o', 'd']
  | pow _ _ => ['P', 'o', 'w', 'e', 'r']
  | _ => []

/-- The arguments. -/
def args : Expr → List Expr
  | trig _ i => [i]
  | sum ts => ts
  | prod ts => ts
  | pow b x => [b, x]
  | _ => []

def composite : Expr → Bool
  | trig _ _ | sum _ | prod _ | pow _ _ => true
  | _ => false

variable {O : Oracle}

/-- `s` is the text of `e`. -/
inductive Text : Expr → Str → Prop
  | atom {e : Expr} : Atom e → Text e (word e)
  | node {e : Expr} {ls : List Str} : composite e = true → List.Forall₂ Text (args e) ls → Text e (word e ++ '(' :: joinStr commaSep ls ++ [')'])

theorem atom_repr {e : Expr} (h : Atom e) (n : Nat) : (ctors O (n + 1)).repr e = .ok (word e) ∧ debugRepr O (n + 1) e = .ok (word e) := by
  cases h <;> exact ⟨rfl, rfl⟩

theorem ratStr_cons (q : ℚ) : ∃ c r, ratStr q = c :: r ∧ (c = '-' ∨ c.isDigit = true) ∧ ∀ d ∈ ratStr q, d = '-' ∨ d = '/' ∨ d.isDigit = true := by
  have nat : ∀ n : ℕ, ∃ c r, Nat.toDigits 10 n = c :: r ∧ c.isDigit = true ∧ ∀ d ∈ Nat.toDigits 10 n, d.isDigit = true := by
    intro n
    have hd : ∀ c ∈ Nat.toDigits 10 n, c.isDigit = true := fun c hc => Nat.isDigit_of_mem_toDigits (by decide) (by decide) hc
    obtain ⟨c, r, hcr⟩ := List.exists_cons_of_ne_nil (Nat.toDigits_ne_nil (n := n) (b := 10))
    exact ⟨c, r, hcr, hd c (by rw [hcr]; simp), hd⟩
  have int : ∀ z : ℤ, ∃ c r, intStr z = c :: r ∧ (c = '-' ∨ c.isDigit = true) ∧ ∀ d ∈ intStr z, d = '-' ∨ d = '/' ∨ d.isDigit = true := by
    intro z
    rcases lt_or_ge z 0 with h | h
    · rw [intStr_neg h]
      obtain ⟨c, r, _, _, h3⟩ := nat z.natAbs
      exact ⟨_, _, rfl, .inl rfl, fun d hd => by
        rcases List.mem_cons.1 hd with h | h
        · exact .inl h
        · exact .inr (.inr (h3 d h))⟩
    · obtain ⟨m, rfl⟩ := Int.eq_ofNat_of_zero_le h
      rw [intStr_nat]
      obtain ⟨c, r, h1, h2, h3⟩ := nat m
      exact ⟨c, r, h1, .inr h2, fun d hd => .inr (.inr (h3 d hd))⟩
  unfold ratStr
  split_ifs
  · exact int q.num
  · obtain ⟨c, r, h1, h2, h3⟩ := int q.num
    obtain ⟨_, _, _, _, h4⟩ := int q.den
    refine ⟨c, r ++ '/' :: intStr q.den, by rw [h1]; rfl, h2, fun d hd => ?_⟩
    rcases List.mem_append.1 hd with h | h
    · exact h3 d h
    · rcases List.mem_cons.1 h with h | h
      · exact .inr (.inl h)
      · exact h4 d h

theorem intStr_inj {a b : ℤ} (h : intStr a = intStr b) : a = b := by
  have nat : ∀ {m n : ℕ}, Nat.toDigits 10 m = Nat.toDigits 10 n → m = n := by
    intro m n h
    have := congrArg (fun l => Nat.ofDigitChars 10 l 0) h
    simpa [Nat.ofDigitChars_ten_toDigits] using this
  have digit : ∀ {n : ℕ} {r : Str}, Nat.toDigits 10 n ≠ '-' :: r := by
    intro n r h
    have : '-'.isDigit = true := Nat.isDigit_of_mem_toDigits (b := 10) (n := n) (by decide) (by decide) (by rw [h]; simp)
    revert this; decide
  rcases lt_or_ge a 0 with ha | ha <;> rcases lt_or_ge b 0 with hb | hb
  · rw [intStr_neg ha, intStr_neg hb] at h
    have := nat (List.cons.inj h).2
    omega
  · obtain ⟨m, rfl⟩ := Int.eq_ofNat_of_zero_le hb
    rw [intStr_neg ha, intStr_nat] at h
    exact absurd h.symm digit
  · obtain ⟨m, rfl⟩ := Int.eq_ofNat_of_zero_le ha
    rw [intStr_neg hb, intStr_nat] at h
    exact absurd h digit
  · obtain ⟨m, rfl⟩ := Int.eq_ofNat_of_zero_le ha
    obtain ⟨n, rfl⟩ := Int.eq_ofNat_of_zero_le hb
    rw [intStr_nat, intStr_nat] at h
    rw [nat h]

/-- Two texts that are each cut at the first character of a kind. -/
theorem split_at {p : Char → Bool} : ∀ {u w r s : Str}, (∀ c ∈ u, p c = false) → (∀ c ∈ w, p c = false) →
    (∀ c t, r = c :: t → p c = true) → (∀ c t, s = c :: t → p c = true) → u ++ r = w ++ s → u = w ∧ r = s
  | [], [], _, _, _, _, _, _, h => ⟨rfl, h⟩
  | [], c :: w, r, s, _, hw, hr, _, h => by
    have h1 := hr c (w ++ s) (by simpa using h)
    rw [hw c (by simp)] at h1; cases h1
  | c :: u, [], r, s, hu, _, _, hs, h => by
    have h1 := hs c (u ++ r) (by simpa using h.symm)
    rw [hu c (by simp)] at h1; cases h1
  | c :: u, d :: w, r, s, hu, hw, hr, hs, h => by
    simp only [List.cons_append, List.cons.injEq] at h
    obtain ⟨h1, h2⟩ := split_at (fun x hx => hu x (by simp [hx])) (fun x hx => hw x (by simp [hx])) hr hs h.2
    exact ⟨by rw [h.1, h1], h2⟩

theorem ratStr_inj {p q : ℚ} (h : ratStr p = ratStr q) : p = q := by
  have noslash : ∀ z : ℤ, ∀ c ∈ intStr z, (c == '/') = false := by
    intro z c hc
    have dig : ∀ n : ℕ, ∀ c ∈ Nat.toDigits 10 n, (c == '/') = false := by
      intro n c hc
      have : c.isDigit = true := Nat.isDigit_of_mem_toDigits (by decide) (by decide) hc
      rw [beq_eq_false_iff_ne]
      rintro rfl
      revert this; decide
    rcases lt_or_ge z 0 with h | h
    · rw [intStr_neg h] at hc
      rcases List.mem_cons.1 hc with rfl | h
      · decide
      · exact dig _ c h
    · obtain ⟨m, rfl⟩ := Int.eq_ofNat_of_zero_le h
      rw [intStr_nat] at hc
      exact dig _ c hc
  have form : ∀ x : ℚ, ratStr x = intStr x.num ++ (if x.den = 1 then [] else '/' :: intStr x.den) := by
    intro x; unfold ratStr; split_ifs <;> simp
  rw [form p, form q] at h
  have cut : ∀ x : ℚ, ∀ c t, (if x.den = 1 then [] else '/' :: intStr (x.den : ℤ)) = c :: t → (c == '/') = true := by
    intro x c t
    split_ifs
    · simp
    · intro h; simp only [List.cons.injEq] at h; simp [h.1.symm]
  obtain ⟨h1, h2⟩ := split_at (p := fun c => c == '/') (noslash _) (noslash _) (cut p) (cut q) h
  have hn := intStr_inj h1
  have hd : p.den = q.den := by
    split_ifs at h2 with a b b
    · rw [a, b]
    · simp only [List.cons.injEq, true_and] at h2
      exact_mod_cast intStr_inj h2
  exact Rat.ext hn hd

theorem name_cons {s : Str} (h : plainName s = true) : ∃ c r, s = c :: r ∧ c ≠ '-' ∧ c.isDigit = false ∧ (∀ d ∈ s, delim d = false) ∧
    s ≠ ['p', 'i'] ∧ s ≠ ['e'] := by
  simp only [plainName, goodName, Bool.and_eq_true, Bool.not_eq_true', List.all_eq_true] at h
  obtain ⟨⟨⟨⟨h1, h2⟩, h3⟩, h4⟩, h5⟩ := h
  cases s with
  | nil => cases h1
  | cons c r =>
    refine ⟨c, r, rfl, ?_, by simpa using h3, ?_, ?_, ?_⟩
    · rintro rfl; have := h2 '-' (by simp); revert this; decide
    · intro d hd
      have hw := h2 d hd
      have hc : d ≠ ',' := by rintro rfl; simp [hd] at h5
      have hp : d ≠ '(' := by rintro rfl; revert hw; decide
      have hq : d ≠ ')' := by rintro rfl; revert hw; decide
      simp [delim, hc, hp, hq]
    · intro e; rw [e] at h4; revert h4; decide
    · intro e; rw [e] at h4; revert h4; decide

theorem atom_word {e : Expr} (h : Atom e) : word e ≠ [] ∧ ∀ d ∈ word e, delim d = false := by
  cases h with
  | rat q =>
    obtain ⟨c, r, h1, -, h3⟩ := ratStr_cons q
    refine ⟨by simp [word, h1], fun d hd => ?_⟩
    rcases h3 d hd with rfl | rfl | h
    · decide
    · decide
    · have : ∀ x, x.isDigit = false → d ≠ x := fun x hx e => by rw [e, hx] at h; cases h
      simp [delim, this '(' (by decide), this ')' (by decide), this ',' (by decide)]
  | pi => exact ⟨by simp [word], by simp only [word]; decide⟩
  | euler => exact ⟨by simp [word], by simp only [word]; decide⟩
  | sym s hs =>
    obtain ⟨c, r, h1, -, -, h2, -⟩ := name_cons hs
    exact ⟨by simp [word, h1], h2⟩

theorem comp_word {e : Expr} (h : composite e = true) : word e ≠ [] ∧ ∀ d ∈ word e, delim d = false := by
  cases e <;> try (cases h)
  · exact ⟨by simp [word], by simp only [word]; decide⟩
  · exact ⟨by simp [word], by simp only [word]; decide⟩
  · exact ⟨by simp [word], by simp only [word]; decide⟩
  · rename_i f i
    simp only [word]
    cases f <;> decide

theorem atom_inj {e f : Expr} (he : Atom e) (hf : Atom f) (h : word e = word f) : e = f := by
  have rs : ∀ {q : ℚ} {s : Str}, plainName s = true → ratStr q ≠ s := fun hs => NF.good_ratStr (by
    simp only [plainName, Bool.and_eq_true] at hs; exact hs.1) _
  have rp : ∀ q : ℚ, ratStr q ≠ ['p', 'i'] ∧ ratStr q ≠ ['e'] := by
    intro q
    obtain ⟨c, r, h1, h2, -⟩ := ratStr_cons q
    rw [h1]
    constructor <;> (intro h; simp only [List.cons.injEq] at h; rw [h.1] at h2; revert h2; decide)
  cases he with
  | rat p =>
    cases hf with
    | rat q => rw [ratStr_inj h]
    | pi => exact absurd h (rp p).1
    | euler => exact absurd h (rp p).2
    | sym s hs => exact absurd h (rs hs)
  | pi =>
    cases hf with
    | rat q => exact absurd h.symm (rp q).1
    | pi => rfl
    | euler => exact absurd h (by simp [word])
    | sym s hs => obtain ⟨_, _, _, _, _, _, h1, _⟩ := name_cons hs; exact absurd h.symm h1
  | euler =>
    cases hf with
    | rat q => exact absurd h.symm (rp q).2
    | pi => exact absurd h (by simp [word])
    | euler => rfl
    | sym s hs => obtain ⟨_, _, _, _, _, _, _, h1⟩ := name_cons hs; exact absurd h.symm h1
  | sym s hs =>
    cases hf with
    | rat q => exact absurd h.symm (rs hs)
    | pi => obtain ⟨_, _, _, _, _, _, h1, _⟩ := name_cons hs; exact absurd h h1
    | euler => obtain ⟨_, _, _, _, _, _, _, h1⟩ := name_cons hs; exact absurd h h1
    | sym t ht => exact congrArg _ h

/-- Class and arguments determine a composite expression, and the word determines the class. -/
theorem comp_inj {e f : Expr} (he : composite e = true) (hf : composite f = true) (h : word e = word f) (ha : args e = args f) : e = f := by
  have lab : ∀ f g : TrigFn, f.label = g.label → f = g := by intro f g; cases f <;> cases g <;> decide
  have lab1 : ∀ f : TrigFn, f.label ≠ ['S', 'u', 'm'] ∧ f.label ≠ ['P', 'r', 'o', 'd'] ∧ f.label ≠ ['P', 'o', 'w', 'e', 'r'] := by intro f; cases f <;> decide
  cases e <;> try (cases he)
  all_goals cases f <;> try (cases hf)
  all_goals first
    | (simp only [args] at ha; simp_all [word]; done)
    | (simp only [word] at h; exact absurd h (by decide))
    | (simp only [word] at h; exact absurd h (lab1 _).1)
    | (simp only [word] at h; exact absurd h (lab1 _).2.1)
    | (simp only [word] at h; exact absurd h (lab1 _).2.2)
    | (simp only [word] at h; exact absurd h.symm (lab1 _).1)
    | (simp only [word] at h; exact absurd h.symm (lab1 _).2.1)
    | (simp only [word] at h; exact absurd h.symm (lab1 _).2.2)
    | (simp only [word] at h; simp only [args, List.cons.injEq, and_true] at ha; rw [lab _ _ h, ha])

/-- What may follow. -/
def Stop (r : Str) : Prop := ∀ c t, r = c :: t → c = ')' ∨ c = ','

theorem Stop.delim {r : Str} (h : Stop r) : ∀ c t, r = c :: t → delim c = true := by
  intro c t e
  rcases h c t e with rfl | rfl <;> decide

theorem stop_close (r : Str) : Stop (')' :: r) := by intro c t h; cases h; exact .inl rfl
theorem stop_comma (r : Str) : Stop (',' :: r) := by intro c t h; cases h; exact .inr rfl

/-- A text starts with a character that is not a bracket or comma. -/
theorem Text.start {e : Expr} {s : Str} (h : Text e s) : ∃ c r, s = c :: r ∧ Dbg.delim c = false := by
  have key : ∀ {w t : Str}, w ≠ [] → (∀ d ∈ w, Dbg.delim d = false) → ∃ c r, w ++ t = c :: r ∧ Dbg.delim c = false := by
    intro w t h1 h2
    cases w with
    | nil => exact absurd rfl h1
    | cons c r => exact ⟨c, r ++ t, rfl, h2 c (by simp)⟩
  cases h with
  | atom ha => simpa using key (t := []) (atom_word ha).1 (atom_word ha).2
  | node hc hl => simpa using key (comp_word hc).1 (comp_word hc).2

/-- The text of `e` can be told from any other. -/
def Unique (e : Expr) : Prop := ∀ {s : Str}, Text e s → ∀ {f : Expr} {t r u : Str}, Text f t → Stop r → Stop u → s ++ r = t ++ u → e = f ∧ r = u

theorem list_unique : ∀ {ts us : List Expr} {ls ms : List Str} {r u : Str}, (∀ t ∈ ts, Unique t) → List.Forall₂ Text ts ls → List.Forall₂ Text us ms →
    joinStr commaSep ls ++ ')' :: r = joinStr commaSep ms ++ ')' :: u → ts = us ∧ r = u
  | _, _, _, _, _, _, _, .nil, .nil, h => by simpa [joinStr] using h
  | _, _, _, _, r, u, _, .nil, .cons (b := m) (l₂ := ms) hm hms, h => by
    obtain ⟨c, x, e, hc⟩ := hm.start
    cases ms <;> simp [joinStr, e] at h <;> (rw [← h.1] at hc; exact absurd hc (by decide))
  | _, _, _, _, r, u, _, .cons (b := l) (l₂ := ls) hl hls, .nil, h => by
    obtain ⟨c, x, e, hc⟩ := hl.start
    cases ls <;> simp [joinStr, e] at h <;> (rw [h.1] at hc; exact absurd hc (by decide))
  | t :: ts, f :: us, l :: ls, m :: ms, r, u, hU, .cons hl hls, .cons hm hms, h => by
    have form : ∀ (l : Str) (ls : List Str) (r : Str), joinStr commaSep (l :: ls) ++ ')' :: r =
        l ++ (match ls with | [] => ')' :: r | a :: b => ',' :: ' ' :: (joinStr commaSep (a :: b) ++ ')' :: r)) := by
      intro l ls r
      cases ls <;> simp [joinStr, commaSep]
    rw [form l ls r, form m ms u] at h
    have st : ∀ (ls : List Str) (r : Str), Stop (match ls with | [] => ')' :: r | a :: b => ',' :: ' ' :: (joinStr commaSep (a :: b) ++ ')' :: r)) := by
      intro ls r
      cases ls with
      | nil => exact stop_close r
      | cons a b => exact stop_comma _
    obtain ⟨e1, e2⟩ := hU t (by simp) hl hm (st ls r) (st ms u) h
    subst e1
    cases hls with
    | nil =>
      cases hms with
      | nil => simpa using e2
      | cons _ _ => simp at e2
    | cons hl1 hl2 =>
      cases hms with
      | nil => simp at e2
      | cons hm1 hm2 =>
        simp only [List.cons.injEq, true_and] at e2
        obtain ⟨e3, e4⟩ := list_unique (fun x hx => hU x (by simp [hx])) (.cons hl1 hl2) (.cons hm1 hm2) e2
        exact ⟨by rw [e3], e4⟩

theorem unique : ∀ {e : Expr}, DebugPlain e → Unique e := by
  have node : ∀ {e : Expr}, composite e = true → (∀ t ∈ args e, Unique t) → Unique e := by
    intro e hc ih s hs f t r u ht hr hu h
    have s1 : ∃ ls, s = word e ++ '(' :: joinStr commaSep ls ++ [')'] ∧ List.Forall₂ Text (args e) ls := by
      cases hs with
      | atom ha => cases ha <;> cases hc
      | node _ hl => exact ⟨_, rfl, hl⟩
    obtain ⟨ls, rfl, hl⟩ := s1
    cases ht with
    | atom ha =>
      simp only [List.append_assoc] at h
      obtain ⟨_, h2⟩ := split_at (comp_word hc).2 (atom_word ha).2 (by intro c t e; simp at e; rw [← e.1]; decide) hu.delim h
      rcases hu '(' _ h2.symm with h | h <;> exact absurd h (by decide)
    | node hc' hl' =>
      simp only [List.append_assoc] at h
      obtain ⟨h1, h2⟩ := split_at (comp_word hc).2 (comp_word hc').2 (by intro c t e; simp at e; rw [← e.1]; decide)
        (by intro c t e; simp at e; rw [← e.1]; decide) h
      simp only [List.cons_append, List.cons.injEq, true_and, List.append_assoc, List.nil_append] at h2
      obtain ⟨h3, h4⟩ := list_unique ih hl hl' h2
      exact ⟨comp_inj hc hc' h1 h3, h4⟩
  have atm : ∀ {e : Expr}, Atom e → Unique e := by
    intro e ha s hs f t r u ht hr hu h
    have hs' : s = word e := by
      cases hs with
      | atom _ => rfl
      | node hc _ => cases ha <;> cases hc
    subst hs'
    cases ht with
    | atom hb =>
      obtain ⟨h1, h2⟩ := split_at (atom_word ha).2 (atom_word hb).2 hr.delim hu.delim h
      exact ⟨atom_inj ha hb h1, h2⟩
    | node hc hl =>
      simp only [List.append_assoc] at h
      obtain ⟨_, h2⟩ := split_at (atom_word ha).2 (comp_word hc).2 hr.delim (by intro c t e; simp at e; rw [← e.1]; decide) h
      rcases hr '(' _ h2 with h | h <;> exact absurd h (by decide)
  intro e h
  induction h with
  | atom ha => exact atm ha
  | fn f ha => exact node rfl (by intro t ht; simp only [args, List.mem_singleton] at ht; subst ht; exact atm ha)
  | sum h ih => exact node (e := Expr.sum _) rfl ih
  | prod h ih => exact node (e := Expr.prod _) rfl ih
  | pow h1 h2 ih1 ih2 => exact node rfl (by
      intro t ht
      simp only [args, List.mem_cons, List.not_mem_nil, or_false] at ht
      rcases ht with rfl | rfl
      · exact ih1
      · exact ih2)

theorem debug_text {e : Expr} (h : DebugPlain e) (n : Nat) : ∃ s, debugRepr O (n + 2) e = .ok s ∧ Text e s := by
  have list : ∀ {ts : List Expr}, (∀ t ∈ ts, ∃ s, debugRepr O (n + 2) t = .ok s ∧ Text t s) → ∃ ls, debugReprL O (n + 2) ts = .ok ls ∧ List.Forall₂ Text ts ls := by
    intro ts
    induction ts with
    | nil => intro _; exact ⟨[], by simp [debugReprL], .nil⟩
    | cons t r ih =>
      intro h
      obtain ⟨s, h1, h2⟩ := h t (by simp)
      obtain ⟨ls, h3, h4⟩ := ih fun x hx => h x (by simp [hx])
      exact ⟨s :: ls, by simp [debugReprL, h1, h3, bind, Except.bind, pure, Except.pure], .cons h2 h4⟩
  induction h with
  | atom ha => exact ⟨_, (atom_repr ha (n + 1)).2, .atom ha⟩
  | fn f ha =>
    rename_i i
    obtain ⟨c, r, hc, hd⟩ := (Text.atom ha).start
    have hne : c ≠ '(' := by rintro rfl; revert hd; decide
    refine ⟨_, ?_, .node (e := trig f i) rfl (.cons (.atom ha) .nil)⟩
    have h1 := (atom_repr (O := O) ha n).1
    have : debugRepr O (n + 2) (trig f i) = (ctors O (n + 2)).repr (trig f i) := by simp [debugRepr]
    rw [this]
    show (do let s ← (ctors O (n + 1)).repr i; wrapRepr s f.label) = _
    rw [h1]
    show wrapRepr (word i) f.label = _
    rw [hc]
    simp [wrapRepr, hne, parens, word, joinStr]
  | sum h ih =>
    obtain ⟨ls, h1, h2⟩ := list ih
    refine ⟨_, ?_, .node (e := Expr.sum _) rfl h2⟩
    simp [debugRepr, h1, bind, Except.bind, pure, Except.pure, word]
  | prod h ih =>
    obtain ⟨ls, h1, h2⟩ := list ih
    refine ⟨_, ?_, .node (e := Expr.prod _) rfl h2⟩
    simp [debugRepr, h1, bind, Except.bind, pure, Except.pure, word]
  | pow h1 h2 ih1 ih2 =>
    obtain ⟨s, a1, a2⟩ := ih1
    obtain ⟨t, b1, b2⟩ := ih2
    refine ⟨_, ?_, .node (e := Expr.pow _ _) rfl (.cons a2 (.cons b2 .nil))⟩
    simp [debugRepr, a1, b1, bind, Except.bind, pure, Except.pure, word, joinStr, commaSep]

theorem noFlt {e : Expr} (h : DebugPlain e) : NoFlt e := by
  have atm : ∀ {e : Expr}, Atom e → NoFlt e := by intro e h; cases h <;> simp [NoFlt]
  have list : ∀ {ts : List Expr}, (∀ t ∈ ts, NoFlt t) → NoFltL ts := by
    intro ts
    induction ts with
    | nil => intro _; simp [NoFltL]
    | cons t r ih => intro h; exact ⟨h t (by simp), ih fun x hx => h x (by simp [hx])⟩
  induction h with
  | atom ha => exact atm ha
  | fn f ha => simpa [NoFlt] using atm ha
  | sum h ih => simpa [NoFlt] using list ih
  | prod h ih => simpa [NoFlt] using list ih
  | pow h1 h2 ih1 ih2 => exact ⟨ih1, ih2⟩

end Dbg
end Simpy
