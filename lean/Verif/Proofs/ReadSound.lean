import Verif.Spec.Read

/-! The reader on texts put together from parts. -/

namespace Simpy

/-- The text ends, or goes on with one of the characters. -/
def Fol (cs : List Char) (r : Str) : Prop := r = [] ∨ ∃ c r', r = c :: r' ∧ c ∈ cs

abbrev folSum : List Char := [')', '|', ']']
abbrev folProd : List Char := ' ' :: folSum
abbrev folPow : List Char := '*' :: '/' :: folProd
abbrev folAtom : List Char := '^' :: folPow

theorem Fol.mono {cs ds : List Char} {r : Str} (h : Fol cs r) (hs : cs ⊆ ds) : Fol ds r := by
  rcases h with rfl | ⟨c, r', rfl, hc⟩
  · exact .inl rfl
  · exact .inr ⟨c, r', rfl, hs hc⟩

theorem Fol.cons {cs : List Char} {c : Char} {r : Str} (h : c ∈ cs) : Fol cs (c :: r) := .inr ⟨c, r, rfl, h⟩

def Starts (s : Str) : Prop := ∃ c r, s = c :: r ∧ c ≠ '-'

def RAtom (s : Str) (T : Reading) : Prop :=
  Starts s ∧ ∀ k rest, 6 * s.length ≤ k → Fol folAtom rest → readAtom k (s ++ rest) = some (T, rest)

def RPow (s : Str) (T : Reading) : Prop :=
  Starts s ∧ ∀ k rest, 6 * s.length + 1 ≤ k → Fol folPow rest → readPow k (s ++ rest) = some (T, rest)

theorem Starts.length {s : Str} (h : Starts s) : 1 ≤ s.length := by
  obtain ⟨c, r, rfl, _⟩ := h; simp

theorem Starts.append {s t : Str} (h : Starts s) : Starts (s ++ t) := by
  obtain ⟨c, r, rfl, hc⟩ := h; exact ⟨c, r ++ t, rfl, hc⟩

theorem RAtom.pow {s : Str} {T : Reading} (h : RAtom s T) : RPow s T := by
  refine ⟨h.1, fun k rest hk hf => ?_⟩
  obtain ⟨k, rfl⟩ : ∃ j, k = j + 1 := ⟨k - 1, by omega⟩
  rw [readPow, h.2 k rest (by omega) (hf.mono (by simp))]
  rcases hf with rfl | ⟨c, r', rfl, hc⟩
  · rfl
  · have : c ≠ '^' := by rintro rfl; revert hc; decide
    split
    · next heq => simp only [Option.some.injEq, Prod.mk.injEq, List.cons.injEq] at heq; exact absurd heq.2.1 this
    · rfl

theorem RAtom.powOf {s t : Str} {a b : Reading} (h : RAtom s a) (h' : RPow t b) : RPow (s ++ '^' :: t) (.pow a b) := by
  refine ⟨h.1.append, fun k rest hk hf => ?_⟩
  obtain ⟨k, rfl⟩ : ∃ j, k = j + 1 := ⟨k - 1, by omega⟩
  simp only [List.length_append, List.length_cons] at hk
  rw [readPow, List.append_assoc, List.cons_append, h.2 k _ (by omega) (Fol.cons (by simp))]
  simp only
  rw [h'.2 k rest (by omega) hf]

inductive Factors : Reading → Str → Reading → Prop
  | nil (a : Reading) : Factors a [] a
  | mul {a b T : Reading} {s t : Str} : RPow s b → Factors (.mul a b) t T → Factors a ('*' :: (s ++ t)) T
  | div {a b T : Reading} {s t : Str} : RPow s b → Factors (.div a b) t T → Factors a ('/' :: (s ++ t)) T

theorem Factors.snocMul {a T b : Reading} {s t : Str} (h : Factors a s T) (hb : RPow t b) : Factors a (s ++ '*' :: t) (.mul T b) := by
  induction h with
  | nil a => simpa using Factors.mul hb (.nil _)
  | mul h1 _ ih => simpa using Factors.mul h1 ih
  | div h1 _ ih => simpa using Factors.div h1 ih

theorem Factors.snocDiv {a T b : Reading} {s t : Str} (h : Factors a s T) (hb : RPow t b) : Factors a (s ++ '/' :: t) (.div T b) := by
  induction h with
  | nil a => simpa using Factors.div hb (.nil _)
  | mul h1 _ ih => simpa using Factors.mul h1 ih
  | div h1 _ ih => simpa using Factors.div h1 ih

theorem Factors.fol {a T : Reading} {s : Str} (h : Factors a s T) {rest : Str} (hf : Fol folProd rest) : Fol folPow (s ++ rest) := by
  cases h with
  | nil => exact hf.mono (by simp)
  | mul => exact Fol.cons (by simp)
  | div => exact Fol.cons (by simp)

theorem Factors.read {a T : Reading} {s : Str} (h : Factors a s T) : ∀ k rest, 6 * s.length + 1 ≤ k → Fol folProd rest →
    readFactors k a (s ++ rest) = some (T, rest) := by
  induction h with
  | nil a =>
    intro k rest hk hf
    obtain ⟨k, rfl⟩ : ∃ j, k = j + 1 := ⟨k - 1, by omega⟩
    rw [readFactors.eq_def]
    rcases hf with rfl | ⟨c, r', rfl, hc⟩
    · rfl
    · have h1 : c ≠ '*' := by rintro rfl; revert hc; decide
      have h2 : c ≠ '/' := by rintro rfl; revert hc; decide
      simp only [List.nil_append]
      split
      · next heq => simp only [List.cons.injEq] at heq; exact absurd heq.1 h1
      · next heq => simp only [List.cons.injEq] at heq; exact absurd heq.1 h2
      · rfl
  | mul h1 h2 ih =>
    intro k rest hk hf
    obtain ⟨k, rfl⟩ : ∃ j, k = j + 1 := ⟨k - 1, by omega⟩
    simp only [List.length_append, List.length_cons] at hk
    have := h1.1.length
    rw [readFactors.eq_def, List.cons_append, List.append_assoc]
    simp only
    rw [h1.2 k _ (by omega) (h2.fol hf)]
    simp only
    exact ih k rest (by omega) hf
  | div h1 h2 ih =>
    intro k rest hk hf
    obtain ⟨k, rfl⟩ : ∃ j, k = j + 1 := ⟨k - 1, by omega⟩
    simp only [List.length_append, List.length_cons] at hk
    have := h1.1.length
    rw [readFactors.eq_def, List.cons_append, List.append_assoc]
    simp only
    rw [h1.2 k _ (by omega) (h2.fol hf)]
    simp only
    exact ih k rest (by omega) hf

def RProd (s : Str) (T : Reading) : Prop := ∃ s1 a s2, s = s1 ++ s2 ∧ RPow s1 a ∧ Factors a s2 T

theorem RPow.prod {s : Str} {T : Reading} (h : RPow s T) : RProd s T := ⟨s, T, [], by simp, h, .nil _⟩

theorem RProd.mul {s t : Str} {a b : Reading} (h : RProd s a) (h' : RPow t b) : RProd (s ++ '*' :: t) (.mul a b) := by
  obtain ⟨s1, c, s2, rfl, h1, h2⟩ := h
  exact ⟨s1, c, s2 ++ '*' :: t, by simp, h1, h2.snocMul h'⟩

theorem RProd.div {s t : Str} {a b : Reading} (h : RProd s a) (h' : RPow t b) : RProd (s ++ '/' :: t) (.div a b) := by
  obtain ⟨s1, c, s2, rfl, h1, h2⟩ := h
  exact ⟨s1, c, s2 ++ '/' :: t, by simp, h1, h2.snocDiv h'⟩

theorem RProd.starts {s : Str} {T : Reading} (h : RProd s T) : Starts s := by
  obtain ⟨s1, c, s2, rfl, h1, h2⟩ := h
  exact h1.1.append

theorem RProd.read {s : Str} {T : Reading} (h : RProd s T) (k : Nat) (rest : Str) (hk : 6 * s.length + 2 ≤ k) (hf : Fol folProd rest) :
    readProd k (s ++ rest) = some (T, rest) := by
  obtain ⟨s1, c, s2, rfl, h1, h2⟩ := h
  obtain ⟨k, rfl⟩ : ∃ j, k = j + 1 := ⟨k - 1, by omega⟩
  simp only [List.length_append] at hk
  rw [readProd, List.append_assoc, h1.2 k _ (by omega) (h2.fol hf)]
  exact h2.read k rest (by omega) hf

inductive Terms : Reading → Str → Reading → Prop
  | nil (a : Reading) : Terms a [] a
  | add {a b T : Reading} {s t : Str} : RProd s b → Terms (.add a b) t T → Terms a (' ' :: '+' :: ' ' :: (s ++ t)) T
  | sub {a b T : Reading} {s t : Str} : RProd s b → Terms (.sub a b) t T → Terms a (' ' :: '-' :: ' ' :: (s ++ t)) T

theorem Terms.snocAdd {a T b : Reading} {s t : Str} (h : Terms a s T) (hb : RProd t b) :
    Terms a (s ++ ' ' :: '+' :: ' ' :: t) (.add T b) := by
  induction h with
  | nil a => simpa using Terms.add hb (.nil _)
  | add h1 _ ih => simpa using Terms.add h1 ih
  | sub h1 _ ih => simpa using Terms.sub h1 ih

theorem Terms.fol {a T : Reading} {s : Str} (h : Terms a s T) {rest : Str} (hf : Fol folSum rest) : Fol folProd (s ++ rest) := by
  cases h with
  | nil => exact hf.mono (by simp)
  | add => exact Fol.cons (by simp)
  | sub => exact Fol.cons (by simp)

theorem Terms.read {a T : Reading} {s : Str} (h : Terms a s T) : ∀ k rest, 6 * s.length + 1 ≤ k → Fol folSum rest →
    readTerms k a (s ++ rest) = some (T, rest) := by
  induction h with
  | nil a =>
    intro k rest hk hf
    obtain ⟨k, rfl⟩ : ∃ j, k = j + 1 := ⟨k - 1, by omega⟩
    rw [readTerms.eq_def]
    rcases hf with rfl | ⟨c, r', rfl, hc⟩
    · rfl
    · have h1 : c ≠ ' ' := by rintro rfl; revert hc; decide
      simp only [List.nil_append]
      split
      · next heq => simp only [List.cons.injEq] at heq; exact absurd heq.1 h1
      · next heq => simp only [List.cons.injEq] at heq; exact absurd heq.1 h1
      · rfl
  | add h1 h2 ih =>
    intro k rest hk hf
    obtain ⟨k, rfl⟩ : ∃ j, k = j + 1 := ⟨k - 1, by omega⟩
    simp only [List.length_append, List.length_cons] at hk
    rw [readTerms.eq_def, List.cons_append, List.cons_append, List.cons_append, List.append_assoc]
    simp only
    rw [h1.read k _ (by omega) (h2.fol hf)]
    simp only
    exact ih k rest (by omega) hf
  | sub h1 h2 ih =>
    intro k rest hk hf
    obtain ⟨k, rfl⟩ : ∃ j, k = j + 1 := ⟨k - 1, by omega⟩
    simp only [List.length_append, List.length_cons] at hk
    rw [readTerms.eq_def, List.cons_append, List.cons_append, List.cons_append, List.append_assoc]
    simp only
    rw [h1.read k _ (by omega) (h2.fol hf)]
    simp only
    exact ih k rest (by omega) hf

def RSum (s : Str) (T : Reading) : Prop :=
  ∃ s1 a s2, (s = s1 ++ s2 ∧ RProd s1 a ∧ Terms a s2 T) ∨ (s = '-' :: s1 ++ s2 ∧ RProd s1 a ∧ Terms (.neg a) s2 T)

theorem RProd.sum {s : Str} {T : Reading} (h : RProd s T) : RSum s T := ⟨s, T, [], .inl ⟨by simp, h, .nil _⟩⟩

theorem RProd.neg {s : Str} {T : Reading} (h : RProd s T) : RSum ('-' :: s) (.neg T) := ⟨s, T, [], .inr ⟨by simp, h, .nil _⟩⟩

theorem Terms.append {a b T : Reading} {s t : Str} (h : Terms a s b) (h' : Terms b t T) : Terms a (s ++ t) T := by
  induction h with
  | nil a => simpa using h'
  | add h1 _ ih => simpa using Terms.add h1 (ih h')
  | sub h1 _ ih => simpa using Terms.sub h1 (ih h')

theorem RSum.terms {s t : Str} {a T : Reading} (h : RSum s a) (h' : Terms a t T) : RSum (s ++ t) T := by
  obtain ⟨s1, b, s2, ⟨rfl, h1, h2⟩ | ⟨rfl, h1, h2⟩⟩ := h
  · exact ⟨s1, b, s2 ++ t, .inl ⟨by simp, h1, h2.append h'⟩⟩
  · exact ⟨s1, b, s2 ++ t, .inr ⟨by simp, h1, h2.append h'⟩⟩

theorem RSum.length {s : Str} {T : Reading} (h : RSum s T) : 1 ≤ s.length := by
  obtain ⟨s1, b, s2, ⟨rfl, h1, h2⟩ | ⟨rfl, h1, h2⟩⟩ := h
  · have := h1.starts.length; simp; omega
  · simp

theorem RSum.read {s : Str} {T : Reading} (h : RSum s T) (k : Nat) (rest : Str) (hk : 6 * s.length + 3 ≤ k) (hf : Fol folSum rest) :
    readSum k (s ++ rest) = some (T, rest) := by
  obtain ⟨k, rfl⟩ : ∃ j, k = j + 1 := ⟨k - 1, by omega⟩
  obtain ⟨s1, b, s2, ⟨rfl, h1, h2⟩ | ⟨rfl, h1, h2⟩⟩ := h
  · simp only [List.length_append] at hk
    have hst := h1.starts
    have hr := h1.read k (s2 ++ rest) (by omega) (h2.fol hf)
    rw [readSum.eq_def]
    obtain ⟨c, r, rfl, hc⟩ := hst
    simp only [List.cons_append, List.append_assoc] at hr ⊢
    split
    · next heq => simp only [List.cons.injEq] at heq; exact absurd heq.1 hc
    · rw [hr]
      exact h2.read k rest (by omega) hf
  · simp only [List.length_append, List.length_cons] at hk
    rw [readSum.eq_def]
    simp only [List.cons_append, List.append_assoc]
    rw [h1.read k _ (by omega) (h2.fol hf)]
    exact h2.read k rest (by omega) hf

/-- The reader reads the text. -/
theorem RSum.whole {s : Str} {T : Reading} (h : RSum s T) : Simpy.read s = some T := by
  unfold Simpy.read
  have := h.read (6 * s.length + 6) [] (by omega) (.inl rfl)
  rw [List.append_nil] at this
  rw [this]

theorem RSum.paren {s : Str} {T : Reading} (h : RSum s T) : RAtom ('(' :: s ++ [')']) T := by
  refine ⟨⟨'(', s ++ [')'], rfl, by decide⟩, fun k rest hk hf => ?_⟩
  obtain ⟨k, rfl⟩ : ∃ j, k = j + 1 := ⟨k - 1, by simp at hk; omega⟩
  simp only [List.length_append, List.length_cons] at hk
  rw [readAtom.eq_def, List.append_assoc, List.cons_append]
  simp only [↓reduceIte, List.singleton_append]
  rw [h.read k _ (by omega) (Fol.cons (by simp))]
  rfl

theorem RSum.bars {s : Str} {T : Reading} (h : RSum s T) : RAtom ('|' :: s ++ ['|']) (.bars T) := by
  refine ⟨⟨'|', s ++ ['|'], rfl, by decide⟩, fun k rest hk hf => ?_⟩
  obtain ⟨k, rfl⟩ : ∃ j, k = j + 1 := ⟨k - 1, by simp at hk; omega⟩
  simp only [List.length_append, List.length_cons] at hk
  rw [readAtom.eq_def, List.append_assoc, List.cons_append]
  simp only [↓reduceIte, List.singleton_append]
  rw [if_neg (by decide), h.read k _ (by omega) (Fol.cons (by simp))]
  rfl

theorem takeWhile_append {p : Char → Bool} {s rest : Str} (hs : ∀ c ∈ s, p c = true) (hr : ∀ c r, rest = c :: r → p c = false) :
    (s ++ rest).takeWhile p = s ∧ (s ++ rest).dropWhile p = rest := by
  rw [List.takeWhile_append_of_pos hs, List.dropWhile_append_of_pos hs]
  cases rest with
  | nil => simp
  | cons c r => simp [hr c r rfl]

theorem Fol.noWord {rest : Str} (h : Fol folAtom rest) : ∀ c r, rest = c :: r → isWord c = false := by
  rintro c r rfl
  rcases h with h | ⟨c', r', h, hc⟩
  · cases h
  · cases h; revert c; decide

theorem Fol.noDigit {rest : Str} (h : Fol folAtom rest) : ∀ c r, rest = c :: r → c.isDigit = false := by
  rintro c r rfl
  rcases h with h | ⟨c', r', h, hc⟩
  · cases h
  · cases h; revert c; decide

theorem digit_ne {c d : Char} (h : c.isDigit = true) (hd : d.isDigit = false) : c ≠ d := by rintro rfl; simp_all

theorem RAtom.num (n : ℕ) : RAtom (Nat.toDigits 10 n) (.num n) := by
  have hd : ∀ c ∈ Nat.toDigits 10 n, c.isDigit = true := fun c hc => Nat.isDigit_of_mem_toDigits (by decide) (by decide) hc
  obtain ⟨c, r, hcr⟩ := List.exists_cons_of_ne_nil (Nat.toDigits_ne_nil (n := n) (b := 10))
  have hc : c.isDigit = true := hd c (by simp [hcr])
  refine ⟨⟨c, r, hcr, digit_ne hc (by decide)⟩, fun k rest hk hf => ?_⟩
  obtain ⟨k, rfl⟩ : ∃ j, k = j + 1 := ⟨k - 1, by rw [hcr] at hk; simp at hk; omega⟩
  obtain ⟨h1, h2⟩ := takeWhile_append (p := Char.isDigit) hd hf.noDigit
  rw [readAtom.eq_def]
  simp only [hcr, List.cons_append] at h1 h2 ⊢
  rw [if_neg (digit_ne hc (by decide)), if_neg (digit_ne hc (by decide)), if_pos hc, h1, h2, ← hcr, Nat.ofDigitChars_ten_toDigits]

theorem word_ne {c d : Char} (h : isWord c = true) (hd : isWord d = false) : c ≠ d := by rintro rfl; simp_all

theorem RAtom.word {s : Str} (hs : s ≠ []) (hw : ∀ c ∈ s, isWord c = true) (hd : (s.headD '0').isDigit = false)
    (h1 : s ≠ "log".toList) (h2 : s ∉ fnNames) : RAtom s (.name s) := by
  obtain ⟨c, r, rfl⟩ := List.exists_cons_of_ne_nil hs
  have hc := hw c (by simp)
  refine ⟨⟨c, r, rfl, word_ne hc (by decide)⟩, fun k rest hk hf => ?_⟩
  obtain ⟨k, rfl⟩ : ∃ j, k = j + 1 := ⟨k - 1, by simp at hk; omega⟩
  obtain ⟨e1, e2⟩ := takeWhile_append (p := isWord) hw hf.noWord
  rw [readAtom.eq_def]
  simp only [List.cons_append, List.headD_cons] at e1 e2 hd ⊢
  rw [if_neg (word_ne hc (by decide)), if_neg (word_ne hc (by decide)), hd, if_neg (by decide), if_pos hc, e1, e2, if_neg h1, if_neg h2]

theorem RAtom.fn {f s : Str} {T : Reading} (hf : f ∈ fnNames) (h : RSum s T) : RAtom (f ++ ('(' :: s ++ [')'])) (.fn f T) := by
  have hw : (∀ c ∈ f, isWord c = true) ∧ f ≠ [] ∧ (f.headD '0').isDigit = false ∧ f ≠ "log".toList := by
    revert f; decide
  obtain ⟨hw, hn, hd, hl⟩ := hw
  obtain ⟨c, r, rfl⟩ := List.exists_cons_of_ne_nil hn
  have hc := hw c (by simp)
  refine ⟨⟨c, _, rfl, word_ne hc (by decide)⟩, fun k rest hk hfo => ?_⟩
  obtain ⟨k, rfl⟩ : ∃ j, k = j + 1 := ⟨k - 1, by simp at hk; omega⟩
  simp only [List.length_append, List.length_cons] at hk
  have e := takeWhile_append (p := isWord) (s := c :: r) (rest := '(' :: (s ++ ')' :: rest)) hw
    (by rintro c r h; cases h; decide)
  rw [readAtom.eq_def]
  simp only [List.cons_append, List.headD_cons, List.append_assoc, List.nil_append] at e hd ⊢
  rw [if_neg (word_ne hc (by decide)), if_neg (word_ne hc (by decide)), hd, if_neg (by decide), if_pos hc, e.1, e.2, if_neg hl,
    if_pos hf]
  simp only
  rw [h.read k _ (by omega) (Fol.cons (by simp))]
  rfl

theorem RAtom.logBase {s t : Str} {a b : Reading} (hb : RSum t b) (h : RSum s a) :
    RAtom ("log[base=".toList ++ t ++ [']'] ++ ('(' :: s ++ [')'])) (.logBase b a) := by
  have hs : ∀ rest, "log[base=".toList ++ t ++ [']'] ++ ('(' :: s ++ [')']) ++ rest =
      "log".toList ++ ('[' :: 'b' :: 'a' :: 's' :: 'e' :: '=' :: (t ++ ']' :: '(' :: (s ++ ')' :: rest))) := by
    intro rest
    rw [show "log[base=".toList = "log".toList ++ ['[', 'b', 'a', 's', 'e', '='] by decide]
    simp
  obtain ⟨w, hw⟩ : ∃ w, w = "log".toList := ⟨_, rfl⟩
  have hw' : (∀ c ∈ w, isWord c = true) ∧ w ≠ [] ∧ (w.headD '0').isDigit = false := by subst hw; decide
  obtain ⟨h1, hn, hd⟩ := hw'
  obtain ⟨c, r, rfl⟩ := List.exists_cons_of_ne_nil hn
  have hc := h1 c (by simp)
  rw [← hw] at hs
  refine ⟨⟨c, _, by simpa using hs [], word_ne hc (by decide)⟩, fun k rest hk hfo => ?_⟩
  obtain ⟨k, rfl⟩ : ∃ j, k = j + 1 := ⟨k - 1, by simp at hk; omega⟩
  simp only [List.length_append, List.length_cons] at hk
  have e := takeWhile_append (p := isWord) (s := c :: r)
    (rest := '[' :: 'b' :: 'a' :: 's' :: 'e' :: '=' :: (t ++ ']' :: '(' :: (s ++ ')' :: rest))) h1
    (by rintro c r h; cases h; decide)
  rw [hs, readAtom.eq_def]
  simp only [List.cons_append, List.headD_cons] at e hd ⊢
  rw [if_neg (word_ne hc (by decide)), if_neg (word_ne hc (by decide)), hd, if_neg (by decide), if_pos hc, e.1, e.2, if_pos hw]
  simp only
  rw [hb.read k _ (by omega) (Fol.cons (by simp))]
  simp only
  rw [h.read k _ (by omega) (Fol.cons (by simp))]
  rfl

end Simpy
