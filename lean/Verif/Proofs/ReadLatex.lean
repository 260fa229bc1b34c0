import Verif.Spec.ReadLatex
import Verif.Proofs.ReadSound

/-! The LaTeX reader on texts put together from parts. -/

namespace Simpy.Tex
open Simpy

/-- The text ends, or goes on with one of the words. -/
def Fol (ps : List Str) (r : Str) : Prop := r = [] ∨ ∃ p ∈ ps, ∃ r', r = p ++ r'

abbrev folSum : List Str := [[')'], ['|'], ['}'], [' ', '\\', 'r']]
abbrev folTerm : List Str := [' ', '+', ' '] :: [' ', '-', ' '] :: folSum
abbrev folPow : List Str := [' ', '\\', 'c'] :: folTerm
abbrev folAtom : List Str := ['^'] :: folPow

theorem Fol.mono {cs ds : List Str} {r : Str} (h : Fol cs r) (hs : cs ⊆ ds) : Fol ds r := by
  rcases h with rfl | ⟨c, hc, r', rfl⟩
  · exact .inl rfl
  · exact .inr ⟨c, hs hc, r', rfl⟩

theorem Fol.cons {ps : List Str} {c : Char} {r : Str} (h : [c] ∈ ps) : Fol ps (c :: r) := .inr ⟨[c], h, r, rfl⟩

theorem Fol.right {r : Str} : Fol folSum (' ' :: '\\' :: 'r' :: r) := .inr ⟨[' ', '\\', 'r'], by simp, r, rfl⟩

/-- What can follow an atom is not part of a word or number. -/
theorem Fol.head {P : Char → Bool} {ps : List Str} (hP : ∀ p ∈ ps, ∃ c r, p = c :: r ∧ P c = false) {rest : Str} (h : Fol ps rest) :
    ∀ c r, rest = c :: r → P c = false := by
  rintro c r rfl
  rcases h with h | ⟨p, hp, r', h⟩
  · cases h
  · obtain ⟨d, r'', rfl, hd⟩ := hP p hp
    cases h; exact hd

theorem Fol.noWord {rest : Str} (h : Fol folAtom rest) : ∀ c r, rest = c :: r → texWord c = false :=
  h.head fun p hp => by
    simp only [List.mem_cons, List.not_mem_nil, or_false] at hp
    rcases hp with rfl | rfl | rfl | rfl | rfl | rfl | rfl | rfl <;> exact ⟨_, _, rfl, by decide⟩

theorem Fol.noDigit {rest : Str} (h : Fol folAtom rest) : ∀ c r, rest = c :: r → c.isDigit = false :=
  h.head fun p hp => by
    simp only [List.mem_cons, List.not_mem_nil, or_false] at hp
    rcases hp with rfl | rfl | rfl | rfl | rfl | rfl | rfl | rfl <;> exact ⟨_, _, rfl, by decide⟩

theorem Fol.noAlpha {rest : Str} (h : Fol folAtom rest) : ∀ c r, rest = c :: r → c.isAlpha = false :=
  h.head fun p hp => by
    simp only [List.mem_cons, List.not_mem_nil, or_false] at hp
    rcases hp with rfl | rfl | rfl | rfl | rfl | rfl | rfl | rfl <;> exact ⟨_, _, rfl, by decide⟩

theorem Fol.noHat {rest : Str} (h : Fol folPow rest) : ∀ r, rest ≠ '^' :: r := by
  intro r hr
  have := h.head (P := fun c => c == '^') (fun p hp => by
    simp only [List.mem_cons, List.not_mem_nil, or_false] at hp
    rcases hp with rfl | rfl | rfl | rfl | rfl | rfl | rfl <;> exact ⟨_, _, rfl, by decide⟩) '^' r hr
  simp at this

def RAtom (s : Str) (T : Reading) : Prop :=
  Starts s ∧ ∀ k rest, 6 * s.length ≤ k → Fol folAtom rest → texAtom k (s ++ rest) = some (T, rest)

def RArg (s : Str) (T : Reading) : Prop :=
  Starts s ∧ ∀ k rest, 6 * s.length + 1 ≤ k → texArg k (s ++ rest) = some (T, rest)

def RPow (s : Str) (T : Reading) : Prop := RAtom s T ∨ ∃ s1 a s2 b, s = s1 ++ '^' :: s2 ∧ T = .pow a b ∧ RAtom s1 a ∧ RArg s2 b

theorem RPow.starts {s : Str} {T : Reading} (h : RPow s T) : Starts s := by
  rcases h with h | ⟨s1, a, s2, b, rfl, rfl, h1, h2⟩
  · exact h.1
  · exact h1.1.append

theorem RAtom.pow {s : Str} {T : Reading} (h : RAtom s T) : RPow s T := .inl h

theorem RAtom.powOf {s t : Str} {a b : Reading} (h : RAtom s a) (h' : RArg t b) : RPow (s ++ '^' :: t) (.pow a b) :=
  .inr ⟨s, a, t, b, rfl, rfl, h, h'⟩

theorem RPow.read {s : Str} {T : Reading} (h : RPow s T) (k : Nat) (rest : Str) (hk : 6 * s.length + 1 ≤ k) (hf : Fol folPow rest) :
    texPow k (s ++ rest) = some (T, rest) := by
  obtain ⟨k, rfl⟩ : ∃ j, k = j + 1 := ⟨k - 1, by omega⟩
  rw [texPow]
  rcases h with h | ⟨s1, a, s2, b, rfl, rfl, h1, h2⟩
  · rw [h.2 k rest (by omega) (hf.mono (by simp))]
    split
    · next heq => simp only [Option.some.injEq, Prod.mk.injEq] at heq; exact absurd heq.2 (hf.noHat _)
    · rfl
  · simp only [List.length_append, List.length_cons] at hk
    rw [List.append_assoc, List.cons_append, h1.2 k _ (by omega) (Fol.cons (by simp))]
    simp only
    rw [h2.2 k rest (by omega)]
    split
    · next heq => simp only [Option.some.injEq, Prod.mk.injEq] at heq; exact absurd heq.2 (hf.noHat _)
    · next heq => simp only [Option.some.injEq, Prod.mk.injEq] at heq; rw [heq.1, heq.2]
    · next heq => cases heq

inductive Factors : Reading → Str → Reading → Prop
  | nil (a : Reading) : Factors a [] a
  | mul {a b T : Reading} {s t : Str} : RPow s b → Factors (.mul a b) t T →
      Factors a (' ' :: '\\' :: 'c' :: 'd' :: 'o' :: 't' :: ' ' :: (s ++ t)) T

theorem Factors.append {a b T : Reading} {s t : Str} (h : Factors a s b) (h' : Factors b t T) : Factors a (s ++ t) T := by
  induction h with
  | nil a => simpa using h'
  | mul h1 _ ih => simpa using Factors.mul h1 (ih h')

/-- The same factors after something else. -/
theorem Factors.shift {c T : Reading} {s : Str} (h : Factors c s T) : ∀ a : Reading,
    ∃ T', Factors a s T' ∧ ∃ m : (Str → ℝ) → ℝ, (∀ ρ, T.val ρ = c.val ρ * m ρ) ∧ ∀ ρ, T'.val ρ = a.val ρ * m ρ := by
  induction h with
  | nil c => exact fun a => ⟨a, .nil a, fun _ => 1, by simp, by simp⟩
  | @mul c b T s t h1 _ ih =>
    intro a
    obtain ⟨T', h2, m, h3, h4⟩ := ih (.mul a b)
    refine ⟨T', .mul h1 h2, fun ρ => b.val ρ * m ρ, fun ρ => ?_, fun ρ => ?_⟩
    · rw [h3, Reading.val]; ring
    · rw [h4, Reading.val]; ring

theorem Factors.fol {a T : Reading} {s : Str} (h : Factors a s T) {rest : Str} (hf : Fol folTerm rest) : Fol folPow (s ++ rest) := by
  cases h with
  | nil => exact hf.mono (by simp)
  | mul => exact .inr ⟨[' ', '\\', 'c'], by simp, _, rfl⟩

theorem Factors.read {a T : Reading} {s : Str} (h : Factors a s T) : ∀ k rest, 6 * s.length + 1 ≤ k → Fol folTerm rest →
    texFactors k a (s ++ rest) = some (T, rest) := by
  induction h with
  | nil a =>
    intro k rest hk hf
    obtain ⟨k, rfl⟩ : ∃ j, k = j + 1 := ⟨k - 1, by omega⟩
    rw [texFactors.eq_def]
    simp only [List.nil_append]
    split
    · next heq =>
      exfalso
      rcases hf with h | ⟨p, hp, r', h⟩
      · cases h
      · simp only [List.mem_cons, List.not_mem_nil, or_false] at hp
        rcases hp with rfl | rfl | rfl | rfl | rfl | rfl <;> simp at h
    · rfl
  | mul h1 h2 ih =>
    intro k rest hk hf
    obtain ⟨k, rfl⟩ : ∃ j, k = j + 1 := ⟨k - 1, by omega⟩
    simp only [List.length_append, List.length_cons] at hk
    rw [texFactors.eq_def]
    simp only [List.cons_append, List.append_assoc]
    rw [h1.read k _ (by omega) (h2.fol hf)]
    simp only
    exact ih k rest (by omega) hf

def RProd (s : Str) (T : Reading) : Prop := ∃ s1 a s2, s = s1 ++ s2 ∧ RPow s1 a ∧ Factors a s2 T

theorem RPow.prod {s : Str} {T : Reading} (h : RPow s T) : RProd s T := ⟨s, T, [], by simp, h, .nil _⟩

/-- Two products, one after the other. -/
theorem RProd.mul {s t : Str} {a b : Reading} (h : RProd s a) (h' : RProd t b) :
    ∃ T, RProd (s ++ ' ' :: '\\' :: 'c' :: 'd' :: 'o' :: 't' :: ' ' :: t) T ∧ ∀ ρ, T.val ρ = a.val ρ * b.val ρ := by
  obtain ⟨s1, c, s2, rfl, h1, h2⟩ := h
  obtain ⟨t1, d, t2, rfl, h3, h4⟩ := h'
  obtain ⟨T, h5, m, h6, h7⟩ := h4.shift (.mul a d)
  refine ⟨T, ⟨s1, c, _, by simp, h1, h2.append (.mul h3 h5)⟩, fun ρ => ?_⟩
  rw [h7, h6, Reading.val]; ring

theorem RProd.starts {s : Str} {T : Reading} (h : RProd s T) : Starts s := by
  obtain ⟨s1, c, s2, rfl, h1, h2⟩ := h
  exact h1.starts.append

theorem RProd.read {s : Str} {T : Reading} (h : RProd s T) (k : Nat) (rest : Str) (hk : 6 * s.length + 2 ≤ k) (hf : Fol folTerm rest) :
    texProd k (s ++ rest) = some (T, rest) := by
  obtain ⟨s1, c, s2, rfl, h1, h2⟩ := h
  obtain ⟨k, rfl⟩ : ∃ j, k = j + 1 := ⟨k - 1, by omega⟩
  simp only [List.length_append] at hk
  rw [texProd, List.append_assoc, h1.read k _ (by omega) (h2.fol hf)]
  exact h2.read k rest (by omega) hf

/-- A product, perhaps with a sign. -/
def RTerm (s : Str) (T : Reading) : Prop := RProd s T ∨ ∃ s' a, s = '-' :: s' ∧ T = .neg a ∧ RProd s' a

theorem RTerm.length {s : Str} {T : Reading} (h : RTerm s T) : 1 ≤ s.length := by
  rcases h with h | ⟨s', a, rfl, rfl, h⟩
  · exact h.starts.length
  · simp

theorem RTerm.read {s : Str} {T : Reading} (h : RTerm s T) (k : Nat) (rest : Str) (hk : 6 * s.length + 3 ≤ k) (hf : Fol folTerm rest) :
    texTerm k (s ++ rest) = some (T, rest) := by
  obtain ⟨k, rfl⟩ : ∃ j, k = j + 1 := ⟨k - 1, by omega⟩
  rw [texTerm.eq_def]
  rcases h with h | ⟨s', a, rfl, rfl, h⟩
  · have hr := h.read k rest (by omega) hf
    obtain ⟨c, r, rfl, hc⟩ := h.starts
    simp only [List.cons_append] at hr ⊢
    split
    · next heq => simp only [List.cons.injEq] at heq; exact absurd heq.1 hc
    · exact hr
  · simp only [List.length_cons] at hk
    simp only [List.cons_append]
    rw [h.read k _ (by omega) hf]

inductive Terms : Reading → Str → Reading → Prop
  | nil (a : Reading) : Terms a [] a
  | add {a b T : Reading} {s t : Str} : RTerm s b → Terms (.add a b) t T → Terms a (' ' :: '+' :: ' ' :: (s ++ t)) T
  | sub {a b T : Reading} {s t : Str} : RTerm s b → Terms (.sub a b) t T → Terms a (' ' :: '-' :: ' ' :: (s ++ t)) T

theorem Terms.append {a b T : Reading} {s t : Str} (h : Terms a s b) (h' : Terms b t T) : Terms a (s ++ t) T := by
  induction h with
  | nil a => simpa using h'
  | add h1 _ ih => simpa using Terms.add h1 (ih h')
  | sub h1 _ ih => simpa using Terms.sub h1 (ih h')

/-- The same terms after something else. -/
theorem Terms.shift {c T : Reading} {s : Str} (h : Terms c s T) : ∀ a : Reading,
    ∃ T', Terms a s T' ∧ ∀ ρ, T'.val ρ = a.val ρ + (T.val ρ - c.val ρ) := by
  induction h with
  | nil c => exact fun a => ⟨a, .nil a, by simp⟩
  | @add c b T s t h1 _ ih =>
    intro a
    obtain ⟨T', h2, h3⟩ := ih (.add a b)
    exact ⟨T', .add h1 h2, fun ρ => by rw [h3, Reading.val, Reading.val]; ring⟩
  | @sub c b T s t h1 _ ih =>
    intro a
    obtain ⟨T', h2, h3⟩ := ih (.sub a b)
    exact ⟨T', .sub h1 h2, fun ρ => by rw [h3, Reading.val, Reading.val]; ring⟩

theorem Terms.fol {a T : Reading} {s : Str} (h : Terms a s T) {rest : Str} (hf : Fol folSum rest) : Fol folTerm (s ++ rest) := by
  cases h with
  | nil => exact hf.mono (by simp)
  | add => exact .inr ⟨[' ', '+', ' '], by simp, _, rfl⟩
  | sub => exact .inr ⟨[' ', '-', ' '], by simp, _, rfl⟩

theorem Terms.read {a T : Reading} {s : Str} (h : Terms a s T) : ∀ k rest, 6 * s.length + 1 ≤ k → Fol folSum rest →
    texTerms k a (s ++ rest) = some (T, rest) := by
  induction h with
  | nil a =>
    intro k rest hk hf
    obtain ⟨k, rfl⟩ : ∃ j, k = j + 1 := ⟨k - 1, by omega⟩
    rw [texTerms.eq_def]
    simp only [List.nil_append]
    split
    · next heq =>
      exfalso
      rcases hf with h | ⟨p, hp, r', h⟩
      · cases h
      · simp only [List.mem_cons, List.not_mem_nil, or_false] at hp
        rcases hp with rfl | rfl | rfl | rfl <;> simp at h
    · next heq =>
      exfalso
      rcases hf with h | ⟨p, hp, r', h⟩
      · cases h
      · simp only [List.mem_cons, List.not_mem_nil, or_false] at hp
        rcases hp with rfl | rfl | rfl | rfl <;> simp at h
    · rfl
  | add h1 h2 ih =>
    intro k rest hk hf
    obtain ⟨k, rfl⟩ : ∃ j, k = j + 1 := ⟨k - 1, by omega⟩
    simp only [List.length_append, List.length_cons] at hk
    rw [texTerms.eq_def]
    simp only [List.cons_append, List.append_assoc]
    rw [h1.read k _ (by omega) (h2.fol hf)]
    simp only
    exact ih k rest (by omega) hf
  | sub h1 h2 ih =>
    intro k rest hk hf
    obtain ⟨k, rfl⟩ : ∃ j, k = j + 1 := ⟨k - 1, by omega⟩
    simp only [List.length_append, List.length_cons] at hk
    rw [texTerms.eq_def]
    simp only [List.cons_append, List.append_assoc]
    rw [h1.read k _ (by omega) (h2.fol hf)]
    simp only
    exact ih k rest (by omega) hf

def RSum (s : Str) (T : Reading) : Prop := ∃ s1 a s2, s = s1 ++ s2 ∧ RTerm s1 a ∧ Terms a s2 T

theorem RTerm.sum {s : Str} {T : Reading} (h : RTerm s T) : RSum s T := ⟨s, T, [], by simp, h, .nil _⟩

theorem RProd.sum {s : Str} {T : Reading} (h : RProd s T) : RSum s T := RTerm.sum (.inl h)

theorem RProd.neg {s : Str} {T : Reading} (h : RProd s T) : RSum ('-' :: s) (.neg T) := RTerm.sum (.inr ⟨s, T, rfl, rfl, h⟩)

theorem RSum.terms {s t : Str} {a T : Reading} (h : RSum s a) (h' : Terms a t T) : RSum (s ++ t) T := by
  obtain ⟨s1, b, s2, rfl, h1, h2⟩ := h
  exact ⟨s1, b, s2 ++ t, by simp, h1, h2.append h'⟩

/-- A sum after a ` + `. -/
theorem RSum.plus {s : Str} {a b : Reading} (h : RSum s b) :
    ∃ T, Terms a (' ' :: '+' :: ' ' :: s) T ∧ ∀ ρ, T.val ρ = a.val ρ + b.val ρ := by
  obtain ⟨s1, c, s2, rfl, h1, h2⟩ := h
  obtain ⟨T, h3, h4⟩ := h2.shift (.add a c)
  exact ⟨T, .add h1 h3, fun ρ => by rw [h4, Reading.val]; ring⟩

theorem RSum.length {s : Str} {T : Reading} (h : RSum s T) : 1 ≤ s.length := by
  obtain ⟨s1, b, s2, rfl, h1, h2⟩ := h
  have := h1.length; simp; omega

theorem RSum.read {s : Str} {T : Reading} (h : RSum s T) (k : Nat) (rest : Str) (hk : 6 * s.length + 4 ≤ k) (hf : Fol folSum rest) :
    texSum k (s ++ rest) = some (T, rest) := by
  obtain ⟨k, rfl⟩ : ∃ j, k = j + 1 := ⟨k - 1, by omega⟩
  obtain ⟨s1, b, s2, rfl, h1, h2⟩ := h
  simp only [List.length_append] at hk
  rw [texSum, List.append_assoc, h1.read k _ (by omega) (h2.fol hf)]
  exact h2.read k rest (by omega) hf

/-- The reader reads the text. -/
theorem RSum.whole {s : Str} {T : Reading} (h : RSum s T) : readTex s = some T := by
  unfold readTex
  have := h.read (6 * s.length + 6) [] (by omega) (.inl rfl)
  rw [List.append_nil] at this
  rw [this]

theorem RSum.paren {s : Str} {T : Reading} (h : RSum s T) : RAtom ('(' :: s ++ [')']) T := by
  refine ⟨⟨'(', s ++ [')'], rfl, by decide⟩, fun k rest hk hf => ?_⟩
  obtain ⟨k, rfl⟩ : ∃ j, k = j + 1 := ⟨k - 1, by simp at hk; omega⟩
  simp only [List.length_append, List.length_cons] at hk
  rw [texAtom.eq_def, List.append_assoc, List.cons_append]
  simp only [↓reduceIte, List.singleton_append]
  rw [h.read k _ (by omega) (Fol.cons (by simp))]
  rfl

theorem RSum.bars {s : Str} {T : Reading} (h : RSum s T) : RAtom ('|' :: s ++ ['|']) (.bars T) := by
  refine ⟨⟨'|', s ++ ['|'], rfl, by decide⟩, fun k rest hk hf => ?_⟩
  obtain ⟨k, rfl⟩ : ∃ j, k = j + 1 := ⟨k - 1, by simp at hk; omega⟩
  simp only [List.length_append, List.length_cons] at hk
  rw [texAtom.eq_def, List.append_assoc, List.cons_append]
  simp only [↓reduceIte, List.singleton_append]
  rw [if_neg (by decide), h.read k _ (by omega) (Fol.cons (by simp))]
  rfl

theorem RSum.group {s : Str} {T : Reading} (h : RSum s T) : RAtom ('{' :: s ++ ['}']) T := by
  refine ⟨⟨'{', s ++ ['}'], rfl, by decide⟩, fun k rest hk hf => ?_⟩
  obtain ⟨k, rfl⟩ : ∃ j, k = j + 1 := ⟨k - 1, by simp at hk; omega⟩
  simp only [List.length_append, List.length_cons] at hk
  rw [texAtom.eq_def, List.append_assoc, List.cons_append]
  simp only [↓reduceIte, List.singleton_append]
  rw [if_neg (by decide), if_neg (by decide), h.read k _ (by omega) (Fol.cons (by simp))]
  rfl

theorem RSum.arg {s : Str} {T : Reading} (h : RSum s T) : RArg ('{' :: s ++ ['}']) T := by
  refine ⟨⟨'{', s ++ ['}'], rfl, by decide⟩, fun k rest hk => ?_⟩
  obtain ⟨k, rfl⟩ : ∃ j, k = j + 1 := ⟨k - 1, by simp at hk; omega⟩
  simp only [List.length_append, List.length_cons] at hk
  rw [texArg.eq_def, List.append_assoc, List.cons_append]
  simp only [↓reduceIte, List.singleton_append]
  rw [h.read k _ (by omega) (Fol.cons (by simp))]
  rfl

/-- A text of one character is an atom. -/
theorem RSum.single {c : Char} {T : Reading} (h : RSum [c] T) : RAtom [c] T := by
  obtain ⟨s1, a, s2, hs, h1, h2⟩ := h
  have hl := h1.length
  have hs2 : s2 = [] := by
    have := congrArg List.length hs
    simp at this
    exact List.length_eq_zero_iff.1 (by omega)
  subst hs2
  cases h2
  rw [List.append_nil] at hs
  subst hs
  rcases h1 with h1 | ⟨s', b, hs, rfl, h1⟩
  · obtain ⟨t1, b, t2, ht, h3, h4⟩ := h1
    have hl := h3.starts.length
    have ht2 : t2 = [] := by
      have := congrArg List.length ht
      simp at this
      exact List.length_eq_zero_iff.1 (by omega)
    subst ht2
    cases h4
    rw [List.append_nil] at ht
    subst ht
    rcases h3 with h3 | ⟨u1, d, u2, f, hu, rfl, h5, h6⟩
    · exact h3
    · have := congrArg List.length hu
      have h7 := h5.1.length
      simp at this
      omega
  · have := h1.starts.length
    simp only [List.cons.injEq] at hs
    rw [← hs.2] at this
    simp at this

theorem groupStr_reads {s : Str} {T : Reading} (h : RSum s T) : RArg (groupStr s) T := by
  unfold groupStr
  by_cases hs : s.length = 1
  · rw [if_pos hs]
    obtain ⟨c, rfl⟩ := List.length_eq_one_iff.1 hs
    have ha := h.single
    refine ⟨ha.1, fun k rest hk => ?_⟩
    obtain ⟨k, rfl⟩ : ∃ j, k = j + 1 := ⟨k - 1, by omega⟩
    have hr := ha.2 k [] (by omega) (.inl rfl)
    rw [List.append_nil] at hr
    have hc : c ≠ '{' := by
      rintro rfl
      have := ha.2 20 [] (by simp) (.inl rfl)
      rw [texAtom.eq_def] at this
      simp only [List.append_nil, ↓reduceIte] at this
      rw [if_neg (by decide), if_neg (by decide), show texSum 19 [] = none by decide +kernel] at this
      cases this
    rw [texArg.eq_def]
    simp only [List.cons_append, List.nil_append]
    rw [if_neg hc, hr]
  · rw [if_neg hs]
    exact h.arg

theorem digit_ne {c d : Char} (h : c.isDigit = true) (hd : d.isDigit = false) : c ≠ d := by rintro rfl; simp_all

theorem RAtom.num (n : ℕ) : RAtom (Nat.toDigits 10 n) (.num n) := by
  have hd : ∀ c ∈ Nat.toDigits 10 n, c.isDigit = true := fun c hc => Nat.isDigit_of_mem_toDigits (by decide) (by decide) hc
  obtain ⟨c, r, hcr⟩ := List.exists_cons_of_ne_nil (Nat.toDigits_ne_nil (n := n) (b := 10))
  have hc : c.isDigit = true := hd c (by simp [hcr])
  refine ⟨⟨c, r, hcr, digit_ne hc (by decide)⟩, fun k rest hk hf => ?_⟩
  obtain ⟨k, rfl⟩ : ∃ j, k = j + 1 := ⟨k - 1, by rw [hcr] at hk; simp at hk; omega⟩
  obtain ⟨h1, h2⟩ := takeWhile_append (p := Char.isDigit) hd hf.noDigit
  rw [texAtom.eq_def]
  simp only [hcr, List.cons_append] at h1 h2 ⊢
  rw [if_neg (digit_ne hc (by decide)), if_neg (digit_ne hc (by decide)), if_neg (digit_ne hc (by decide)), if_neg (digit_ne hc (by decide)),
    if_pos hc, h1, h2, ← hcr, Nat.ofDigitChars_ten_toDigits]

theorem word_ne {c d : Char} (h : texWord c = true) (hd : texWord d = false) : c ≠ d := by rintro rfl; simp_all

theorem RAtom.word {s : Str} (hs : s ≠ []) (hw : ∀ c ∈ s, texWord c = true) (hd : (s.headD '0').isDigit = false) : RAtom s (.name s) := by
  obtain ⟨c, r, rfl⟩ := List.exists_cons_of_ne_nil hs
  have hc := hw c (by simp)
  refine ⟨⟨c, r, rfl, word_ne hc (by decide)⟩, fun k rest hk hf => ?_⟩
  obtain ⟨k, rfl⟩ : ∃ j, k = j + 1 := ⟨k - 1, by simp at hk; omega⟩
  obtain ⟨e1, e2⟩ := takeWhile_append (p := texWord) hw hf.noWord
  rw [texAtom.eq_def]
  simp only [List.cons_append, List.headD_cons] at e1 e2 hd ⊢
  rw [if_neg (word_ne hc (by decide)), if_neg (word_ne hc (by decide)), if_neg (word_ne hc (by decide)), if_neg (word_ne hc (by decide)), hd,
    if_neg (by decide), if_pos hc, e1, e2]

/-- The name of a command and what follows it. -/
theorem cmd {w t : Str} (hw : ∀ c ∈ w, c.isAlpha = true) (ht : ∀ c r, t = c :: r → c.isAlpha = false) :
    (w ++ t).takeWhile Char.isAlpha = w ∧ (w ++ t).dropWhile Char.isAlpha = t := takeWhile_append hw ht

theorem RAtom.pi : RAtom "\\pi".toList (.name "pi".toList) := by
  refine ⟨⟨_, _, rfl, by decide⟩, fun k rest hk hf => ?_⟩
  obtain ⟨k, rfl⟩ : ∃ j, k = j + 1 := ⟨k - 1, by simp at hk; omega⟩
  obtain ⟨e1, e2⟩ := cmd (w := "pi".toList) (by decide) hf.noAlpha
  rw [show "\\pi".toList ++ rest = '\\' :: ("pi".toList ++ rest) from rfl, texAtom.eq_def]
  simp only
  rw [if_neg (by decide), if_neg (by decide), if_neg (by decide), if_pos trivial, e1, e2, if_neg (by decide), if_pos rfl]

theorem RSum.leftParen {s : Str} {T : Reading} (h : RSum s T) : RAtom ("\\left".toList ++ '(' :: ' ' :: s ++ " \\right".toList ++ [')']) T := by
  refine ⟨⟨_, _, rfl, by decide⟩, fun k rest hk hf => ?_⟩
  obtain ⟨k, rfl⟩ : ∃ j, k = j + 1 := ⟨k - 1, by simp at hk; omega⟩
  simp only [List.length_append, List.length_cons] at hk
  obtain ⟨e1, e2⟩ := cmd (w := "left".toList) (t := '(' :: ' ' :: (s ++ ' ' :: '\\' :: 'r' :: 'i' :: 'g' :: 'h' :: 't' :: ')' :: rest))
    (by decide) (by rintro c r h; cases h; decide)
  rw [show "\\left".toList ++ '(' :: ' ' :: s ++ " \\right".toList ++ [')'] ++ rest =
    '\\' :: ("left".toList ++ '(' :: ' ' :: (s ++ ' ' :: '\\' :: 'r' :: 'i' :: 'g' :: 'h' :: 't' :: ')' :: rest)) by simp, texAtom.eq_def]
  simp only
  rw [if_neg (by decide), if_neg (by decide), if_neg (by decide), if_pos trivial, e1, e2, if_pos rfl]
  simp only
  rw [h.read k _ (by omega) Fol.right]
  simp

theorem RSum.leftBars {s : Str} {T : Reading} (h : RSum s T) :
    RAtom ("\\left".toList ++ '|' :: ' ' :: s ++ " \\right".toList ++ ['|']) (.bars T) := by
  refine ⟨⟨_, _, rfl, by decide⟩, fun k rest hk hf => ?_⟩
  obtain ⟨k, rfl⟩ : ∃ j, k = j + 1 := ⟨k - 1, by simp at hk; omega⟩
  simp only [List.length_append, List.length_cons] at hk
  obtain ⟨e1, e2⟩ := cmd (w := "left".toList) (t := '|' :: ' ' :: (s ++ ' ' :: '\\' :: 'r' :: 'i' :: 'g' :: 'h' :: 't' :: '|' :: rest))
    (by decide) (by rintro c r h; cases h; decide)
  rw [show "\\left".toList ++ '|' :: ' ' :: s ++ " \\right".toList ++ ['|'] ++ rest =
    '\\' :: ("left".toList ++ '|' :: ' ' :: (s ++ ' ' :: '\\' :: 'r' :: 'i' :: 'g' :: 'h' :: 't' :: '|' :: rest)) by simp, texAtom.eq_def]
  simp only
  rw [if_neg (by decide), if_neg (by decide), if_neg (by decide), if_pos trivial, e1, e2, if_pos rfl]
  simp only
  rw [h.read k _ (by omega) Fol.right]
  simp

theorem RAtom.frac {s t : Str} {a b : Reading} (h : RArg s a) (h' : RArg t b) : RAtom ("\\frac ".toList ++ s ++ t) (.div a b) := by
  refine ⟨⟨_, _, rfl, by decide⟩, fun k rest hk hf => ?_⟩
  obtain ⟨k, rfl⟩ : ∃ j, k = j + 1 := ⟨k - 1, by simp at hk; omega⟩
  simp only [List.length_append, show "\\frac ".toList.length = 6 from rfl] at hk
  obtain ⟨e1, e2⟩ := cmd (w := "frac".toList) (t := ' ' :: (s ++ (t ++ rest))) (by decide) (by rintro c r h; cases h; decide)
  rw [show "\\frac ".toList ++ s ++ t ++ rest = '\\' :: ("frac".toList ++ ' ' :: (s ++ (t ++ rest))) by simp, texAtom.eq_def]
  simp only
  rw [if_neg (by decide), if_neg (by decide), if_neg (by decide), if_pos trivial, e1, e2, if_neg (by decide), if_neg (by decide), if_pos rfl]
  simp only
  rw [h.2 k _ (by omega)]
  simp only
  rw [h'.2 k _ (by omega)]

theorem RAtom.sqrt {s : Str} {a : Reading} (h : RSum s a) : RAtom ("\\sqrt{".toList ++ s ++ ['}']) (.fn "sqrt".toList a) := by
  refine ⟨⟨_, _, rfl, by decide⟩, fun k rest hk hf => ?_⟩
  obtain ⟨k, rfl⟩ : ∃ j, k = j + 1 := ⟨k - 1, by simp at hk; omega⟩
  simp only [List.length_append, show "\\sqrt{".toList.length = 6 from rfl, List.length_cons] at hk
  obtain ⟨e1, e2⟩ := cmd (w := "sqrt".toList) (t := '{' :: s ++ ['}'] ++ rest) (by decide) (by rintro c r h; cases h; decide)
  rw [show "\\sqrt{".toList ++ s ++ ['}'] ++ rest = '\\' :: ("sqrt".toList ++ ('{' :: s ++ ['}'] ++ rest)) by simp, texAtom.eq_def]
  simp only
  rw [if_neg (by decide), if_neg (by decide), if_neg (by decide), if_pos trivial, e1, e2, if_neg (by decide), if_neg (by decide),
    if_neg (by decide), if_pos rfl, h.arg.2 k _ (by simp; omega)]

theorem RAtom.log {s t : Str} {a b : Reading} (hb : RSum t b) (h : RAtom s a) :
    RAtom ("\\log_{".toList ++ t ++ "} ".toList ++ s) (.logBase b a) := by
  refine ⟨⟨_, _, rfl, by decide⟩, fun k rest hk hf => ?_⟩
  obtain ⟨k, rfl⟩ : ∃ j, k = j + 1 := ⟨k - 1, by simp at hk; omega⟩
  simp only [List.length_append, show "\\log_{".toList.length = 6 from rfl, show "} ".toList.length = 2 from rfl] at hk
  obtain ⟨e1, e2⟩ := cmd (w := "log".toList) (t := '_' :: ('{' :: t ++ ['}'] ++ ' ' :: (s ++ rest))) (by decide)
    (by rintro c r h; cases h; decide)
  rw [show "\\log_{".toList ++ t ++ "} ".toList ++ s ++ rest =
    '\\' :: ("log".toList ++ '_' :: ('{' :: t ++ ['}'] ++ ' ' :: (s ++ rest))) by simp, texAtom.eq_def]
  simp only
  rw [if_neg (by decide), if_neg (by decide), if_neg (by decide), if_pos trivial, e1, e2, if_neg (by decide), if_neg (by decide),
    if_neg (by decide), if_neg (by decide), if_pos rfl]
  simp only
  rw [hb.arg.2 k _ (by simp; omega)]
  simp only
  rw [h.2 k _ (by omega) hf]

theorem RAtom.fn {f s : Str} {a : Reading} (hf : f ∈ texFns) (h : RAtom s a) : RAtom ('\\' :: f ++ ' ' :: s) (.fn f a) := by
  refine ⟨⟨_, _, rfl, by decide⟩, fun k rest hk hfo => ?_⟩
  obtain ⟨k, rfl⟩ : ∃ j, k = j + 1 := ⟨k - 1, by simp at hk; omega⟩
  simp only [List.length_append, List.length_cons] at hk
  have hw : (∀ c ∈ f, c.isAlpha = true) ∧ f ≠ "left".toList ∧ f ≠ "pi".toList ∧ f ≠ "frac".toList ∧ f ≠ "sqrt".toList ∧ f ≠ "log".toList :=
    (by decide : ∀ f ∈ texFns, (∀ c ∈ f, c.isAlpha = true) ∧ f ≠ "left".toList ∧ f ≠ "pi".toList ∧ f ≠ "frac".toList ∧ f ≠ "sqrt".toList ∧
      f ≠ "log".toList) f hf
  obtain ⟨e1, e2⟩ := cmd (w := f) (t := ' ' :: (s ++ rest)) hw.1 (by rintro c r h; cases h; decide)
  rw [show '\\' :: f ++ ' ' :: s ++ rest = '\\' :: (f ++ ' ' :: (s ++ rest)) by simp, texAtom.eq_def]
  simp only
  rw [if_neg (by decide), if_neg (by decide), if_neg (by decide), if_pos trivial, e1, e2, if_neg hw.2.1, if_neg hw.2.2.1,
    if_neg hw.2.2.2.1, if_neg hw.2.2.2.2.1, if_neg hw.2.2.2.2.2, if_pos hf]
  simp only
  rw [h.2 k _ (by omega) hfo]

theorem RAtom.inv {f s : Str} {a : Reading} (hf : f ∈ texInv) (h : RAtom s a) :
    RAtom ('\\' :: f ++ "^{-1} ".toList ++ s) (.fn ('a' :: f) a) := by
  refine ⟨⟨_, _, rfl, by decide⟩, fun k rest hk hfo => ?_⟩
  obtain ⟨k, rfl⟩ : ∃ j, k = j + 1 := ⟨k - 1, by simp at hk; omega⟩
  simp only [List.length_append, List.length_cons] at hk
  have hw : (∀ c ∈ f, c.isAlpha = true) ∧ f ≠ "left".toList ∧ f ≠ "pi".toList ∧ f ≠ "frac".toList ∧ f ≠ "sqrt".toList ∧ f ≠ "log".toList ∧
      f ∈ texFns :=
    (by decide : ∀ f ∈ texInv, (∀ c ∈ f, c.isAlpha = true) ∧ f ≠ "left".toList ∧ f ≠ "pi".toList ∧ f ≠ "frac".toList ∧ f ≠ "sqrt".toList ∧
      f ≠ "log".toList ∧ f ∈ texFns) f hf
  obtain ⟨e1, e2⟩ := cmd (w := f) (t := '^' :: '{' :: '-' :: '1' :: '}' :: ' ' :: (s ++ rest)) hw.1 (by rintro c r h; cases h; decide)
  rw [show '\\' :: f ++ "^{-1} ".toList ++ s ++ rest = '\\' :: (f ++ '^' :: '{' :: '-' :: '1' :: '}' :: ' ' :: (s ++ rest)) by simp,
    texAtom.eq_def]
  simp only
  rw [if_neg (by decide), if_neg (by decide), if_neg (by decide), if_pos trivial, e1, e2, if_neg hw.2.1, if_neg hw.2.2.1,
    if_neg hw.2.2.2.1, if_neg hw.2.2.2.2.1, if_neg hw.2.2.2.2.2.1, if_pos hw.2.2.2.2.2.2]
  simp only
  rw [if_pos hf, h.2 k _ (by omega) hfo]

theorem bracketfy_reads {e : Expr} {s : Str} {T : Reading} (h : RSum s T) : RAtom (bracketfy '(' ')' e s) T := by
  unfold bracketfy
  split
  · exact h.leftParen
  · exact h.paren

theorem bars_reads {e : Expr} {s : Str} {T : Reading} (h : RSum s T) : RAtom (bracketfy '|' '|' e s) (.bars T) := by
  unfold bracketfy
  split
  · exact h.leftBars
  · exact h.bars

end Simpy.Tex
