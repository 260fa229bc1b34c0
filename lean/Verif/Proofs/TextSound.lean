import Verif.Model.Latex
import Verif.Spec.Text
import Verif.Proofs.AdmExpand

/-! Proofs about `repr` and `latex`. -/

namespace Simpy
open Expr

variable {O : Oracle}

theorem namesNestedL_iff : ∀ {ts : List Expr}, NamesNestedL ts ↔ ∀ t ∈ ts, NamesNested t
  | [] => by simp [NamesNestedL]
  | t :: r => by simp [NamesNestedL, namesNestedL_iff (ts := r)]

theorem closed_names : Closed NamesNested where
  acc := by intro c hc; cases c <;> simp_all [isAcc, NamesNested]
  sum := by intro ts; rw [NamesNested, namesNestedL_iff]
  prod := by intro ts; rw [NamesNested, namesNestedL_iff]
  pow := by intro b x; rw [NamesNested]
  x := .inl rfl
  absv := by intro i; rw [NamesNested]
  log := by intro i b h; rwa [NamesNested] at h
  trig := by intro f i h; rwa [NamesNested] at h

theorem adm_names (O : Oracle) : Adm O NamesNested :=
  closed_names.adm O (by simp [NamesNested]) (fun _ _ a b => by rw [NamesNested]; exact ⟨a, b⟩) (fun _ _ a => by rw [NamesNested]; exact a)

theorem kid_names {e : Expr} (h : Kid NamesNested e) : NamesNested e := by
  cases e with
  | prod ts => rw [NamesNested, namesNestedL_iff]; exact h
  | _ => exact h

theorem Nested.plain : ∀ {s : Str}, (∀ c ∈ s, isBracket c = false) → Nested s
  | [], _ => .nil
  | c :: r, h => Nested.append (.char (h c (by simp))) (Nested.plain fun d hd => h d (by simp [hd]))

theorem Nested.cons {c : Char} {s : Str} (hc : isBracket c = false) (h : Nested s) : Nested (c :: s) := .append (.char hc) h

theorem Nested.lit {s : Str} (h : s.all (fun c => !isBracket c) = true) : Nested s :=
  Nested.plain fun c hc => by simpa using List.all_eq_true.1 h c hc

theorem isBracket_digit {c : Char} (h : c.isDigit = true) : isBracket c = false := by
  unfold isBracket
  by_contra hb
  simp only [Bool.not_eq_false, Bool.or_eq_true, decide_eq_true_eq] at hb
  rcases hb with ((rfl | rfl) | rfl) | rfl <;> exact absurd h (by decide)

theorem intStr_nested (z : ℤ) : Nested (intStr z) := by
  have nat : ∀ n : ℕ, Nested (toString n).toList := by
    intro n
    refine Nested.plain fun c hc => isBracket_digit ?_
    have e : (toString n).toList = Nat.toDigits 10 n := by
      show (Nat.repr n).toList = _
      simp [Nat.repr]
    rw [e] at hc
    exact Nat.isDigit_of_mem_toDigits (by decide) (by decide) hc
  unfold intStr
  cases z with
  | ofNat n => exact nat n
  | negSucc n =>
    have : (toString (Int.negSucc n)).toList = '-' :: (toString (n + 1)).toList := by
      show (("-" ++ Nat.repr (n + 1) : String)).toList = _
      simp
    rw [this]
    exact Nested.cons (by decide) (nat _)

theorem ratStr_nested (q : ℚ) : Nested (ratStr q) := by
  unfold ratStr
  split
  · exact intStr_nested _
  · exact .append (intStr_nested _) (Nested.cons (by decide) (intStr_nested _))

theorem joinStr_nested {sep : Str} (hs : Nested sep) : ∀ {ss : List Str}, (∀ s ∈ ss, Nested s) → Nested (joinStr sep ss)
  | [], _ => .nil
  | [a], h => h a (by simp)
  | a :: b :: r, h => .append (.append (h a (by simp)) hs) (joinStr_nested hs fun s m => h s (by simp at m ⊢; tauto))

theorem wrapRepr_nested {s l r : Str} (hs : Nested s) (hl : Nested l) (h : wrapRepr s l = .ok r) : Nested r := by
  unfold wrapRepr at h
  split at h
  · cases h
  · split at h
    · cases h; exact .append hl hs
    · cases h; exact .append hl (.paren hs)

theorem wrapped {b : Bool} {s : Str} (hs : Nested s) : Nested (if b then parens s else s) := by
  split
  · exact .paren hs
  · exact hs

/-- What `repr` needs from the level below. -/
structure ReprOk (C : Ctors) : Prop where
  repr : ∀ {e : Expr} {s : Str}, NamesNested e → C.repr e = .ok s → Nested s

theorem prodTermRepr_nested {C : Ctors} (hC : ReprOk C) {t : Expr} {s : Str} (ht : NamesNested t)
    (h : prodTermRepr C t = .ok s) : Nested s := by
  unfold prodTermRepr at h
  obtain ⟨u, hu, h⟩ := bind_ok.1 h
  rw [← pure_ok.1 h]
  exact wrapped (hC.repr ht hu)

theorem powTermRepr_nested {C : Ctors} (hC : ReprOk C) {t : Expr} {s : Str} (ht : NamesNested t)
    (h : powTermRepr C t = .ok s) : Nested s := by
  unfold powTermRepr at h
  obtain ⟨u, hu, h⟩ := bind_ok.1 h
  rw [← pure_ok.1 h]
  exact wrapped (hC.repr ht hu)

theorem sumReprRest_nested {n : Nat} (hC : ReprOk (ctors O n)) : ∀ {ts : List Expr} {s : Str}, (∀ t ∈ ts, NamesNested t) →
    sumReprRest (ctors O n) ts = .ok s → Nested s
  | [], s, _, h => by cases h; exact .nil
  | t :: r, s, ht, h => by
    rw [sumReprRest] at h
    split at h
    · obtain ⟨nt, h1, h⟩ := bind_ok.1 h
      obtain ⟨u, h2, h⟩ := bind_ok.1 h
      obtain ⟨rest, h3, h⟩ := bind_ok.1 h
      rw [← pure_ok.1 h]
      exact .append (.append (Nested.lit (by decide)) (hC.repr ((adm_names O).toAdmE.opNeg (ht t (by simp)) h1) h2))
        (sumReprRest_nested hC (fun t m => ht t (by simp [m])) h3)
    · obtain ⟨u, h2, h⟩ := bind_ok.1 h
      obtain ⟨rest, h3, h⟩ := bind_ok.1 h
      rw [← pure_ok.1 h]
      exact .append (.append (Nested.lit (by decide)) (hC.repr (ht t (by simp)) h2))
        (sumReprRest_nested hC (fun t m => ht t (by simp [m])) h3)

theorem prodRepr_nested {n : Nat} (hC : ReprOk (ctors O n)) {ts : List Expr} {s : Str} (ht : ∀ t ∈ ts, NamesNested t)
    (h : prodRepr O (ctors O n) ts = .ok s) : Nested s := by
  have hE := (adm_names O).toAdmE
  unfold prodRepr at h
  split at h
  · obtain ⟨np, h1, h⟩ := bind_ok.1 h
    have hn : NamesNested np := (hE.pres n).prod _ _ (by
      intro t m
      simp only [List.mem_cons, List.not_mem_nil, or_false] at m
      rcases m with rfl | rfl
      · rw [NamesNested, namesNestedL_iff]; exact ht
      · simp [NamesNested]) h1
    split at h
    · obtain ⟨u, h2, h⟩ := bind_ok.1 h
      rw [← pure_ok.1 h]
      exact Nested.cons (by decide) (prodTermRepr_nested hC hn h2)
    · split at h
      · cases h
      · obtain ⟨u, h2, h⟩ := bind_ok.1 h
        rw [← pure_ok.1 h]
        exact Nested.cons (by decide) (hC.repr hn h2)
  · obtain ⟨⟨a, b⟩, h1, h⟩ := bind_ok.1 h
    obtain ⟨qa, qb⟩ := hE.numDen ht h1
    dsimp only at h
    split at h
    · have key : ∀ {sn sd : Str}, Nested sn → Nested sd → Nested (sn ++ '/' :: sd) := fun p q =>
        .append p (Nested.cons (by decide) q)
      have top : ∀ {sn : Str}, Nested sn → ((if b.isProd = true then (do let s ← (ctors O n).repr b; pure (parens s))
          else prodTermRepr (ctors O n) b) >>= fun sd => pure (sn ++ '/' :: sd)) = Except.ok s → Nested s := by
        intro sn hn h
        obtain ⟨sd, h2, h⟩ := bind_ok.1 h
        rw [← pure_ok.1 h]
        refine key hn ?_
        split at h2
        · obtain ⟨u, h3, h2⟩ := bind_ok.1 h2
          rw [← pure_ok.1 h2]
          exact .paren (hC.repr (kid_names qb) h3)
        · exact prodTermRepr_nested hC (kid_names qb) h2
      have fin : ∀ {sn : Str}, Nested sn → (if b.isProd = true then (do
            let sd ← (do let s ← (ctors O n).repr b; pure (parens s))
            pure (sn ++ '/' :: sd))
          else (do let sd ← prodTermRepr (ctors O n) b; pure (sn ++ '/' :: sd))) = Except.ok s → Nested s := by
        intro sn hn h
        refine top hn ?_
        rw [← h]
        cases b.isProd <;> rfl
      split at h
      · obtain ⟨sn, h2, h⟩ := bind_ok.1 h
        exact fin (hC.repr (kid_names qa) h2) h
      · obtain ⟨sn, h2, h⟩ := bind_ok.1 h
        exact fin (prodTermRepr_nested hC (kid_names qa) h2) h
    · obtain ⟨ss, h2, h⟩ := bind_ok.1 h
      rw [← pure_ok.1 h]
      exact joinStr_nested (Nested.lit (by decide)) (mapR_mem h2 fun t m u hu => prodTermRepr_nested hC (ht t m) hu)

theorem powRepr_nested {n : Nat} (hC : ReprOk (ctors O n)) {b x : Expr} {s : Str} (hb : NamesNested b) (hx : NamesNested x)
    (h : powRepr O (ctors O n) b x = .ok s) : Nested s := by
  have hE := (adm_names O).toAdmE
  unfold powRepr at h
  split at h
  · obtain ⟨u, h1, h⟩ := bind_ok.1 h
    rw [← pure_ok.1 h]
    exact Nested.cons (by decide) (Nested.cons (by decide) (powTermRepr_nested hC hb h1))
  · split at h
    · obtain ⟨nx, h1, h⟩ := bind_ok.1 h
      obtain ⟨p, h2, h⟩ := bind_ok.1 h
      obtain ⟨u, h3, h⟩ := bind_ok.1 h
      rw [← pure_ok.1 h]
      exact Nested.cons (by decide) (Nested.cons (by decide) (hC.repr ((hE.pres n).pow _ _ _ hb (hE.opNeg hx h1) h2) h3))
    · split at h
      · obtain ⟨u, h1, h⟩ := bind_ok.1 h
        exact wrapRepr_nested (hC.repr hb h1) (Nested.lit (by decide)) h
      · obtain ⟨u, h1, h⟩ := bind_ok.1 h
        obtain ⟨w, h2, h⟩ := bind_ok.1 h
        rw [← pure_ok.1 h]
        exact .append (powTermRepr_nested hC hb h1) (Nested.cons (by decide) (powTermRepr_nested hC hx h2))

theorem logLabel_nested {C : Ctors} (hC : ReprOk C) {b : Expr} {s : Str} (hb : NamesNested b) (h : logLabel O C b = .ok s) :
    Nested s := by
  have gen : (do let s ← C.repr b; return "log[base=".toList ++ s ++ [']'] : R Str) = .ok s → Nested s := by
    intro h
    obtain ⟨u, h1, h⟩ := bind_ok.1 h
    rw [← pure_ok.1 h]
    exact .append (.append (Nested.lit (by decide)) (hC.repr hb h1)) (Nested.lit (by decide))
  unfold logLabel at h
  split at h
  · cases h; exact Nested.lit (by decide)
  · split at h
    · split at h
      · cases h
      · exact gen h
    · exact gen h

theorem label_nested (f : TrigFn) : Nested f.label := by cases f <;> exact Nested.lit (by decide)
theorem func_nested (f : TrigFn) : Nested f.func := by cases f <;> exact Nested.lit (by decide)

theorem repr_nested (hf : ∀ q, Nested (O.frepr q)) : ∀ n, ReprOk (ctors O n)
  | 0 => ⟨fun _ h => by cases h⟩
  | n + 1 => ⟨fun {e s} he h => by
    have hC := repr_nested hf n
    change reprOf O (ctors O n) e = .ok s at h
    unfold reprOf at h
    split at h
    · cases h; exact ratStr_nested _
    · cases h; exact Nested.lit (by decide)
    · cases h; exact hf _
    · cases h; exact Nested.lit (by decide)
    · cases h; exact Nested.lit (by decide)
    · cases h; exact Nested.lit (by decide)
    · cases h; exact Nested.lit (by decide)
    · cases h; rwa [NamesNested] at he
    · cases h
      rw [NamesNested] at he
      exact Nested.append (s := ['a', 'n', 'y', '_']) (Nested.lit (by decide)) he
    · have ht := closed_names.sum.1 he
      unfold sumRepr at h
      split at h
      · cases h; exact .nil
      · obtain ⟨u, h1, h⟩ := bind_ok.1 h
        obtain ⟨rest, h2, h⟩ := bind_ok.1 h
        rw [← pure_ok.1 h]
        exact .append (hC.repr (ht _ (by simp)) h1) (sumReprRest_nested hC (fun t m => ht t (by simp [m])) h2)
    · exact prodRepr_nested hC (closed_names.prod.1 he) h
    · exact powRepr_nested hC (closed_names.pow.1 he).1 (closed_names.pow.1 he).2 h
    · obtain ⟨u, h1, h⟩ := bind_ok.1 h
      obtain ⟨l, h2, h⟩ := bind_ok.1 h
      have hl := closed_names.log he
      exact wrapRepr_nested (hC.repr hl.1 h1) (logLabel_nested hC hl.2 h2) h
    · obtain ⟨u, h1, h⟩ := bind_ok.1 h
      exact wrapRepr_nested (hC.repr (closed_names.trig he) h1) (label_nested _) h
    · obtain ⟨u, h1, h⟩ := bind_ok.1 h
      rw [← pure_ok.1 h]
      exact Nested.cons (by decide) (.append (hC.repr (closed_names.absv.1 he) h1) (Nested.lit (by decide)))⟩

/-! ## LaTeX -/

theorem bracketfy_paren {e : Expr} {s : Str} (h : Nested s) : Nested (bracketfy '(' ')' e s) := by
  unfold bracketfy
  split
  · have : "\\left".toList ++ '(' :: ' ' :: s ++ " \\right".toList ++ [')'] =
        "\\left".toList ++ ('(' :: (' ' :: s ++ " \\right".toList) ++ [')']) := by simp
    rw [this]
    exact .append (Nested.lit (by decide)) (.paren (.append (Nested.cons (by decide) h) (Nested.lit (by decide))))
  · exact .paren h

theorem bracketfy_bar {e : Expr} {s : Str} (h : Nested s) : Nested (bracketfy '|' '|' e s) := by
  unfold bracketfy
  split
  · exact .append (.append (.append (Nested.lit (by decide)) (Nested.cons (by decide) (Nested.cons (by decide) h)))
      (Nested.lit (by decide))) (Nested.lit (by decide))
  · exact Nested.cons (by decide) (.append h (Nested.lit (by decide)))

theorem groupStr_nested {s : Str} (h : Nested s) : Nested (groupStr s) := by
  unfold groupStr
  split
  · exact h
  · exact .brace h

/-- What `latex` needs from the level below. -/
def LatexOk (L : Expr → R Str) : Prop := ∀ {e : Expr} {s : Str}, NamesNested e → L e = .ok s → Nested s

theorem prodTermLatex_nested {L : Expr → R Str} (hL : LatexOk L) {t : Expr} {s : Str} (ht : NamesNested t)
    (h : prodTermLatex L t = .ok s) : Nested s := by
  unfold prodTermLatex at h
  obtain ⟨u, hu, h⟩ := bind_ok.1 h
  rw [← pure_ok.1 h]
  split
  · exact bracketfy_paren (hL ht hu)
  · exact hL ht hu

theorem baseLatex_nested {L : Expr → R Str} (hL : LatexOk L) {t : Expr} {s : Str} (ht : NamesNested t)
    (h : baseLatex L t = .ok s) : Nested s := by
  unfold baseLatex at h
  obtain ⟨u, hu, h⟩ := bind_ok.1 h
  rw [← pure_ok.1 h]
  split
  · exact bracketfy_paren (hL ht hu)
  · exact hL ht hu

theorem sumLatexRest_nested {n : Nat} {L : Expr → R Str} (hL : LatexOk L) : ∀ {ts : List Expr} {s : Str},
    (∀ t ∈ ts, NamesNested t) → sumLatexRest (ctors O n) L ts = .ok s → Nested s
  | [], s, _, h => by cases h; exact .nil
  | t :: r, s, ht, h => by
    rw [sumLatexRest] at h
    split at h
    · obtain ⟨nt, h1, h⟩ := bind_ok.1 h
      obtain ⟨u, h2, h⟩ := bind_ok.1 h
      obtain ⟨rest, h3, h⟩ := bind_ok.1 h
      rw [← pure_ok.1 h]
      exact .append (.append (Nested.lit (by decide)) (hL ((adm_names O).toAdmE.opNeg (ht t (by simp)) h1) h2))
        (sumLatexRest_nested hL (fun t m => ht t (by simp [m])) h3)
    · obtain ⟨u, h2, h⟩ := bind_ok.1 h
      obtain ⟨rest, h3, h⟩ := bind_ok.1 h
      rw [← pure_ok.1 h]
      exact .append (.append (Nested.lit (by decide)) (hL (ht t (by simp)) h2))
        (sumLatexRest_nested hL (fun t m => ht t (by simp [m])) h3)

theorem prodLatex_nested {n : Nat} {L : Expr → R Str} (hL : LatexOk L) {ts : List Expr} {s : Str} (ht : ∀ t ∈ ts, NamesNested t)
    (h : prodLatex O (ctors O n) L ts = .ok s) : Nested s := by
  have hE := (adm_names O).toAdmE
  unfold prodLatex at h
  split at h
  · obtain ⟨np, h1, h⟩ := bind_ok.1 h
    have hn : NamesNested np := hE.opMul (closed_names.prod.2 ht) (hE.rat _) h1
    split at h
    · obtain ⟨u, h2, h⟩ := bind_ok.1 h
      rw [← pure_ok.1 h]
      exact Nested.cons (by decide) (prodTermLatex_nested hL hn h2)
    · obtain ⟨u, h2, h⟩ := bind_ok.1 h
      rw [← pure_ok.1 h]
      exact Nested.cons (by decide) (hL hn h2)
  · obtain ⟨⟨a, b⟩, h1, h⟩ := bind_ok.1 h
    obtain ⟨qa, qb⟩ := hE.numDen ht h1
    dsimp only at h
    split at h
    · obtain ⟨sn, h2, h⟩ := bind_ok.1 h
      obtain ⟨sd, h3, h⟩ := bind_ok.1 h
      rw [← pure_ok.1 h]
      exact .append (.append (Nested.lit (by decide)) (groupStr_nested (hL (kid_names qa) h2)))
        (groupStr_nested (hL (kid_names qb) h3))
    · obtain ⟨ss, h2, h⟩ := bind_ok.1 h
      rw [← pure_ok.1 h]
      exact joinStr_nested (Nested.lit (by decide)) (mapR_mem h2 fun t m u hu => prodTermLatex_nested hL (ht t m) hu)

theorem powLatex_nested {L : Expr → R Str} (hL : LatexOk L) {b x : Expr} {s : Str} (hb : NamesNested b) (hx : NamesNested x)
    (h : powLatex O L b x = .ok s) : Nested s := by
  have root : ∀ {s : Str}, Nested s → Nested ("\\sqrt{".toList ++ s ++ ['}']) := by
    intro s hs
    have : "\\sqrt{".toList ++ s ++ ['}'] = "\\sqrt".toList ++ ('{' :: s ++ ['}']) := by simp
    rw [this]
    exact .append (Nested.lit (by decide)) (.brace hs)
  unfold powLatex at h
  split at h
  · obtain ⟨u, h1, h⟩ := bind_ok.1 h
    rw [← pure_ok.1 h]
    exact root (hL hb h1)
  · split at h
    · obtain ⟨u, h1, h⟩ := bind_ok.1 h
      rw [← pure_ok.1 h]
      have : "{\\sqrt{".toList ++ u ++ ['}'] ++ "}^{-1}".toList =
          ('{' :: ("\\sqrt{".toList ++ u ++ ['}']) ++ ['}']) ++ (['^'] ++ ('{' :: ['-', '1'] ++ ['}'])) := by simp
      rw [this]
      exact .append (.brace (root (hL hb h1))) (.append (Nested.lit (by decide)) (.brace (Nested.lit (by decide))))
    · obtain ⟨u, h1, h⟩ := bind_ok.1 h
      obtain ⟨w, h2, h⟩ := bind_ok.1 h
      rw [← pure_ok.1 h]
      exact .append (baseLatex_nested hL hb h1) (Nested.cons (by decide) (groupStr_nested (hL hx h2)))

theorem latex_nested (hf : ∀ q, Nested (O.frepr q)) : ∀ n {e : Expr} {s : Str}, NamesNested e → latexE O n e = .ok s → Nested s
  | 0, _, _, _, h => by cases h
  | n + 1, e, s, he, h => by
    have hL : LatexOk (latexE O n) := latex_nested hf n
    unfold latexE at h
    split at h
    · cases h
      split
      · exact intStr_nested _
      · exact .append (.append (Nested.lit (by decide)) (groupStr_nested (intStr_nested _))) (groupStr_nested (intStr_nested _))
    · cases h
    · cases h; exact hf _
    · cases h; exact Nested.lit (by decide)
    · cases h; exact Nested.lit (by decide)
    · cases h; exact Nested.lit (by decide)
    · cases h; exact Nested.lit (by decide)
    · cases h; rwa [NamesNested] at he
    · cases h
    · have ht := closed_names.sum.1 he
      unfold sumLatex at h
      split at h
      · cases h; exact .nil
      · obtain ⟨u, h1, h⟩ := bind_ok.1 h
        obtain ⟨rest, h2, h⟩ := bind_ok.1 h
        rw [← pure_ok.1 h]
        exact .append (hL (ht _ (by simp)) h1) (sumLatexRest_nested hL (fun t m => ht t (by simp [m])) h2)
    · exact prodLatex_nested hL (closed_names.prod.1 he) h
    · exact powLatex_nested hL (closed_names.pow.1 he).1 (closed_names.pow.1 he).2 h
    · have hl := closed_names.log he
      split at h
      · obtain ⟨u, h1, h⟩ := bind_ok.1 h
        rw [← pure_ok.1 h]
        exact .append (Nested.lit (by decide)) (bracketfy_paren (hL hl.1 h1))
      · obtain ⟨w, h0, h⟩ := bind_ok.1 h
        obtain ⟨u, h1, h⟩ := bind_ok.1 h
        rw [← pure_ok.1 h]
        have : "\\log_{".toList ++ w ++ "} ".toList = "\\log_".toList ++ ('{' :: w ++ ['}']) ++ [' '] := by simp
        rw [this]
        exact .append (.append (.append (Nested.lit (by decide)) (.brace (hL hl.2 h0))) (Nested.lit (by decide)))
          (bracketfy_paren (hL hl.1 h1))
    · rename_i f i
      obtain ⟨u, h1, h⟩ := bind_ok.1 h
      rw [← pure_ok.1 h]
      have hu := bracketfy_paren (e := i) (hL (closed_names.trig he) h1)
      split
      · refine Nested.cons (by decide) (.append (.append (func_nested _) ?_) hu)
        have : "^{-1} ".toList = ['^'] ++ ('{' :: ['-', '1'] ++ ['}']) ++ [' '] := by simp
        rw [this]
        exact .append (.append (Nested.lit (by decide)) (.brace (Nested.lit (by decide)))) (Nested.lit (by decide))
      · exact Nested.cons (by decide) (.append (func_nested _) (Nested.cons (by decide) hu))
    · obtain ⟨u, h1, h⟩ := bind_ok.1 h
      rw [← pure_ok.1 h]
      exact bracketfy_bar (hL (closed_names.absv.1 he) h1)

end Simpy
