import Verif.Model.Calculus
import Verif.Proofs.Basic

/-!
More stack cannot change a result: if a call returns with `n` levels left then it returns the same value with more.
-/

namespace Simpy
open Expr

/-- `y` returns at least whenever `x` does, and the same value. -/
def RLe {α : Type} (x y : R α) : Prop := ∀ a, x = .ok a → y = .ok a

theorem RLe.refl {α : Type} (x : R α) : RLe x x := fun _ h => h
theorem RLe.trans {α : Type} {x y z : R α} (h : RLe x y) (k : RLe y z) : RLe x z := fun a ha => k a (h a ha)
theorem RLe.error {α : Type} {e : Err} {y : R α} : RLe (.error e) y := fun a h => by simp at h

theorem RLe.bind {α β : Type} {x y : R α} {f g : α → R β} (h : RLe x y) (k : ∀ a, RLe (f a) (g a)) :
    RLe (x >>= f) (y >>= g) := by
  intro b hb
  obtain ⟨a, ha, hb⟩ := bind_ok.1 hb
  exact bind_ok.2 ⟨a, h a ha, k a b hb⟩

theorem RLe.cases {α : Type} {x y : R α} (h : RLe x y) : (∃ e, x = .error e) ∨ ∃ a, x = .ok a ∧ y = .ok a := by
  cases x with
  | error e => exact .inl ⟨e, rfl⟩
  | ok a => exact .inr ⟨a, rfl, h a rfl⟩

theorem RLe.ite {α : Type} {c : Prop} [Decidable c] {x y x' y' : R α} (h : RLe x x') (k : RLe y y') :
    RLe (if c then x else y) (if c then x' else y') := by
  split <;> assumption

theorem RLe.mapR {α β : Type} {f g : α → R β} (h : ∀ a, RLe (f a) (g a)) : ∀ l, RLe (mapR f l) (mapR g l)
  | [] => RLe.refl _
  | a :: r => by
    intro m hm
    rw [mapR_ok] at hm ⊢
    exact hm.imp fun a b hab => h a b hab

/-- Every entry point of `D` extends that of `C`. -/
structure CLe (C D : Ctors) : Prop where
  sum : ∀ ts, RLe (C.sum ts) (D.sum ts)
  prod : ∀ ts, RLe (C.prod ts) (D.prod ts)
  pow : ∀ b x, RLe (C.pow b x) (D.pow b x)
  abs : ∀ i, RLe (C.abs i) (D.abs i)
  repr : ∀ e, RLe (C.repr e) (D.repr e)

section
variable {O : Oracle} {C D : Ctors} (h : CLe C D)
include h

theorem opAdd_le (a b : Expr) : RLe (opAdd C a b) (opAdd D a b) := by
  unfold opAdd; split
  · exact .refl _
  · exact h.sum _
theorem opMul_le (a b : Expr) : RLe (opMul C a b) (opMul D a b) := by
  unfold opMul; split
  · exact .refl _
  · exact h.prod _
theorem opSub_le (a b : Expr) : RLe (opSub C a b) (opSub D a b) := by
  unfold opSub; split
  · exact .refl _
  · exact .bind (opMul_le h _ _) fun m => opAdd_le h _ _
theorem opDiv_le (a b : Expr) : RLe (opDiv C a b) (opDiv D a b) := by
  unfold opDiv; split
  · split
    · exact .refl _
    · exact .bind (h.pow _ _) fun m => h.prod _
  · exact .bind (h.pow _ _) fun m => h.prod _
theorem opPow_le (a b : Expr) : RLe (opPow O C a b) (opPow O D a b) := by
  unfold opPow; split
  · split
    · exact .refl _
    · exact .bind (.refl _) fun m => h.pow _ _
  · exact h.pow _ _
theorem opSqrt_le (a : Expr) : RLe (opSqrt O C a) (opSqrt O D a) := opPow_le h _ _

mutual
theorem opNeg_le : ∀ a : Expr, RLe (opNeg C a) (opNeg D a) := by
  intro a
  cases a with
  | sum ts =>
    simp only [opNeg]
    rcases (opNegL_le ts).cases with ⟨e, h1⟩ | ⟨a, h1, h2⟩
    · simp only [h1]; exact .error
    · simp only [h1, h2]; exact h.sum _
  | flt v => cases v <;> exact .refl _
  | rat _ => exact .refl _
  | inf => exact .refl _
  | neginf => exact .refl _
  | _ => simp only [opNeg]; exact h.prod _
theorem opNegL_le : ∀ ts : List Expr, RLe (opNegL C ts) (opNegL D ts)
  | [] => .refl _
  | t :: r => by
    simp only [opNegL]
    rcases (opNeg_le t).cases with ⟨e, h1⟩ | ⟨a, h1, h2⟩
    · simp only [h1]; exact .error
    · rcases (opNegL_le r).cases with ⟨e, h3⟩ | ⟨b, h3, h4⟩
      · simp only [h1, h3]; exact .error
      · simp only [h1, h2, h3, h4]; exact .refl _
end

theorem cmpLt_le (a b : Expr) : RLe (cmpLt C a b) (cmpLt D a b) := by
  unfold cmpLt
  refine .bind (.refl _) fun na => .bind (.refl _) fun nb => .ite (.ite (.refl _) ?_) (.ite (.refl _) ?_)
  · exact .bind (h.repr _) fun ra => .bind (h.repr _) fun rb => .refl _
  · exact .bind (.refl _) fun pa => .bind (.refl _) fun pb => .ite (.refl _)
      (.bind (h.repr _) fun ra => .bind (h.repr _) fun rb => .refl _)
end

section
variable {α : Type} {lt lt' : α → α → R Bool} (h : ∀ a b, RLe (lt a b) (lt' a b))
include h
theorem runTail_le (d : Bool) : ∀ (l : List α) (p : α), RLe (runTail lt d p l) (runTail lt' d p l)
  | [], p => .refl _
  | x :: r, p => by
    simp only [runTail]
    exact .bind (h _ _) fun b => .ite (.bind (runTail_le d r x) fun _ => .refl _) (.refl _)
theorem countRun_le : ∀ (l : List α), RLe (countRun lt l) (countRun lt' l)
  | [] => .refl _
  | [x] => .refl _
  | x :: y :: r => by
    simp only [countRun]
    exact .bind (h _ _) fun d => .bind (runTail_le h d r y) fun _ => .refl _
theorem bsearch_le (p : α) (a : List α) : ∀ (n l r : Nat), RLe (bsearch lt p a n l r) (bsearch lt' p a n l r)
  | 0, l, r => .refl _
  | n + 1, l, r => by
    simp only [bsearch]
    refine .ite ?_ (.refl _)
    split
    · exact .refl _
    · exact .bind (h _ _) fun b => .ite (bsearch_le p a n _ _) (bsearch_le p a n _ _)
theorem binarySort_le : ∀ (rest pre : List α), RLe (binarySort lt pre rest) (binarySort lt' pre rest)
  | [], pre => .refl _
  | p :: r, pre => by
    simp only [binarySort]
    exact .bind (bsearch_le h p pre _ _ _) fun i => binarySort_le r _
theorem pySorted_le (l : List α) : RLe (pySorted lt l) (pySorted lt' l) :=
  .bind (countRun_le h l) fun _ => binarySort_le h _ _
end

section
variable {O : Oracle} {C D : Ctors} (h : CLe C D)
include h

theorem sortTerms_le (ts : List Expr) : RLe (sortTerms C ts) (sortTerms D ts) := pySorted_le (cmpLt_le h) ts

theorem sumCtor_le (ts : List Expr) : RLe (sumCtor O C ts) (sumCtor O D ts) := by
  unfold sumCtor
  refine .bind (.refl _) fun fs => ?_
  split
  · exact .refl _
  · exact .refl _
  · exact .bind (sortTerms_le h _) fun s => .refl _

theorem foldAdd_le : ∀ (xs : List Expr) (x : Expr), RLe (foldAdd C x xs) (foldAdd D x xs)
  | [], x => .refl _
  | y :: r, x => by
    simp only [foldAdd]
    rcases (opAdd_le h x y).cases with ⟨e, h1⟩ | ⟨a, h1, h2⟩
    · simp only [h1]; exact .error
    · simp only [h1, h2]; exact foldAdd_le r a

theorem likeFactor_le (b x : Expr) : RLe (likeFactor O C b x) (likeFactor O D b x) := by
  unfold likeFactor
  refine .ite (.refl _) (.ite (.refl _) ?_)
  rcases (h.pow b x).cases with ⟨e, h1⟩ | ⟨a, h1, h2⟩
  · simp only [h1]; exact .error
  · simp only [h1, h2]; exact .refl _

theorem combineProdLoop_le : ∀ (n : Nat) (ts : List Expr), RLe (combineProdLoop O C n ts) (combineProdLoop O D n ts)
  | 0, ts => .refl _
  | n + 1, [] => .refl _
  | n + 1, t :: r => by
    simp only [combineProdLoop]
    refine .ite (.bind (combineProdLoop_le n _) fun _ => .refl _) ?_
    exact .bind (foldAdd_le h _ _) fun x => .bind (likeFactor_le h _ _) fun o => .bind (combineProdLoop_le n _) fun _ =>
      .refl _

theorem combineProd_le (ts : List Expr) : RLe (combineProd O C ts) (combineProd O D ts) :=
  .bind (combineProdLoop_le h _ _) fun _ => .refl _

theorem prodCtor_le (ts : List Expr) : RLe (prodCtor O C ts) (prodCtor O D ts) := by
  unfold prodCtor
  refine .bind (combineProd_le h _) fun fs => ?_
  split
  · exact .refl _
  · exact .refl _
  · refine .bind (sortTerms_le h _) fun s => ?_
    split
    · exact .ite (opNeg_le h _) (.refl _)
    · exact .refl _

theorem accumulatePowerRat_le (b x : ℚ) : RLe (accumulatePowerRat O C b x) (accumulatePowerRat O D b x) := by
  unfold accumulatePowerRat
  refine .ite (.refl _) (.bind (.refl _) fun num => .bind (.refl _) fun den => ?_)
  split
  · exact .refl _
  · refine .ite (.bind (h.pow _ _) fun r => .refl _) (.ite (.refl _) (.ite ?_ ?_))
    · exact .bind (h.pow _ _) fun p => .bind (opMul_le h _ _) fun r => .refl _
    · dsimp only
      split
      · exact .refl _
      · exact .ite (.refl _) (.bind (opDiv_le h _ _) fun r => .refl _)

theorem accumulatePower_le (b x : Expr) : RLe (accumulatePower O C b x) (accumulatePower O D b x) := by
  unfold accumulatePower
  split
  · exact accumulatePowerRat_le h _ _
  · exact .refl _

theorem multiplyExponents_le (b x y : Expr) : RLe (multiplyExponents O C b x y) (multiplyExponents O D b x y) := by
  have gen : ∀ (b x1 x2 : Expr), RLe (do
      let m ← opMul C x1 x2
      opPow O C b m) (do
      let m ← opMul D x1 x2
      opPow O D b m) := fun b x1 x2 => .bind (opMul_le h _ _) fun m => opPow_le h _ _
  unfold multiplyExponents
  dsimp only
  split
  · exact .ite (.ite (.refl _) (.ite (h.abs _) (gen _ _ _))) (gen _ _ _)
  · exact gen _ _ _

theorem powTail_le (b x : Expr) : RLe (powTail O C b x) (powTail O D b x) := by
  unfold powTail
  split
  · refine .ite (.bind (opNeg_le h _) fun nb => .ite (h.pow _ _) ?_) (.refl _)
    exact .bind (h.pow _ _) fun p => opNeg_le h _
  · exact .refl _

theorem powLog_le (b x : Expr) : RLe (powLog O C b x) (powLog O D b x) := by
  unfold powLog
  split
  · exact .ite (.refl _) (powTail_le h _ _)
  · split
    · exact .bind (.refl _) fun y => h.pow _ _
    · exact powTail_le h _ _
  · exact powTail_le h _ _

theorem powCtor_le (b x : Expr) : RLe (powCtor O C b x) (powCtor O D b x) := by
  unfold powCtor
  refine .ite (.refl _) (.ite (.refl _) (.ite (.refl _) (.ite ?_ ?_)))
  · intro r hr
    split at hr
    · simp at hr
    · next hp => rw [accumulatePower_le h _ _ _ hp]; exact hr
    · next hp => rw [accumulatePower_le h _ _ _ hp]; exact hr
  · split
    · exact multiplyExponents_le h _ _ _
    · exact .ite (.bind (RLe.mapR (fun t => h.pow _ _) _) fun ps => h.prod _) (powLog_le h _ _)
    · exact powLog_le h _ _

theorem absCtor_le (i : Expr) : RLe (absCtor C i) (absCtor D i) := by
  unfold absCtor
  split <;> try exact .refl _
  refine .ite ?_ (.refl _)
  rcases (opNeg_le h i).cases with ⟨e, h1⟩ | ⟨ni, h1, h2⟩
  · simp only [h1]; exact .error
  simp only [h1, h2]
  intro r hr
  split at hr
  · simp at hr
  · next hp => rw [h.abs _ _ hp]; exact hr
  · next r' hne hp =>
    rw [h.abs _ _ hp]
    simp only [Except.ok.injEq] at hr
    subst hr
    split
    · next h1 => simp at h1
    · next a h1 => simp only [Except.ok.injEq] at h1; exact absurd h1 (hne a)
    · next h1 => simpa using h1.symm

theorem numDenTerm_le (t : Expr) : RLe (numDenTerm O C t) (numDenTerm O D t) := by
  unfold numDenTerm
  split
  · exact .refl _
  · exact .ite (.ite (.refl _) (.bind (opNeg_le h _) fun x => .bind (h.pow _ _) fun p => .refl _)) (.refl _)

theorem numDenLoop_le : ∀ ts : List Expr, RLe (numDenLoop O C ts) (numDenLoop O D ts)
  | [] => .refl _
  | t :: r => by
    simp only [numDenLoop]
    exact .bind (numDenTerm_le h t) fun here => .bind (numDenLoop_le r) fun _ => .refl _

theorem numDen_le (ts : List Expr) : RLe (numDen O C ts) (numDen O D ts) :=
  .bind (numDenLoop_le h ts) fun _ => .refl _

theorem prodTermRepr_le (t : Expr) : RLe (prodTermRepr C t) (prodTermRepr D t) := .bind (h.repr _) fun _ => .refl _
theorem powTermRepr_le (t : Expr) : RLe (powTermRepr C t) (powTermRepr D t) := .bind (h.repr _) fun _ => .refl _

theorem sumReprRest_le : ∀ ts : List Expr, RLe (sumReprRest C ts) (sumReprRest D ts)
  | [] => .refl _
  | t :: r => by
    simp only [sumReprRest]
    exact .ite (.bind (opNeg_le h _) fun nt => .bind (h.repr _) fun s => .bind (sumReprRest_le r) fun _ => .refl _)
      (.bind (h.repr _) fun s => .bind (sumReprRest_le r) fun _ => .refl _)

theorem sumRepr_le (ts : List Expr) : RLe (sumRepr C ts) (sumRepr D ts) := by
  cases ts with
  | nil => exact .refl _
  | cons t r => exact .bind (h.repr _) fun s => .bind (sumReprRest_le h r) fun _ => .refl _

theorem prodRepr_le (ts : List Expr) : RLe (prodRepr O C ts) (prodRepr O D ts) := by
  unfold prodRepr
  refine .ite (.bind (h.prod _) fun np => .ite ?_ (.ite (.refl _) ?_)) (.bind (numDen_le h _) fun nd => ?_)
  · exact .bind (prodTermRepr_le h _) fun _ => .refl _
  · exact .bind (h.repr _) fun _ => .refl _
  obtain ⟨n, d⟩ := nd
  dsimp only
  refine .ite ?_ (.bind (.mapR (prodTermRepr_le h) _) fun _ => .refl _)
  refine .ite (.bind (h.repr _) fun _ => .ite ?_ ?_) (.bind (prodTermRepr_le h _) fun _ => .ite ?_ ?_)
  · exact .bind (.bind (h.repr _) fun _ => .refl _) fun _ => .refl _
  · exact .bind (prodTermRepr_le h _) fun _ => .refl _
  · exact .bind (.bind (h.repr _) fun _ => .refl _) fun _ => .refl _
  · exact .bind (prodTermRepr_le h _) fun _ => .refl _

theorem powRepr_le (b x : Expr) : RLe (powRepr O C b x) (powRepr O D b x) := by
  unfold powRepr
  refine .ite (.bind (powTermRepr_le h _) fun _ => .refl _) (.ite ?_ (.ite ?_ ?_))
  · exact .bind (opNeg_le h _) fun nx => .bind (h.pow _ _) fun p => .bind (h.repr _) fun _ => .refl _
  · exact .bind (h.repr _) fun _ => .refl _
  · exact .bind (powTermRepr_le h _) fun _ => .bind (powTermRepr_le h _) fun _ => .refl _

theorem logLabel_le (b : Expr) : RLe (logLabel O C b) (logLabel O D b) := by
  unfold logLabel
  refine .ite (.refl _) ?_
  split
  · exact .ite (.refl _) (.bind (h.repr _) fun _ => .refl _)
  · exact .bind (h.repr _) fun _ => .refl _

theorem reprOf_le (e : Expr) : RLe (reprOf O C e) (reprOf O D e) := by
  cases e with
  | sum ts => exact sumRepr_le h ts
  | prod ts => exact prodRepr_le h ts
  | pow b x => exact powRepr_le h b x
  | log i b => exact .bind (h.repr _) fun _ => .bind (logLabel_le h _) fun _ => .refl _
  | trig f i => exact .bind (h.repr _) fun _ => .refl _
  | absv i => exact .bind (h.repr _) fun _ => .refl _
  | flt v => cases v <;> exact .refl _
  | _ => exact .refl _

theorem step_le : CLe (step O C) (step O D) where
  sum := sumCtor_le h
  prod := prodCtor_le h
  pow := powCtor_le h
  abs := absCtor_le h
  repr := reprOf_le h

end

theorem ctors_le_succ (O : Oracle) : ∀ n, CLe (ctors O n) (ctors O (n + 1))
  | 0 => ⟨fun _ => .error, fun _ => .error, fun _ _ => .error, fun _ => .error, fun _ => .error⟩
  | n + 1 => step_le (ctors_le_succ O n)

theorem CLe.refl (C : Ctors) : CLe C C := ⟨fun _ => .refl _, fun _ => .refl _, fun _ _ => .refl _, fun _ => .refl _,
  fun _ => .refl _⟩
theorem CLe.trans {C D E : Ctors} (h : CLe C D) (k : CLe D E) : CLe C E :=
  ⟨fun a => (h.sum a).trans (k.sum a), fun a => (h.prod a).trans (k.prod a), fun a b => (h.pow a b).trans (k.pow a b),
    fun a => (h.abs a).trans (k.abs a), fun a => (h.repr a).trans (k.repr a)⟩

theorem ctors_le (O : Oracle) {n m : Nat} (h : n ≤ m) : CLe (ctors O n) (ctors O m) := by
  induction h with
  | refl => exact CLe.refl _
  | step _ ih => exact ih.trans (ctors_le_succ O _)

/-! ## trig, `subs`, `diff`, `expand` -/

section
variable {O : Oracle} {C D : Ctors} (h : CLe C D)
include h

theorem overSqrt2_le (k : ℚ) : RLe (overSqrt2 O C k) (overSqrt2 O D k) :=
  .bind (opSqrt_le h _) fun _ => opDiv_le h _ _
theorem sqrt3Over2_le : RLe (sqrt3Over2 O C) (sqrt3Over2 O D) := .bind (opSqrt_le h _) fun _ => opDiv_le h _ _
theorem negSqrt3Over2_le : RLe (negSqrt3Over2 O C) (negSqrt3Over2 O D) :=
  .bind (opSqrt_le h _) fun _ => .bind (opNeg_le h _) fun _ => opDiv_le h _ _

theorem sinSpecial_le (k : ℚ) : RLe (sinSpecial O C k) (sinSpecial O D k) := by
  unfold sinSpecial
  repeat' first
    | apply RLe.ite
    | exact RLe.refl _
    | exact overSqrt2_le h _
    | exact sqrt3Over2_le h
    | exact negSqrt3Over2_le h
    | exact opNeg_le h _
theorem cosSpecial_le (k : ℚ) : RLe (cosSpecial O C k) (cosSpecial O D k) := by
  unfold cosSpecial
  repeat' first
    | apply RLe.ite
    | exact RLe.refl _
    | exact overSqrt2_le h _
    | exact sqrt3Over2_le h
    | exact negSqrt3Over2_le h
    | exact opNeg_le h _

theorem specialValue_le (f : TrigFn) (k : ℚ) : RLe (specialValue O C f k) (specialValue O D f k) := by
  have s := sinSpecial_le (O := O) h k
  have c := cosSpecial_le (O := O) h k
  cases f
  · exact s
  · exact c
  · exact .bind s fun _ => .bind c fun _ => opDiv_le h _ _
  · exact .bind s fun _ => opDiv_le h _ _
  · exact .bind c fun _ => opDiv_le h _ _
  · exact .bind c fun _ => .bind s fun _ => opDiv_le h _ _
  all_goals exact .refl _

theorem findPeriod_le (per : ℚ) : ∀ ts : List Expr, RLe (findPeriod C per ts) (findPeriod D per ts)
  | [] => .refl _
  | t :: r => by
    simp only [findPeriod]
    refine .ite (.bind (opDiv_le h _ _) fun c => ?_) (findPeriod_le per r)
    split
    · exact .ite (.refl _) (findPeriod_le per r)
    · exact findPeriod_le per r

theorem doubleSimp_le (f g : TrigFn) (x : Expr) : RLe (doubleSimp O C f g x) (doubleSimp O D f g x) := by
  unfold doubleSimp
  refine .bind (opPow_le h _ _) fun x2 => ?_
  split
  · exact .bind (opSub_le h _ _) fun _ => opSqrt_le h _
  · exact .bind (opAdd_le h _ _) fun _ => .bind (opSqrt_le h _) fun _ => opDiv_le h _ _
  · exact .bind (opSub_le h _ _) fun _ => opSqrt_le h _
  · exact .bind (opAdd_le h _ _) fun _ => .bind (opSqrt_le h _) fun _ => opDiv_le h _ _
  · exact .bind (opSub_le h _ _) fun _ => .bind (opSqrt_le h _) fun _ => opDiv_le h _ _
  · exact .bind (opSub_le h _ _) fun _ => .bind (opSqrt_le h _) fun _ => opDiv_le h _ _
  · exact .refl _

theorem trigOfTrig_le (f : TrigFn) (i : Expr) : RLe (trigOfTrig O C f i) (trigOfTrig O D f i) := by
  unfold trigOfTrig
  split
  · refine .ite (.ite (.refl _) (.ite (.bind (opDiv_le h _ _) fun _ => .refl _) (.ite ?_ (.refl _)))) (.refl _)
    split
    · exact .bind (doubleSimp_le h _ _ _) fun _ => .refl _
    · exact .bind (doubleSimp_le h _ _ _) fun _ => .refl _
    · exact .bind (doubleSimp_le h _ _ _) fun _ => .refl _
    · exact .bind (doubleSimp_le h _ _ _) fun _ => .bind (opDiv_le h _ _) fun _ => .refl _
  · exact .refl _

theorem trigRest_le (f : TrigFn) (i : Expr) : RLe (trigRest O C f i) (trigRest O D f i) :=
  .bind (trigOfTrig_le h f i) fun _ => .refl _

theorem trigPeriod_le (f : TrigFn) (i : Expr) : RLe (trigPeriod O C f i) (trigPeriod O D f i) := by
  unfold trigPeriod
  split
  · refine .bind (findPeriod_le h _ _) fun o => ?_
    split
    · exact .bind (opSub_le h _ _) fun _ => .refl _
    · exact trigRest_le h f _
  · exact trigRest_le h f i

theorem trigNew_le (f : TrigFn) (i : Expr) : RLe (trigNew O C f i) (trigNew O D f i) := by
  unfold trigNew
  refine .ite (specialValue_le h f 0) (.ite (.bind (opDiv_le h _ _) fun c => ?_) (trigRest_le h f i))
  split
  · exact .ite (specialValue_le h f _) (trigPeriod_le h f i)
  · exact trigPeriod_le h f i
end

theorem trigCtor_le_succ (O : Oracle) : ∀ (n : Nat) (f : TrigFn) (i : Expr),
    RLe (trigCtor O n f i) (trigCtor O (n + 1) f i)
  | 0, f, i => .error
  | n + 1, f, i => by
    have h := ctors_le_succ O n
    have odd : ∀ f, RLe (if i.isSubtraction = true then do
        let ni ← opNeg (ctors O n) i
        let s ← trigCtor O n f ni
        opNeg (ctors O n) s
      else trigNew O (ctors O n) f i) (if i.isSubtraction = true then do
        let ni ← opNeg (ctors O (n + 1)) i
        let s ← trigCtor O (n + 1) f ni
        opNeg (ctors O (n + 1)) s
      else trigNew O (ctors O (n + 1)) f i) := fun f =>
      .ite (.bind (opNeg_le h _) fun ni => .bind (trigCtor_le_succ O n f ni) fun s => opNeg_le h _) (trigNew_le h f i)
    cases f with
    | sin => simp only [trigCtor]; exact odd .sin
    | tan => simp only [trigCtor]; exact odd .tan
    | cos =>
      simp only [trigCtor]
      refine .bind (trigNew_le h .cos i) fun r => ?_
      split
      · exact .ite (.bind (opNeg_le h _) fun _ => .refl _) (.refl _)
      · exact .refl _
    | _ => simp only [trigCtor]; exact trigNew_le h _ i

theorem subsE_le_succ (O : Oracle) (σ : Str → Option Expr) : ∀ (n : Nat) (e : Expr),
    RLe (subsE O n σ e) (subsE O (n + 1) σ e)
  | 0, e => .error
  | n + 1, e => by
    have h := ctors_le_succ O n
    have ih := subsE_le_succ O σ n
    cases e <;> simp only [subsE]
    case sum ts => exact .bind (.mapR ih _) fun us => h.sum _
    case prod ts => exact .bind (.mapR ih _) fun us => h.prod _
    case pow b x => exact .bind (ih b) fun b' => .bind (ih x) fun x' => h.pow _ _
    case log i b => exact .bind (ih i) fun b' => .bind (ih b) fun x' => .refl _
    case trig f i => exact .bind (ih i) fun b' => trigCtor_le_succ O n f _
    case absv i => exact .bind (ih i) fun b' => h.abs _
    all_goals exact .refl _

theorem prodDiffTerms_le {C D : Ctors} (h : CLe C D) {d d' : Expr → R Expr} (hd : ∀ e, RLe (d e) (d' e)) :
    ∀ (ts pre : List Expr), RLe (prodDiffTerms C d pre ts) (prodDiffTerms D d' pre ts)
  | [], pre => .refl _
  | t :: r, pre => by
    simp only [prodDiffTerms]
    exact .bind (hd t) fun dt => .bind (h.prod _) fun p => .bind (prodDiffTerms_le h hd r _) fun _ => .refl _

theorem diffE_le_succ (O : Oracle) (v : Str) : ∀ (n : Nat) (e : Expr),
    RLe (diffE O n v e) (diffE O (n + 1) v e)
  | 0, e => .error
  | n + 1, e => by
    have h := ctors_le_succ O n
    have ih := diffE_le_succ O v n
    have ht := trigCtor_le_succ O n
    cases e
    case sum ts => exact .bind (.mapR ih _) fun us => h.sum _
    case prod ts => exact .bind (prodDiffTerms_le h ih _ _) fun us => h.sum _
    case pow b x =>
      refine .ite ?_ (.ite ?_ (.refl _))
      · exact .bind (opSub_le h _ _) fun _ => .bind (opPow_le h _ _) fun _ => .bind (opMul_le h _ _) fun _ => .bind (ih b) fun _ => opMul_le h _ _
      · exact .bind (.refl _) fun _ => .bind (opMul_le h _ _) fun _ => .bind (ih x) fun _ => opMul_le h _ _
    case log i b => exact .bind (ih i) fun _ => opDiv_le h _ _
    case absv i => exact ih i
    case trig f i =>
      cases f with
      | sin => exact .bind (ht _ _) fun _ => .bind (ih i) fun _ => opMul_le h _ _
      | cos => exact .bind (ht _ _) fun _ => .bind (opNeg_le h _) fun _ => .bind (ih i) fun _ => opMul_le h _ _
      | tan => exact .bind (ht _ _) fun _ => .bind (opPow_le h _ _) fun _ => .bind (ih i) fun _ => opMul_le h _ _
      | csc => exact .bind (ht _ _) fun _ => .bind (opDiv_le h _ _) fun _ => ih _
      | sec => exact .bind (ht _ _) fun _ => .bind (ht _ _) fun _ => .bind (opMul_le h _ _) fun _ => .bind (ih i) fun _ => opMul_le h _ _
      | cot => exact .bind (ht _ _) fun _ => .bind (opDiv_le h _ _) fun _ => ih _
      | asin => exact .bind (opPow_le h _ _) fun _ => .bind (opSub_le h _ _) fun _ => .bind (opSqrt_le h _) fun _ => .bind (opDiv_le h _ _) fun _ => .bind (ih i) fun _ => opMul_le h _ _
      | acos => exact .bind (opPow_le h _ _) fun _ => .bind (opSub_le h _ _) fun _ => .bind (opSqrt_le h _) fun _ => .bind (opDiv_le h _ _) fun _ => .bind (ih i) fun _ => opMul_le h _ _
      | atan => exact .bind (opPow_le h _ _) fun _ => .bind (opAdd_le h _ _) fun _ => .bind (opDiv_le h _ _) fun _ => .bind (ih i) fun _ => opMul_le h _ _
    all_goals exact .refl _

theorem anyR_le {α : Type} {f g : α → R Bool} (h : ∀ a, RLe (f a) (g a)) : ∀ l, RLe (anyR f l) (anyR g l)
  | [] => .refl _
  | a :: r => by
    simp only [anyR]
    exact .bind (h a) fun b => .ite (.refl _) (anyR_le h r)

theorem expandableE_le_succ (O : Oracle) : ∀ (n : Nat) (e : Expr), RLe (expandableE O n e) (expandableE O (n + 1) e)
  | 0, e => .error
  | n + 1, e => by
    have h := ctors_le_succ O n
    have ih := expandableE_le_succ O n
    cases e
    case sum ts => exact anyR_le ih _
    case prod ts =>
      refine .bind (anyR_le (fun t => .ite (.refl _) (ih t)) _) fun b => .ite (.refl _) ?_
      exact .bind (numDen_le h _) fun nd => .refl _
    case pow b x => exact .ite (.refl _) (.bind (ih b) fun c => .ite (.refl _) (ih x))
    case log i b => exact anyR_le ih _
    case trig f i => exact ih i
    case absv i => exact ih i
    all_goals exact .refl _

theorem recipTerm_le {C D : Ctors} (h : CLe C D) (t : Expr) : RLe (recipTerm C t) (recipTerm D t) := by
  unfold recipTerm
  split
  · exact .bind (opNeg_le h _) fun _ => h.pow _ _
  · exact h.pow _ _

theorem recipTerms_le {C D : Ctors} (h : CLe C D) (t : Expr) : RLe (recipTerms C t) (recipTerms D t) := by
  unfold recipTerms
  split
  · exact .mapR (recipTerm_le h) _
  · exact .bind (h.pow _ _) fun _ => .refl _

theorem multinomialTerm_le {C D : Ctors} (h : CLe C D) (ts : List Expr) (k : ℕ) (p : List Nat) :
    RLe (multinomialTerm C ts k p) (multinomialTerm D ts k p) := by
  unfold multinomialTerm
  refine .bind (.refl _) fun c => .bind (.mapR (fun _ => h.pow _ _) _) fun ps => ?_
  split
  · exact h.prod _
  · exact .refl _

theorem expandE_le_succ (O : Oracle) : ∀ (n : Nat) (e : Expr), RLe (expandE O n e) (expandE O (n + 1) e)
  | 0, e => .error
  | n + 1, e => by
    have h := ctors_le_succ O n
    have ia := expandableE_le_succ O n
    have ih := expandE_le_succ O n
    have ex : ∀ t, RLe (expandOr (expandableE O n) (expandE O n) t)
        (expandOr (expandableE O (n + 1)) (expandE O (n + 1)) t) := fun t =>
      .bind (ia t) fun b => .ite (ih t) (.refl _)
    cases e
    case sum ts => exact .bind (ia _) fun _ => .bind (.refl _) fun _ => .bind (.mapR ex _) fun _ => h.sum _
    case prod ts =>
      refine .bind (ia _) fun _ => .bind (.refl _) fun _ => .bind (numDen_le h _) fun nd => .bind (ex _) fun d' =>
        .bind (recipTerms_le h _) fun ds => ?_
      split
      · refine .bind (.mapR ex _) fun es => .ite (h.prod _) ?_
        exact .bind (.mapR (fun _ => h.prod _) _) fun ps => h.sum _
      · refine .bind (ex _) fun num' => ?_
        split
        · exact .bind (.mapR (fun _ => h.prod _) _) fun ps => h.sum _
        · exact h.prod _
    case pow b x =>
      refine .bind (ia _) fun _ => .bind (.refl _) fun _ => .bind (ex b) fun b' => .bind (ex x) fun x' =>
        .bind (h.pow _ _) fun new => ?_
      split
      · exact .ite (.bind (.mapR (multinomialTerm_le h _ _) _) fun ps => .bind (h.sum _) fun s => opPow_le h _ _)
          (.refl _)
      · exact .refl _
    case log i b => exact .bind (ia i) fun _ => .bind (.refl _) fun _ => .bind (ih i) fun _ => .refl _
    case trig f i => exact .bind (ia i) fun _ => .bind (.refl _) fun _ => .bind (ih i) fun _ => trigCtor_le_succ O n f _
    case absv i => exact .bind (ia i) fun _ => .bind (.refl _) fun _ => .bind (ih i) fun _ => h.abs _
    all_goals exact .refl _

theorem le_of_succ {α : Type} {f : Nat → R α} (h : ∀ n, RLe (f n) (f (n + 1))) {n m : Nat} (hnm : n ≤ m) :
    RLe (f n) (f m) := by
  induction hnm with
  | refl => exact .refl _
  | step _ ih => exact ih.trans (h _)

end Simpy
