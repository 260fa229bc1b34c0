import Verif.Proofs.Closed
import Verif.Proofs.Built

/-! Everything built by the public constructors is canonical. -/

namespace Simpy
open Expr

theorem canonL_iff {O : Oracle} : ∀ {ts : List Expr}, CanonL O ts ↔ ∀ t ∈ ts, Canon O t
  | [] => by simp [CanonL]
  | t :: r => by simp [CanonL, canonL_iff (ts := r)]

theorem canon_prods {O : Oracle} (hO : O.Exact) : ProdsCanon O (Canon O) := ⟨hO, fun _ h => h.1⟩

theorem closed_canon {O : Oracle} (hO : O.Exact) : ClosedG O (Canon O) (Canon O) where
  acc := by intro c hc; cases c <;> simp_all [isAcc, Canon]
  sumE := fun h => canonL_iff.1 h.2
  prodE := fun h => canonL_iff.1 h.2
  powE := fun h => h.2
  sumI := fun h _ ht => ⟨h (canon_prods hO), canonL_iff.2 ht⟩
  prodI := fun h _ ht => ⟨h (canon_prods hO), canonL_iff.2 ht⟩
  powI := fun h _ hb hx => ⟨h (canon_prods hO), hb, hx⟩
  x := .inl rfl
  absvE := id
  absvI := id
  log := id
  trig := id

theorem Built.canon {O : Oracle} (hO : O.Exact) {e : Expr} (h : Built O e) : Canon O e := by
  have hQ := closed_canon hO
  induction h with
  | rat q => trivial
  | flt v => trivial
  | pi => trivial
  | euler => trivial
  | inf => trivial
  | neginf => trivial
  | sym s => trivial
  | any s => trivial
  | sum n _ h ih => exact (ctors_presG hQ n).sum _ _ ih h
  | prod n _ h ih => exact (ctors_presG hQ n).prod _ _ ih h
  | pow n _ _ h ihb ihx => exact (ctors_presG hQ n).pow _ _ _ ihb ihx h
  | abs n _ h ih => exact (ctors_presG hQ n).abs _ _ ih h
  | log _ _ h ihi ihb => exact logCtor_G hQ (fun _ => id) (fun _ _ a b => ⟨a, b⟩) ihi ihb h
  | trig n f _ h ih => exact trigCtor_G hQ n (fun _ h => h) ih h

theorem closed_ordered {O : Oracle} (hO : O.Exact) :
    ClosedG O (fun e => Canon O e ∧ Ordered e) (fun e => Canon O e ∧ Ordered e) where
  acc := by intro c hc; cases c <;> simp_all [isAcc, Canon, Ordered]
  sumE := fun h t ht => ⟨canonL_iff.1 h.1.2 t ht, orderedL_iff.1 h.2.2 t ht⟩
  prodE := fun h t ht => ⟨canonL_iff.1 h.1.2 t ht, orderedL_iff.1 h.2.2 t ht⟩
  powE := fun h => ⟨⟨h.1.2.1, h.2.1⟩, h.1.2.2, h.2.2⟩
  sumI := fun h ho ht => ⟨⟨h ⟨hO, fun _ k => k.1.1⟩, canonL_iff.2 fun t k => (ht t k).1⟩, ho, orderedL_iff.2 fun t k => (ht t k).2⟩
  prodI := fun h ho ht => ⟨⟨h ⟨hO, fun _ k => k.1.1⟩, canonL_iff.2 fun t k => (ht t k).1⟩,
    ho ⟨⟨hO, fun _ k => k.1.1⟩, fun _ k => k.2.1⟩, orderedL_iff.2 fun t k => (ht t k).2⟩
  powI := fun h _ hb hx => ⟨⟨h ⟨hO, fun _ k => k.1.1⟩, hb.1, hx.1⟩, hb.2, hx.2⟩
  x := .inl rfl
  absvE := id
  absvI := id
  log := fun h => ⟨⟨h.1.1, h.2.1⟩, h.1.2, h.2.2⟩
  trig := id

theorem Built.ordered {O : Oracle} (hO : O.Exact) {e : Expr} (h : Built O e) : Canon O e ∧ Ordered e := by
  have hQ := closed_ordered hO
  induction h with
  | rat q => exact ⟨trivial, trivial⟩
  | flt v => exact ⟨trivial, trivial⟩
  | pi => exact ⟨trivial, trivial⟩
  | euler => exact ⟨trivial, trivial⟩
  | inf => exact ⟨trivial, trivial⟩
  | neginf => exact ⟨trivial, trivial⟩
  | sym s => exact ⟨trivial, trivial⟩
  | any s => exact ⟨trivial, trivial⟩
  | sum n _ h ih => exact (ctors_presG hQ n).sum _ _ ih h
  | prod n _ h ih => exact (ctors_presG hQ n).prod _ _ ih h
  | pow n _ _ h ihb ihx => exact (ctors_presG hQ n).pow _ _ _ ihb ihx h
  | abs n _ h ih => exact (ctors_presG hQ n).abs _ _ ih h
  | log _ _ h ihi ihb =>
    exact logCtor_G hQ (fun _ => id) (fun _ _ a b => ⟨⟨a.1, b.1⟩, a.2, b.2⟩) ihi ihb h
  | trig n f _ h ih => exact trigCtor_G hQ n (fun _ h => h) ih h

end Simpy
