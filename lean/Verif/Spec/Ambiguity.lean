import Verif.Model.Match

/-!
# Specification: when a query can be matched with a sum in only one way
-/

namespace Simpy
open Expr

/-- Two matches agree: a placeholder that both of them fill is filled with equal expressions. -/
def Agree (O : Oracle) (m m' : Log) : Prop := ∀ k a b, (k, a) ∈ m → (k, b) ∈ m' → beq O a b = true

/-- `m` is a match of the part `q` of the query with one of the terms, and for each part of the query there is a match that
agrees with it. -/
def Fits (O : Oracle) (C : Ctors) (ts qs : List Expr) (q : Expr) (m : Log) : Prop :=
  (∃ t ∈ ts, eqCall O C t q = .ok (some m)) ∧
    ∀ q' ∈ qs, ∃ t ∈ ts, ∃ m', eqCall O C t q' = .ok (some m') ∧ Agree O m m'

/-- The query with the parts `qs` can be matched with the sum of `ts` in at most one way. -/
def OneWay (O : Oracle) (C : Ctors) (ts qs : List Expr) : Prop :=
  ∀ q ∈ qs, ∀ q' ∈ qs, ∀ m m', Fits O C ts qs q m → Fits O C ts qs q' m' → Agree O m m'

end Simpy
