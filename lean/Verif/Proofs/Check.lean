import Verif.Spec.Built
import Verif.Model.Exact

/-! A computable sufficient check for `Built`, used only in examples: every node is what its own constructor
returns on its children. -/

namespace Simpy
open Expr

/-- the call returned exactly `e` -/
def okIs (e : Expr) : R Expr → Bool
  | .ok r => decide (r = e)
  | .error _ => false

theorem okIs_iff {e : Expr} {x : R Expr} (h : okIs e x = true) : x = .ok e := by
  cases x <;> simp_all [okIs]

mutual
def selfB : Expr → Bool
  | sum ts => selfBL ts && okIs (sum ts) ((ctors exactOracle 30).sum ts)
  | prod ts => selfBL ts && okIs (prod ts) ((ctors exactOracle 30).prod ts)
  | pow b x => selfB b && selfB x && okIs (pow b x) ((ctors exactOracle 30).pow b x)
  | log i b => selfB i && selfB b && okIs (log i b) (logCtor exactOracle i b)
  | trig f i => selfB i && okIs (trig f i) (trigCtor exactOracle 30 f i)
  | absv i => selfB i && okIs (absv i) ((ctors exactOracle 30).abs i)
  | _ => true
def selfBL : List Expr → Bool
  | [] => true
  | t :: r => selfB t && selfBL r
end

mutual
theorem built_of_self : ∀ {e : Expr}, selfB e = true → Built exactOracle e := by
  intro e h
  cases e with
  | rat q => exact .rat q
  | flt v => exact .flt v
  | pi => exact .pi
  | euler => exact .euler
  | inf => exact .inf
  | neginf => exact .neginf
  | sym s => exact .sym s
  | any s => exact .any s
  | sum ts =>
    simp only [selfB, Bool.and_eq_true] at h
    exact .sum 30 (builtL_of_self h.1) (okIs_iff h.2)
  | prod ts =>
    simp only [selfB, Bool.and_eq_true] at h
    exact .prod 30 (builtL_of_self h.1) (okIs_iff h.2)
  | pow b x =>
    simp only [selfB, Bool.and_eq_true] at h
    exact .pow 30 (built_of_self h.1.1) (built_of_self h.1.2) (okIs_iff h.2)
  | log i b =>
    simp only [selfB, Bool.and_eq_true] at h
    exact .log (built_of_self h.1.1) (built_of_self h.1.2) (okIs_iff h.2)
  | trig f i =>
    simp only [selfB, Bool.and_eq_true] at h
    exact .trig 30 f (built_of_self h.1) (okIs_iff h.2)
  | absv i =>
    simp only [selfB, Bool.and_eq_true] at h
    exact .abs 30 (built_of_self h.1) (okIs_iff h.2)
theorem builtL_of_self : ∀ {ts : List Expr}, selfBL ts = true → ∀ t ∈ ts, Built exactOracle t := by
  intro ts h
  cases ts with
  | nil => simp
  | cons a r =>
    simp only [selfBL, Bool.and_eq_true] at h
    have h1 := built_of_self h.1
    have h2 := builtL_of_self h.2
    intro t ht
    rcases List.mem_cons.1 ht with rfl | ht
    · exact h1
    · exact h2 t ht
end

end Simpy
