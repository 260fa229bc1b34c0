import Verif.Conform.Dsl
import Verif.Model.Transforms
import Verif.Model.Poly

/-! The assertions of /repo/tests/test_transforms.py, written by hand and evaluated in the kernel.
These are tests of the model, not properties: they compare it with what the author of the program expects of it. -/

namespace Simpy.Conform
open Simpy Expr
set_option maxRecDepth 100000

/-- `x` -/
abbrev tx := sy "x"

/-- test_pullconstant, lines 15-20 -/
example : holds (strict (un (fun e => given ((pullConstant O fuel ['x'] e).map (Option.map Prod.snd))) (tMul (n 2) (tPow tx (n 3))))
    (tPow tx (n 3))) = true := by decide +kernel

/-- test_to_polynomial, lines 24-25 -/
example : (do let e ← tAdd (tMul (n 6) tx) (tPow tx (n 2)); toConstPoly O fuel ['x'] e) = .ok [rat 0, rat 6, rat 1] := by decide +kernel

/-- test_polynomial_division, lines 29-36 -/
example : holds (strict (un (fun e => given (polyDiv O fuel 20 ['x'] e)) (tMul (tPow tx (n 4)) (tPow (tAdd (n 1) (tPow tx (n 2))) (n (-1)))))
    (tAdd (tSub (tPow tx (n 2)) (n 1)) (tDiv (n 1) (tAdd (n 1) (tPow tx (n 2)))))) = true := by decide +kernel

/-- test_polynomial_division, lines 39-45: the check says yes and nothing is raised. -/
example : holds (do
    let r ← un (fun e => given (polyDiv O fuel 20 ['x'] e)) (tDiv (tPow tx (n 3)) (tSub (n 1) (tPow tx (n 2))))
    return beq O r r) = true := by decide +kernel

/-- test_complete_the_square, lines 50-56 (`forward` alone) -/
example : holds (strict (un (replaceE O (squarePerf O ['x']) fuel)
      (tAdd (tAdd (tNeg (tPow tx (n 2))) (tMul (n 10) tx)) (n 11)))
    (tMul (n 36) (tAdd (tDiv (tNeg (tPow (tSub tx (n 5)) (n 2))) (n 36)) (n 1)))) = true := by decide +kernel

end Simpy.Conform
