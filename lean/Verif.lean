import Verif.Model.Py
import Verif.Model.Expr
import Verif.Model.Sort
import Verif.Model.Ctors
import Verif.Model.Exact
import Verif.Model.Trig
import Verif.Spec.Eval
import Verif.Spec.Built
import Verif.Proofs.Basic
import Verif.Proofs.Sort
import Verif.Proofs.SumSound
import Verif.Proofs.ProdSound
import Verif.Proofs.PowSound
import Verif.Proofs.PowSound2
import Verif.Proofs.ExactOracle
import Verif.Proofs.DomF
import Verif.Proofs.TrigSound
import Verif.Proofs.Built
import Verif.Proofs.Check
import Verif.Proofs.Closed
import Verif.Props.Values
import Verif.Props.Rationals
import Verif.Props.Trig
import Verif.Model.Comb
import Verif.Model.Calculus
import Verif.Model.Regex
import Verif.Spec.Sub
import Verif.Proofs.Adm
import Verif.Proofs.AdmExpand
import Verif.Props.Comb
import Verif.Props.Symbols
import Verif.Proofs.Syms
import Verif.Proofs.Zero
import Verif.Proofs.DomOpen
import Verif.Proofs.DiffSound
import Verif.Spec.Diff
import Verif.Props.Diff
import Verif.Proofs.Mono
import Verif.Props.Fuel
import Verif.Spec.Subs
import Verif.Proofs.SubsSound
import Verif.Props.Subs
import Verif.Spec.Expand
import Verif.Proofs.ExpandSound
import Verif.Props.Expand
import Verif.Props.Regex
import Verif.Proofs.Sub
import Verif.Spec.Replace
import Verif.Proofs.ReplaceSound
import Verif.Props.Replace
import Verif.Spec.Canon
import Verif.Spec.Order
import Verif.Proofs.Canon
import Verif.Proofs.Sorted
import Verif.Proofs.Comm
import Verif.Props.Canon
import Verif.Model.Poly
import Verif.Spec.Poly
import Verif.Proofs.PolySound
import Verif.Proofs.FactorSound
import Verif.Proofs.PolyRat
import Verif.Proofs.PolyFrac
import Verif.Props.Poly
import Verif.Model.Table
import Verif.Model.Tree
import Verif.Model.Nesting
import Verif.Spec.Integral
import Verif.Spec.Tree
import Verif.Proofs.TableSound
import Verif.Proofs.TreeSound
import Verif.Proofs.Nesting
import Verif.Props.Integral
import Verif.Props.Tree
import Verif.Model.Transforms
import Verif.Model.Backward
import Verif.Spec.Backward
import Verif.Proofs.Backward
import Verif.Proofs.SolSound
import Verif.Proofs.BackCheck
import Verif.Props.Backward
import Verif.Spec.Transforms
import Verif.Proofs.TransSound
import Verif.Proofs.ClassSound
import Verif.Proofs.USubSound
import Verif.Proofs.RewriteSound
import Verif.Proofs.PartsSound
import Verif.Props.Transforms
import Verif.Model.Match
import Verif.Model.Simplify
import Verif.Spec.Simplify
import Verif.Proofs.FracSound
import Verif.Proofs.VisitSound
import Verif.Proofs.EasyRep
import Verif.Props.Simplify
import Verif.Spec.Pyth
import Verif.Proofs.PythSound
import Verif.Proofs.MatchSound
import Verif.Proofs.IdentSound
import Verif.Props.Pyth
import Verif.Spec.PTS
import Verif.Proofs.PTSSound
import Verif.Props.PTS
import Verif.Spec.Logs
import Verif.Proofs.LogSound
import Verif.Props.Logs
import Verif.Model.Definite
import Verif.Proofs.Algebraic
import Verif.Proofs.CombineSound
import Verif.Proofs.SimpSound
import Verif.Props.Definite
import Verif.Props.SimplifyValue
import Verif.Spec.Combine
import Verif.Spec.Definite
import Verif.Spec.SimplifyRun
import Verif.Model.Latex
import Verif.Proofs.TextSound
import Verif.Props.Text
import Verif.Spec.Text
import Verif.Model.Evalf
import Verif.Proofs.EvalfSound
import Verif.Props.Evalf
import Verif.Spec.Evalf
import Verif.Model.Engine
import Verif.Proofs.EngineCtl
import Verif.Props.Engine
import Verif.Spec.Engine
import Verif.Proofs.Grown
import Verif.Proofs.GrownSearch
import Verif.Props.Answer
import Verif.Props.Provenance
import Verif.Spec.Grown
import Verif.Proofs.Scope
import Verif.Proofs.ScopeSearch
import Verif.Proofs.ScopeSimp
import Verif.Proofs.ScopeTree
import Verif.Props.Scope
import Verif.Spec.Scope
import Verif.Proofs.NodeEq
import Verif.Proofs.RunSound
import Verif.Spec.Run
import Verif.Proofs.RewriteKeeps
import Verif.Proofs.SquareSound
import Verif.Spec.Rewrite
import Verif.Props.Rewrites
import Verif.Proofs.Alternatives
import Verif.Props.Alternatives
import Verif.Spec.Alternatives
import Verif.Model.Heap
import Verif.Proofs.Heap
import Verif.Props.Heap
import Verif.Spec.Heap
import Verif.Proofs.Total
import Verif.Proofs.TotalEval
import Verif.Proofs.TotalRun
import Verif.Proofs.TotalTree
import Verif.Props.Polynomial
import Verif.Spec.Polynomial
import Verif.Proofs.ClearPoly
import Verif.Proofs.ReadSound
import Verif.Proofs.ReprReads
import Verif.Props.Defaults
import Verif.Props.Read
import Verif.Spec.Read
import Verif.Proofs.LatexReads
import Verif.Proofs.ReadLatex
import Verif.Proofs.TexPoly
import Verif.Props.ReadLatex
import Verif.Spec.ReadLatex
import Verif.Conform.Derivatives
import Verif.Conform.Dsl
import Verif.Conform.ExpandPower
import Verif.Conform.Exprs
import Verif.Conform.Integrals
import Verif.Conform.KhanAcademy
import Verif.Conform.Latex
import Verif.Conform.Nums
import Verif.Conform.Pts
import Verif.Conform.Regex
import Verif.Conform.Transforms
import Verif.Conform.TrigSimplify
import Verif.Proofs.Ambiguity
import Verif.Props.Ambiguity
import Verif.Spec.Ambiguity
import Verif.Proofs.Inside
import Verif.Proofs.LinInside
import Verif.Props.Inside
import Verif.Spec.Inside
import Verif.Proofs.LinRun
import Verif.Proofs.LinSimp
import Verif.Proofs.LinTerms
import Verif.Props.Combination
import Verif.Spec.Combination
import Verif.Proofs.FactorMono
import Verif.Proofs.MonoArith
import Verif.Props.Factor
import Verif.Spec.Factor
import Verif.Model.Operand
import Verif.Props.Operand
import Verif.Props.TopLevel
import Verif.Spec.Operand
import Verif.Props.Limits
import Verif.Proofs.NumDenReal
import Verif.Proofs.NFBase
import Verif.Proofs.NFExpand
import Verif.Proofs.NFMono
import Verif.Proofs.NFMult
import Verif.Proofs.NFOut
import Verif.Proofs.NFPoly
import Verif.Proofs.NFPow
import Verif.Proofs.NFSum
import Verif.Proofs.NFText
import Verif.Props.Normal
import Verif.Spec.Normal
import Verif.Proofs.NFSimp
import Verif.Proofs.NFClear
import Verif.Proofs.IntTree
import Verif.Proofs.NFChain
import Verif.Proofs.NFInt
import Verif.Proofs.NFRun
import Verif.Proofs.NFSubs
import Verif.Props.Factored
import Verif.Spec.Factored
import Verif.Proofs.NFDiff
import Verif.Props.Closed
import Verif.Spec.Closed
import Verif.Proofs.NFRing
import Verif.Props.Ring
import Verif.Props.Calculus
import Verif.Spec.Calculus
import Verif.Proofs.LinArg
import Verif.Proofs.LinSub
import Verif.Proofs.NFTex
import Verif.Proofs.MQBase
import Verif.Proofs.MQMono
import Verif.Proofs.MQVal
import Verif.Props.Monomials
import Verif.Spec.PowerTerm
import Verif.Proofs.NFFactor
import Verif.Props.FactorOut
import Verif.Spec.FactorOut
import Verif.Proofs.Labels
import Verif.Props.Undo
import Verif.Spec.Undo
import Verif.Model.Compare
import Verif.Props.Infinity
import Verif.Spec.Infinity
import Verif.Proofs.ExpConst
import Verif.Proofs.ImproperSub
import Verif.Props.Improper
import Verif.Model.Debug
import Verif.Proofs.DebugText
import Verif.Props.DebugRepr
import Verif.Proofs.ElemDiff
import Verif.Proofs.ElemInt
import Verif.Props.Elementary
import Verif.Spec.Elementary
import Verif.Proofs.RootRun
import Verif.Props.Roots
import Verif.Model.PrintTree
import Verif.Proofs.PrintTree
import Verif.Props.PrintTree
import Verif.Spec.PrintTree
import Verif.Proofs.Level
import Verif.Spec.Level
import Verif.Model.Logger
import Verif.Proofs.Logger
import Verif.Props.Logger
import Verif.Spec.Logger
import Verif.Model.Parked
import Verif.Proofs.Parked
import Verif.Props.Parked
import Verif.Proofs.ExpDiff
import Verif.Props.Bounded
import Verif.Proofs.TrigDiff
import Verif.Props.AddUp
import Verif.Props.PolyBounds
