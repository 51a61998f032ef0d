import Verif.Segments.PropsAssemble
import Verif.Segments.PropsSplit
import Verif.Iid.Props
import Verif.Graph.Props
import Verif.Graph.PropsOperators
import Verif.Graph.PropsRange
import Verif.Util.PropsBreaks
import Verif.Util.PropsMonitor
import Verif.Util.PropsAdaptive
import Verif.Util.PropsRoots
import Verif.Util.PropsParallel
import Verif.Nodes.PropsNodes
import Verif.Nodes.PropsBary
import Verif.Transform.Props
import Verif.Transform.PropsFront
import Verif.Law.PropsCdf
import Verif.Law.PropsLaw
import Verif.Push.PropsShift
import Verif.Push.PropsFold
import Verif.Push.PropsComp
import Verif.Push.PropsInv
import Verif.Distr.PropsDiscrete
import Verif.Distr.PropsSign
import Verif.Conv.Model
import Verif.Conv.Assemble
import Verif.Conv.Pair
import Verif.Conv.Spec
import Verif.Conv.OpLaw
import Verif.Conv.Atoms
import Verif.Conv.SumPair
import Verif.Conv.Breaks
import Verif.Conv.SumLemmas
import Verif.Conv.SumDensity
import Verif.Conv.Sub
import Verif.Conv.SumExample
import Verif.Conv.PropsSum
import Verif.Conv.MinMaxModel
import Verif.Conv.Tail
import Verif.Conv.MinMaxPair
import Verif.Conv.MinMaxAtoms
import Verif.Conv.MinMaxLemmas
import Verif.Conv.PropsMinMax
import Verif.Conv.Mellin
import Verif.Conv.ProdModel
import Verif.Conv.ProdPair
import Verif.Conv.ProdSpec
import Verif.Conv.ProdLemmas
import Verif.Conv.ProdDensity
import Verif.Conv.PropsProd
import Verif.Conv.DivModel
import Verif.Conv.DivPair
import Verif.Conv.DivSpec
import Verif.Conv.DivBounds
import Verif.Conv.DivLemmas
import Verif.Conv.DivDensity
import Verif.Conv.DivExample
import Verif.Conv.PropsDiv
import Verif.Conv.Positions
import Verif.Cond.Model
import Verif.Cond.Lemmas
import Verif.Cond.Clip
import Verif.Cond.Example
import Verif.Cond.Props
import Verif.Quantile.Spec
import Verif.Quantile.Model
import Verif.Quantile.Shape
import Verif.Quantile.Inverse
import Verif.Quantile.Quant
import Verif.Quantile.Example
import Verif.Quantile.Props
import Verif.Moments.Model
import Verif.Moments.Lemmas
import Verif.Moments.Props
import Verif.Sparse.Model
import Verif.Sparse.Smolyak
import Verif.Sparse.Grid
import Verif.Sparse.Lemmas
import Verif.Sparse.State
import Verif.Sparse.Adapt
import Verif.Sparse.Interp
import Verif.Sparse.Props
import Verif.Standard.Model
import Verif.Standard.Spec
import Verif.Standard.FunSpec
import Verif.Standard.Chain
import Verif.Standard.Fun
import Verif.Standard.Integrals
import Verif.Standard.LemA
import Verif.Standard.PropsA
import Verif.Standard.LemB
import Verif.Standard.PropsB
import Verif.Standard.LemC
import Verif.Standard.PropsC
import Verif.Standard.LemD
import Verif.Standard.PropsD
import Verif.Standard.LemE
import Verif.Standard.PropsE
import Verif.Standard.LemFun
import Verif.Standard.PropsFun
import Verif.Standard.LemRange
import Verif.Standard.PropsRange
import Verif.Standard.PropsDiscrete
import Verif.Standard.PropsMix
import Verif.DepVars.Props
import Verif.NDim.Model
import Verif.NDim.Spec
import Verif.NDim.Lemmas
import Verif.NDim.ElimLemmas
import Verif.NDim.CondLemmas
import Verif.NDim.TotalLemmas
import Verif.NDim.Props
import Verif.NDNormal.Gauss
import Verif.NDNormal.Model
import Verif.NDNormal.Spec
import Verif.NDNormal.Lemmas
import Verif.NDNormal.PropLemmas
import Verif.NDNormal.Props
import Verif.Copula.Model
import Verif.Copula.Spec
import Verif.Copula.Lemmas
import Verif.Copula.Families
import Verif.Copula.PropLemmas
import Verif.Copula.Props
import Verif.Copula.ModelCond
import Verif.Copula.SpecCond
import Verif.Copula.LemCond
import Verif.Copula.LemCondProps
import Verif.Copula.LemCondJoint
import Verif.Copula.PropsCond
import Verif.Copula.PropsSampler
import Verif.Gamma.Model
import Verif.Gamma.Spec
import Verif.Gamma.Lemmas
import Verif.Gamma.Stirling
import Verif.Gamma.Numbers
import Verif.Gamma.Big
import Verif.Gamma.Mid
import Verif.Gamma.Props
import Verif.Rule.Model
import Verif.Rule.Trig
import Verif.Rule.Lemmas
import Verif.Rule.Spec
import Verif.Rule.Exact
import Verif.Rule.Loops
import Verif.Rule.Props
import Verif.Calc.Model
import Verif.Calc.Lemmas
import Verif.Calc.Deriv
import Verif.Calc.Roots
import Verif.Calc.Spec
import Verif.Calc.Main
import Verif.Calc.Props
import Verif.TwoVars.Model
import Verif.TwoVars.Spec
import Verif.TwoVars.Cut
import Verif.TwoVars.Pair
import Verif.TwoVars.Law
import Verif.TwoVars.Sym
import Verif.TwoVars.Instances
import Verif.TwoVars.PropLemmas
import Verif.TwoVars.Props
import Verif.Sampler.Model
import Verif.Sampler.Spec
import Verif.Sampler.Lem
import Verif.Sampler.LemB
import Verif.Sampler.LemReject
import Verif.Sampler.Props
import Verif.Identity.Model
import Verif.Identity.Spec
import Verif.Identity.Lem
import Verif.Identity.LemKind
import Verif.Identity.LemStep
import Verif.Identity.LemExpr
import Verif.Identity.LemTidy
import Verif.Identity.LemPos
import Verif.Identity.LemCov
import Verif.Identity.LemFold
import Verif.Identity.LemShape
import Verif.Identity.LemExact
import Verif.Identity.PropsExpr
import Verif.Identity.PropsExact
import Verif.Identity.LemAff
import Verif.Identity.LemUn
import Verif.Identity.LemTwo
import Verif.Identity.LemFibre
import Verif.Identity.SpecTable
import Verif.Identity.LemTable
import Verif.Identity.PropsTable
import Verif.Identity.SpecAlg
import Verif.Identity.LemAlg
import Verif.Identity.PropsAlg
import Verif.Noncentral.Props
import Verif.Asymp.Props
import Verif.Summary.PropsMode
import Verif.Summary.PropsMad
import Verif.Summary.PropsInfo
import Verif.Order.Model
import Verif.Order.Spec
import Verif.Order.LemRank
import Verif.Order.LemCell
import Verif.Order.LemJoint
import Verif.Order.LemSingle
import Verif.Order.LemDensity
import Verif.Order.Props
import Verif.Tail.Model
import Verif.Tail.Spec
import Verif.Tail.Lem
import Verif.Tail.Props
import Verif.Depend.Model
import Verif.Depend.Spec
import Verif.Depend.LemCov
import Verif.Depend.LemRank
import Verif.Depend.LemProps
import Verif.Depend.LemEx
import Verif.Depend.LemArch
import Verif.Depend.LemArchLaw
import Verif.Depend.LemWit
import Verif.Depend.Props
import Verif.Depend.PropsArch
import Verif.Regress.Model
import Verif.Regress.Spec
import Verif.Regress.LemReg
import Verif.Regress.LemQuant
import Verif.Regress.LemFun
import Verif.Regress.Props
import Verif.Noisy.Model
import Verif.Noisy.Spec
import Verif.Noisy.Lem
import Verif.Noisy.Props
import Verif.Quantile.ModelInv
import Verif.Quantile.LemInv
import Verif.Quantile.PropsInv
import Verif.Hist.Model
import Verif.Hist.Spec
import Verif.Hist.Lem
import Verif.Hist.Props
import Verif.NDim.ModelElim
import Verif.NDim.SpecElim
import Verif.NDim.LemElim
import Verif.NDim.PropsElim
import Verif.NDim.ModelCond
import Verif.NDim.SpecCond
import Verif.NDim.LemCond
import Verif.NDim.PropsCond
import Verif.Summary.ModelChar
import Verif.Summary.SpecChar
import Verif.Summary.LemChar
import Verif.Summary.PropsChar
import Verif.Estim.Model
import Verif.Estim.Spec
import Verif.Estim.Lem
import Verif.Estim.Props
import Verif.Copula.ModelLog
import Verif.Copula.SpecLog
import Verif.Copula.LemLog
import Verif.Copula.PropsLog
import Verif.Identity.PropsErr
import Verif.Identity.PropsErrExact
import Verif.Conv.SpecQuad
import Verif.Conv.LemQuad
import Verif.Conv.LemQuadRun
import Verif.Conv.LemQuadOp
import Verif.Conv.LemQuadMM
import Verif.Conv.LemQuadEx
import Verif.Conv.PropsQuad
import Verif.Conv.LemMerge
import Verif.Quantile.LemCoin
import Verif.Summary.ModelMgf
import Verif.Summary.SpecMgf
import Verif.Summary.LemMgf
import Verif.Summary.PropsMgf
import Verif.Law.ModelInterp
import Verif.Law.SpecInterp
import Verif.Law.LemInterp
import Verif.Law.PropsInterp
import Verif.Identity.SpecTotal
import Verif.Identity.LemTotal
import Verif.Identity.PropsTotal
import Verif.Identity.LemTotalExact
import Verif.Identity.LemTotalEx
import Verif.Identity.LemTotalAtoms
import Verif.Identity.PropsTotalExact
import Verif.Alias.Props
import Verif.Quantile.PropsSample
import Verif.DepVars.PropsEnd
import Verif.Quantile.PropsOver
import Verif.Cache.Props
import Verif.Names.Props
import Verif.Distr.PropsNonneg
import Verif.Distr.PropsInterp
import Verif.Equations.Props
import Verif.Direct.Model
import Verif.Direct.Spec
import Verif.Direct.Lem
import Verif.Direct.LemDens
import Verif.Direct.LemArr
import Verif.Direct.Props
import Verif.Pickle.Model
import Verif.Pickle.Spec
import Verif.Pickle.Props
import Verif.Standard.Arrays
import Verif.Standard.ArraysSpec
import Verif.Standard.LemArrays
import Verif.Standard.PropsArrays
import Verif.Symbolic.Model
import Verif.Symbolic.Spec
import Verif.Symbolic.Lem
import Verif.Symbolic.LemOps
import Verif.Symbolic.LemSolve
import Verif.Symbolic.Props
import Verif.Segments.Div
import Verif.Segments.PropsDiv
import Verif.Symbolic.Expr
import Verif.Symbolic.SpecExpr
import Verif.Symbolic.LemExpr
import Verif.Symbolic.PropsExpr
import Verif.Plot.Model
import Verif.Plot.Spec
import Verif.Plot.Lem
import Verif.Plot.Props
import Verif.Nodes.Arrays
import Verif.Nodes.PropsArrays
import Verif.Iid.Weighted
import Verif.Iid.PropsWeighted
import Verif.Report.Model
import Verif.Report.Props
import Verif.Conv.LemQuadAtoms
import Verif.Conv.LemQuadZero
import Verif.Conv.PropsQuadAtoms
import Verif.Law.Arrays
import Verif.Law.LemArrays
import Verif.Law.PropsArrays
import Verif.Law.Pieces
import Verif.Law.PropsPieces
import Verif.Sample.Model
import Verif.Sample.Spec
import Verif.Sample.Lem
import Verif.Sample.Props
import Verif.Segments.Compare
import Verif.Segments.PropsCompare
import Verif.Sample.LemLaw
import Verif.Sample.PropsLaw
import Verif.Sample.LemTree
import Verif.Sample.SpecTree
import Verif.Sample.PropsTree
