import Verif.Props.PScalesProd
import Verif.Props.Uniform
import Verif.Props.Variable
import Verif.Props.Variable2
import Verif.Props.SP
import Verif.Props.MCMC
import Verif.Props.Names
import Verif.Props.Likelihoods
import Verif.Props.RV
import Verif.Props.RF
import Verif.Props.CondCov
import Verif.Props.Field
import Verif.Props.FieldDelta
import Verif.Props.FieldDims
import Verif.Props.Dependence
import Verif.Props.Expression
import Verif.Props.Functional
import Verif.Base.Arr
import Verif.Model.PD
import Verif.Spec.PD
import Verif.Lemmas.PDInit
import Verif.Lemmas.PDBuild
import Verif.Props.PDInit
import Verif.Model.PDMarg
import Verif.Lemmas.PDMarg
import Verif.Props.PDMarg
import Verif.Props.PDWF
import Verif.Props.PDMarg2
import Verif.Props.PDMarg3
import Verif.Model.PDOps
import Verif.Lemmas.PDOps
import Verif.Lemmas.PDDrop
import Verif.Lemmas.Broadcast
import Verif.Props.PDSort
import Verif.Props.PDProd
import Verif.Props.PDExpt
import Verif.Props.PDRekey
import Verif.Model.PDCall
import Verif.Props.PDCall
import Verif.Model.PDProduct
import Verif.Spec.PDProduct
import Verif.Lemmas.PDCheck
import Verif.Lemmas.PDPlace
import Verif.Lemmas.BroadcastN
import Verif.Lemmas.PDProduct
import Verif.Lemmas.PDProduct2
import Verif.Lemmas.PDProduct3
import Verif.Lemmas.PDProduct4
import Verif.Props.PDProduct
import Verif.Props.PDRefuse
import Verif.Model.PDCond
import Verif.Lemmas.PDCond
import Verif.Lemmas.PDCondArr
import Verif.Lemmas.PDCondProb
import Verif.Lemmas.PDCondMain
import Verif.Lemmas.PDCondPerm
import Verif.Props.PDCond
import Verif.Model.VarDelta
import Verif.Props.VarDelta
import Verif.Model.PDDiv
import Verif.Spec.PDDiv
import Verif.Lemmas.PDDiv
import Verif.Props.PDDiv
import Verif.Props.SPProp
import Verif.Props.CondCovBest
import Verif.Props.PDCallRows
import Verif.Props.PDProduct2
import Verif.Props.PDCounts
import Verif.Model.PDQuant
import Verif.Model.PDRemarg
import Verif.Lemmas.Indices
import Verif.Props.PDQuant
import Verif.Props.PDRemarg
import Verif.Props.PDRemargRefuse
import Verif.Props.RVCall
import Verif.Model.RVCont
import Verif.Props.RVCont
import Verif.Props.RVContStep
import Verif.Model.PDSum
import Verif.Props.PDSum
import Verif.Model.PDSerial
import Verif.Props.PDSerial
import Verif.Model.DistOps
import Verif.Props.DistOps
import Verif.Model.RFCall
import Verif.Props.RFCall
import Verif.Model.Slice
import Verif.Lemmas.Slice
import Verif.Props.Slice
import Verif.Model.Args
import Verif.Props.Args
import Verif.Model.Expr
import Verif.Lemmas.BroadcastAll
import Verif.Props.Expr
import Verif.Model.Multi
import Verif.Props.Multi
import Verif.Model.Mvar
import Verif.Lemmas.Mvar
import Verif.Props.Mvar
import Verif.Model.ProbObj
import Verif.Props.ProbObj
import Verif.Model.Composite
import Verif.Props.Composite
import Verif.Model.RFStep
import Verif.Props.RFStep
import Verif.Model.SDCall
import Verif.Lemmas.PDProductRepeat
import Verif.Props.PDProductRepeat
import Verif.Props.SDCall
import Verif.Model.VarInit
import Verif.Props.VarInit
import Verif.Model.FnCall
import Verif.Props.FnCall
import Verif.Model.Ops
import Verif.Props.Ops
import Verif.Model.RVState
import Verif.Props.RVState
import Verif.Model.SDSet
import Verif.Props.SDSet
import Verif.Model.SPRule
import Verif.Props.SPRule
import Verif.Model.Walk
import Verif.Model.Markov
import Verif.Model.RFCov
import Verif.Props.Walk
import Verif.Lemmas.WalkField
import Verif.Props.WalkField
import Verif.Lemmas.Chol
import Verif.Lemmas.Moments
import Verif.Lemmas.Sphere
import Verif.Props.RFCov
import Verif.Lemmas.WalkJoint
import Verif.Props.WalkSphere
import Verif.Model.Gibbs
import Verif.Lemmas.Gibbs
import Verif.Lemmas.GibbsLaw
import Verif.Lemmas.GibbsConv
import Verif.Props.Gibbs
import Verif.Props.GibbsLimits
import Verif.Props.Markov
import Verif.Props.MarkovLimit
import Verif.Props.MarkovWalk
import Verif.Model.Reject
import Verif.Props.Reject
import Verif.Props.RejectLaw
import Verif.Props.RejectCircle
import Verif.Model.DeltaFn
import Verif.Props.DeltaFn
import Verif.Props.DeltaFnUp
import Verif.Props.Details
import Verif.Model.DistObj
import Verif.Props.DistObj
import Verif.Props.DistObjMore
import Verif.Model.Symbolic
import Verif.Props.Symbolic
import Verif.Model.OMC
import Verif.Lemmas.OMC
import Verif.Props.OMC
import Verif.Lemmas.WalkFlip
import Verif.Props.DeltaFnBound
import Verif.Model.Infer
import Verif.Lemmas.Infer
import Verif.Props.Infer
import Verif.Spec.Evolve
import Verif.Model.Evolve
import Verif.Lemmas.Evolve
import Verif.Props.Evolve
import Verif.Spec.Independent
import Verif.Lemmas.Independent
import Verif.Props.Independent
import Verif.Spec.Sampling
import Verif.Props.Sampling
import Verif.Model.Container
import Verif.Props.Container
import Verif.Model.StepChain
import Verif.Props.StepChain
import Verif.Model.RVContState
import Verif.Props.RVContState
import Verif.Model.Importance
import Verif.Props.Importance
import Verif.Model.WalkMean
import Verif.Props.WalkMean
import Verif.Model.FieldCall
import Verif.Props.FieldCall
import Verif.Props.Details2
import Verif.Model.RVDraw
import Verif.Props.RVDraw
import Verif.Model.IntDelta
import Verif.Props.IntDelta
import Verif.Model.MatrixSim
import Verif.Props.MatrixSim
import Verif.Model.FuncRef
import Verif.Props.FuncRef
import Verif.Props.DeltaFnShift
import Verif.Props.DeltaFnShiftUp
import Verif.Props.Details3
import Verif.Props.FlatTarget
import Verif.Props.FlatTargetUp
import Verif.Props.FlatFreq
import Verif.Lemmas.ReversibleConv
import Verif.Lemmas.ReversibleLimit
import Verif.Lemmas.ReversiblePoint
import Verif.Props.AnyTarget
import Verif.Props.AnyTargetFreq
import Verif.Model.Icon
import Verif.Props.Icon
import Verif.Model.CondFn
import Verif.Props.CondFn
import Verif.Model.ExplicitDeps
import Verif.Props.ExplicitDeps
import Verif.Model.ExprSet
import Verif.Props.ExprSet
import Verif.Props.LargeNumbers
import Verif.Props.IterDict
import Verif.Props.Finite
