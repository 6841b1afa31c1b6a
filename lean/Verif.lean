import Verif.Model.Bool3
import Verif.Model.IntUtil
import Verif.Model.Expr
import Verif.Model.ExprLemmas
import Verif.Model.RealInterp
import Verif.Model.Blackboard
import Verif.Props.Bool3
import Verif.Props.IntUtil
import Verif.Props.Expr
import Verif.Props.Collect
import Verif.Props.Blackboard
import Verif.Props.BlackboardHist
import Verif.Props.BlackboardSem
import Verif.Model.SumPoly
import Verif.Model.SumTrig
import Verif.Model.Decomp
import Verif.Props.SumPoly
import Verif.Props.SumTrig
import Verif.Props.Decomp
import Verif.Model.Interval
import Verif.Props.Interval
import Verif.Props.IntervalOps
import Verif.Props.IntervalArith
import Verif.Model.Rename
import Verif.Props.Rename
import Verif.Model.Recurrence
import Verif.Props.Recurrence
import Verif.Props.RecurrenceHist
import Verif.Props.RecurrenceObj
import Verif.Props.RecurrenceRej
import Verif.Props.RecurrenceEval
import Verif.Model.AlgEq
import Verif.Props.AlgEq
import Verif.Props.AlgEqNested
import Verif.Props.AlgEqBinomial
import Verif.Props.AlgEqRoots
import Verif.Props.AlgEqFind
import Verif.Props.AlgEqAll
import Verif.Props.AlgEqMult
import Verif.Model.Exact
import Verif.Props.ExactCore
import Verif.Props.ExactOld
import Verif.Props.ExactFund
import Verif.Props.ExactNew
import Verif.Props.ExactComplete
import Verif.Props.ExactMore
import Verif.Props.ExactEnd
import Verif.Model.OrderRed
import Verif.Props.OrderRed
import Verif.Props.OrderRedExp
import Verif.Model.WeightedAvg
import Verif.Props.WeightedAvg
import Verif.Model.NonLinear
import Verif.Props.NonLinear
import Verif.Model.Classify
import Verif.Props.Classify
import Verif.Model.Eliminate
import Verif.Props.Eliminate
import Verif.Model.Bounds
import Verif.Props.BoundsReal
import Verif.Props.BoundsLog
import Verif.Props.Bounds
import Verif.Props.BoundsMain
import Verif.Props.BoundsRefuted
import Verif.Props.BoundsMono
import Verif.Model.Functional
import Verif.Props.Functional
import Verif.Props.Monotone
import Verif.Model.Verify
import Verif.Props.Verify
import Verif.Props.VerifyRefuted
import Verif.Props.VerifyWA
import Verif.Model.Resultant
import Verif.Props.Resultant
import Verif.Props.VerifyIC
import Verif.Model.EvalRules
import Verif.Props.EvalRules
import Verif.Props.EvalRulesSym
import Verif.Model.Product
import Verif.Props.Product
import Verif.Model.Factorize
import Verif.Model.NumDen
import Verif.Props.Factorize
import Verif.Props.NumDen
import Verif.Model.Gosper
import Verif.Props.Gosper
import Verif.Model.Zeilberger
import Verif.Props.Zeilberger
import Verif.Model.SimplifyRoot
import Verif.Props.SimplifyRoot
import Verif.Model.SimplifyPow
import Verif.Props.SimplifyPow
import Verif.Model.SimplifyFact
import Verif.Props.SimplifyFact
import Verif.Model.SimplifySum
import Verif.Props.SimplifySum
import Verif.Model.SimplifyLog
import Verif.Props.SimplifyLog
import Verif.Props.SimplifyLogTerm
import Verif.Model.SimplifyOut
import Verif.Props.SimplifyOut
import Verif.Model.SimplifyAll
import Verif.Props.SimplifyAll
import Verif.Model.PolyFactor
import Verif.Props.PolyFactor
import Verif.Model.OnIC
import Verif.Props.OnIC
import Verif.Props.OnICMore
import Verif.Model.BoundSums
import Verif.Props.BoundSums
import Verif.Props.BoundSumsLower
import Verif.Model.NonLinearBounds
import Verif.Props.NonLinearBounds
import Verif.Props.OnICRest
import Verif.Model.IntervalMore
import Verif.Props.IntervalMul
import Verif.Props.IntervalDiv
import Verif.Props.IntervalFun
import Verif.Props.IntervalWiden
import Verif.Props.IntervalPow
import Verif.Props.IntervalTrig
import Verif.Props.Capstone
import Verif.Props.CapstoneExact
import Verif.Props.CapstoneBounds
import Verif.Model.VerifyObj
import Verif.Props.VerifyObj
import Verif.Props.VerifyPartial
import Verif.Props.VerifyComplete
import Verif.Model.SolveLinear
import Verif.Props.SolveLinear
import Verif.Props.SolveLinearEx
import Verif.Props.ExactUnique
import Verif.Props.SolveLinearComplete
import Verif.Props.SolveLinearCompleteEx
import Verif.Props.CapstoneLinear
import Verif.Props.Scalar
import Verif.Props.CapstoneLinearEx
import Verif.Props.CapstoneReduce
import Verif.Props.CapstoneReduceEx
import Verif.Model.FirstIndex
import Verif.Props.FirstIndex
import Verif.Props.CapstoneVar
import Verif.Props.CapstoneVarEx
import Verif.Props.CapstoneDiv
import Verif.Props.CapstoneDivEx
import Verif.Model.WeightedExtract
import Verif.Props.WeightedExtract
import Verif.Props.WeightedExtractEx
import Verif.Props.CapstoneWA
import Verif.Props.CapstoneWAEx
import Verif.Props.WeightedFirst
import Verif.Props.OrderZero
import Verif.Props.OrderZeroEx
import Verif.Model.MaxRec
import Verif.Props.MaxRec
import Verif.Props.MaxRecEx
import Verif.Props.CapstoneNeg
import Verif.Props.CapstoneNegEx
import Verif.Props.CapstonePow
import Verif.Props.CapstonePowEx
import Verif.Props.IntervalCompare
import Verif.Props.VerifyBound
import Verif.Props.VerifyBoundEx
import Verif.Model.OldMethod
import Verif.Props.OldMethod
import Verif.Props.OldMethodEx
import Verif.Model.OldOrder1
import Verif.Props.OldOrder1
import Verif.Props.OldOrder1Ex
import Verif.Model.FactorizeGiac
import Verif.Props.FactorizeGiac
import Verif.Props.FactorizeGiacEx
import Verif.Props.BlackboardNames
import Verif.Props.ZeilbergerLoop
