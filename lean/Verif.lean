import Verif.Model.Butcher
import Verif.Model.Double
import Verif.Model.Float
import Verif.Model.FloatCollocation
import Verif.Model.FloatDahlquist
import Verif.Model.FloatFlex
import Verif.Model.FloatIntegration
import Verif.Model.FloatNodes
import Verif.Model.FloatNum
import Verif.Model.FloatQDelta
import Verif.Model.FloatSDC
import Verif.Model.GenQ
import Verif.Model.Import
import Verif.Model.IntNodes
import Verif.Model.Lagrange
import Verif.Model.MinCoeffs
import Verif.Model.Nodes
import Verif.Model.Num
import Verif.Model.OrderSDC
import Verif.Model.Py
import Verif.Model.QCoeff
import Verif.Model.QDelta
import Verif.Model.QDeltaCache
import Verif.Model.QDeltaGen
import Verif.Model.QDeltaInputs
import Verif.Model.Quad
import Verif.Model.Registry
import Verif.Model.SDC
import Verif.Model.Sparse
import Verif.Model.Tables
import Verif.Model.Threads
import Verif.Model.Timer
import Verif.Model.TimerThreads
import Verif.Spec.ExactError
import Verif.Spec.FloatSDC
import Verif.Spec.FloatSDCCoeffs
import Verif.Spec.Mirrored
import Verif.Spec.ODEOrder
import Verif.Spec.Ortho
import Verif.Spec.Pade
import Verif.Spec.Poly
import Verif.Spec.Prev
import Verif.Spec.RKStep
import Verif.Spec.RootedTree
import Verif.Spec.Rounding
import Verif.Spec.SDC
import Verif.Spec.SDCStep
import Verif.Spec.SDCTime
import Verif.Spec.SDCTrees
import Verif.Spec.Stability
import Verif.Spec.StageBound
import Verif.Lemmas.AStable
import Verif.Lemmas.BConvergence
import Verif.Lemmas.BSeries
import Verif.Lemmas.BStable
import Verif.Lemmas.Butcher
import Verif.Lemmas.Cheby
import Verif.Lemmas.CollOrder
import Verif.Lemmas.Collocation
import Verif.Lemmas.Dahlquist
import Verif.Lemmas.Deriv
import Verif.Lemmas.Double
import Verif.Lemmas.DoubleBinary
import Verif.Lemmas.DoubleFail
import Verif.Lemmas.DoubleLagrange
import Verif.Lemmas.DoubleStable
import Verif.Lemmas.Dup
import Verif.Lemmas.Enclosure
import Verif.Lemmas.ExactError
import Verif.Lemmas.Fejer
import Verif.Lemmas.FloatCollocation
import Verif.Lemmas.FloatNodes
import Verif.Lemmas.FloatNum
import Verif.Lemmas.FloatQDelta
import Verif.Lemmas.FloatSDC
import Verif.Lemmas.FloatSDCCoeffs
import Verif.Lemmas.GlobalError
import Verif.Lemmas.GrowCert
import Verif.Lemmas.GrowTable
import Verif.Lemmas.HalfPlane
import Verif.Lemmas.HalfPlaneCert
import Verif.Lemmas.Hermite
import Verif.Lemmas.Integration
import Verif.Lemmas.Interp
import Verif.Lemmas.InterpError
import Verif.Lemmas.LDU
import Verif.Lemmas.Lagrange
import Verif.Lemmas.Lebesgue
import Verif.Lemmas.Legendre
import Verif.Lemmas.LocalError
import Verif.Lemmas.Markov
import Verif.Lemmas.MeasuredOrder
import Verif.Lemmas.MinCert
import Verif.Lemmas.MinCertNodes
import Verif.Lemmas.MinCertTable
import Verif.Lemmas.Nilpotent
import Verif.Lemmas.NodeEnclosure
import Verif.Lemmas.NodePerturb
import Verif.Lemmas.Nodes
import Verif.Lemmas.NodesGap
import Verif.Lemmas.NodesGapAll
import Verif.Lemmas.NodesMirror
import Verif.Lemmas.NodesOrth
import Verif.Lemmas.NodesSpec
import Verif.Lemmas.OrderTransfer
import Verif.Lemmas.Ortho
import Verif.Lemmas.OrthoRange
import Verif.Lemmas.Padding
import Verif.Lemmas.Pade
import Verif.Lemmas.PadeError
import Verif.Lemmas.ParallelSweeps
import Verif.Lemmas.PolyFunctional
import Verif.Lemmas.Powers
import Verif.Lemmas.QDeltaGen
import Verif.Lemmas.RKStab
import Verif.Lemmas.Rounding
import Verif.Lemmas.RoundingBinary
import Verif.Lemmas.RoundingIntegration
import Verif.Lemmas.RoundingLagrange
import Verif.Lemmas.SDC
import Verif.Lemmas.SDCArith
import Verif.Lemmas.SDCEquid
import Verif.Lemmas.SDCExact
import Verif.Lemmas.SDCLimits
import Verif.Lemmas.SDCOrder
import Verif.Lemmas.SDCRat
import Verif.Lemmas.SDCTableSound
import Verif.Lemmas.SDCTables
import Verif.Lemmas.SDCTransfer
import Verif.Lemmas.StageBound
import Verif.Lemmas.Stiff
import Verif.Lemmas.StiffSweep
import Verif.Lemmas.TableChecks
import Verif.Lemmas.TableSweeps
import Verif.Lemmas.TableSweepsEquid
import Verif.Lemmas.TableSweepsLegendre
import Verif.Lemmas.TaylorUniform
import Verif.Lemmas.TimeReversal
import Verif.Lemmas.TimeStep
import Verif.Lemmas.TreeNode
import Verif.Lemmas.TreeODE
import Verif.Lemmas.Trees
import Verif.Lemmas.TwoNodes
import Verif.Lemmas.Weyl
import Verif.Props.AStable
import Verif.Props.Algebraic
import Verif.Props.BConvergence
import Verif.Props.BStable
import Verif.Props.Butcher
import Verif.Props.ByName
import Verif.Props.CollExact
import Verif.Props.CollOrder
import Verif.Props.Collocation
import Verif.Props.Dahlquist
import Verif.Props.Double
import Verif.Props.Embedded
import Verif.Props.ErrorNorm
import Verif.Props.ExactError
import Verif.Props.ExactErrorTables
import Verif.Props.FlexAfter
import Verif.Props.Float
import Verif.Props.FloatCollocation
import Verif.Props.FloatDahlquist
import Verif.Props.FloatFlex
import Verif.Props.FloatIntegration
import Verif.Props.FloatNodes
import Verif.Props.FloatNum
import Verif.Props.FloatQDelta
import Verif.Props.FloatSDC
import Verif.Props.FloatSDCCoeffs
import Verif.Props.GenQ
import Verif.Props.GenQHeap
import Verif.Props.Import
import Verif.Props.IntNodes
import Verif.Props.Integration
import Verif.Props.IntegrationDup
import Verif.Props.Interval
import Verif.Props.Lagrange
import Verif.Props.LagrangeDup
import Verif.Props.LagrangeOrder
import Verif.Props.LagrangeWeights
import Verif.Props.LargeSteps
import Verif.Props.LeapFrog
import Verif.Props.Lebesgue
import Verif.Props.Legendre
import Verif.Props.MeasuredOrder
import Verif.Props.MinTables
import Verif.Props.Nilpotent
import Verif.Props.Nodes
import Verif.Props.NonlinearSweeps
import Verif.Props.NotReversible
import Verif.Props.Num
import Verif.Props.ODEOrder
import Verif.Props.ODEOrderSDC
import Verif.Props.OneSided
import Verif.Props.OrderInputs
import Verif.Props.OrderSDC
import Verif.Props.OrderSDCAll
import Verif.Props.Padding
import Verif.Props.Pade
import Verif.Props.ParallelSweeps
import Verif.Props.Params
import Verif.Props.ParamsClasses
import Verif.Props.QBased
import Verif.Props.QDelta
import Verif.Props.QDeltaCache
import Verif.Props.QDeltaInputs
import Verif.Props.QDeltaSweeps
import Verif.Props.RKBStable
import Verif.Props.RKHCoeffs
import Verif.Props.RKStab
import Verif.Props.Registry
import Verif.Props.RegistryTrace
import Verif.Props.SDC
import Verif.Props.SDCLimits
import Verif.Props.SDCOrder
import Verif.Props.SDCSweeps
import Verif.Props.SDCTime
import Verif.Props.Smooth
import Verif.Props.SmoothSparse
import Verif.Props.Sparse
import Verif.Props.StageBound
import Verif.Props.Stiff
import Verif.Props.StiffForced
import Verif.Props.TableSweeps
import Verif.Props.Threads
import Verif.Props.ThreadsCache
import Verif.Props.TimeReversal
import Verif.Props.TimeStep
import Verif.Props.Timer
import Verif.Props.TimerThreads
import Verif.Props.Transfer
import Verif.Props.Trees
import Verif.Props.TwoNodes
