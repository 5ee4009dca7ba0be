import Verif.Model.ALCost
import Verif.Model.ALSolver
import Verif.Model.Arith
import Verif.Model.ArithKP
import Verif.Model.Benchmark
import Verif.Model.Cholesky
import Verif.Model.ConArith
import Verif.Model.ConInfo
import Verif.Model.Concrete
import Verif.Model.Cones
import Verif.Model.ConstraintValues
import Verif.Model.DerivCheck
import Verif.Model.Double
import Verif.Model.DynCheck
import Verif.Model.ExampleProblems
import Verif.Model.ExampleSolvers
import Verif.Model.Examples
import Verif.Model.Float
import Verif.Model.FloatCholesky
import Verif.Model.FloatIntegration
import Verif.Model.ILQR
import Verif.Model.InexactGains
import Verif.Model.Integration
import Verif.Model.KnotData
import Verif.Model.KnotPoint
import Verif.Model.Launcher
import Verif.Model.Lifecycle
import Verif.Model.Logger
import Verif.Model.LoggerMove
import Verif.Model.NaN
import Verif.Model.Options
import Verif.Model.Parallel
import Verif.Model.Pool
import Verif.Model.PoolMove
import Verif.Model.Problem
import Verif.Model.ProblemRanges
import Verif.Model.ProfileOutput
import Verif.Model.Queue
import Verif.Model.Report
import Verif.Model.SolverMove
import Verif.Model.Stats
import Verif.Model.StatsCopy
import Verif.Model.StatsMove
import Verif.Model.Tasks
import Verif.Model.Timer
import Verif.Model.Trajectory
import Verif.Model.TrajectoryMemory
import Verif.Model.TwoNorm
import Verif.Model.Validate
import Verif.Proofs.ALRate
import Verif.Proofs.ALRepeat
import Verif.Proofs.ALSolver
import Verif.Proofs.AffineKnot
import Verif.Proofs.ArithKP
import Verif.Proofs.Calculus
import Verif.Proofs.Cholesky
import Verif.Proofs.Concrete
import Verif.Proofs.Constraints
import Verif.Proofs.ConvexAL
import Verif.Proofs.ConvexIter
import Verif.Proofs.ConvexRate
import Verif.Proofs.ConvexSolve
import Verif.Proofs.ConvexStep
import Verif.Proofs.ConvexSweep
import Verif.Proofs.Descent
import Verif.Proofs.Double
import Verif.Proofs.DoubleOrder
import Verif.Proofs.DoubleSum
import Verif.Proofs.ErrorBound
import Verif.Proofs.Examples
import Verif.Proofs.Float
import Verif.Proofs.FloatCholesky
import Verif.Proofs.FloatIntegration
import Verif.Proofs.ILQR
import Verif.Proofs.Inexact
import Verif.Proofs.Integration
import Verif.Proofs.IntegrationOrder
import Verif.Proofs.KKT
import Verif.Proofs.KKTLimit
import Verif.Proofs.LQCore
import Verif.Proofs.LQMultipliers
import Verif.Proofs.LQRate
import Verif.Proofs.LQSaddle
import Verif.Proofs.LQStrong
import Verif.Proofs.Limits
import Verif.Proofs.LineSearch
import Verif.Proofs.Multipliers
import Verif.Proofs.NewtonIter
import Verif.Proofs.NewtonLoop
import Verif.Proofs.NewtonProblem
import Verif.Proofs.NewtonStep
import Verif.Proofs.NewtonSweep
import Verif.Proofs.Parallel
import Verif.Proofs.Pool
import Verif.Proofs.PoolLive
import Verif.Proofs.PoolStop
import Verif.Proofs.Problem
import Verif.Proofs.ProblemAccept
import Verif.Proofs.Progress
import Verif.Proofs.Proximal
import Verif.Proofs.QPDual
import Verif.Proofs.Quadratic
import Verif.Proofs.Qualification
import Verif.Proofs.Queue
import Verif.Proofs.RegularBound
import Verif.Proofs.RegularPoint
import Verif.Proofs.RegularRows
import Verif.Proofs.Repeat
import Verif.Proofs.RungeKutta
import Verif.Proofs.RungeKuttaGlobal
import Verif.Proofs.RungeKuttaJets
import Verif.Proofs.Slater
import Verif.Proofs.SmoothAL
import Verif.Proofs.SmoothBounds
import Verif.Proofs.SmoothFamily
import Verif.Proofs.SmoothIter
import Verif.Proofs.SmoothKnot
import Verif.Proofs.SmoothLagrangian
import Verif.Proofs.SmoothLimits
import Verif.Proofs.SmoothLoop
import Verif.Proofs.SmoothModels
import Verif.Proofs.SmoothMult
import Verif.Proofs.SmoothOuter
import Verif.Proofs.SmoothSolve
import Verif.Proofs.SmoothStat
import Verif.Proofs.SmoothStep
import Verif.Proofs.Solution
import Verif.Proofs.Solve
import Verif.Proofs.Sweep
import Verif.Proofs.Tasks
import Verif.Proofs.Timer
import Verif.Proofs.TrajectoryMemory
import Verif.Proofs.TripleExample
import Verif.Props.ALConcrete
import Verif.Props.ALConverge
import Verif.Props.ALExamples
import Verif.Props.ALLimits
import Verif.Props.ALRate
import Verif.Props.ALRepeat
import Verif.Props.ALSolver
import Verif.Props.ArithKP
import Verif.Props.AugLagCalculus
import Verif.Props.Benchmark
import Verif.Props.BuildAugLag
import Verif.Props.Cholesky
import Verif.Props.ConInfo
import Verif.Props.ConstraintExamples
import Verif.Props.Constraints
import Verif.Props.Constructed
import Verif.Props.ConvexRate
import Verif.Props.ConvexWhole
import Verif.Props.ConvexWholeExamples
import Verif.Props.DefaultPenalties
import Verif.Props.DerivCheck
import Verif.Props.DerivCheckRandom
import Verif.Props.Descent
import Verif.Props.Double
import Verif.Props.DoubleCon
import Verif.Props.DoubleOps
import Verif.Props.DoublePenalties
import Verif.Props.DoubleSum
import Verif.Props.DynCheck
import Verif.Props.ExampleCosts
import Verif.Props.ExampleProblems
import Verif.Props.ExampleSolvers
import Verif.Props.Examples
import Verif.Props.ExpectedDecrease
import Verif.Props.FiniteDiff
import Verif.Props.FloatCholesky
import Verif.Props.FloatDescent
import Verif.Props.FloatIntegration
import Verif.Props.FloatLineSearch
import Verif.Props.FreshSolver
import Verif.Props.ILQR
import Verif.Props.ILQRBackward
import Verif.Props.ILQRExamples
import Verif.Props.ILQRRecords
import Verif.Props.InexactGains
import Verif.Props.Integration
import Verif.Props.IntegrationOrder
import Verif.Props.KKT
import Verif.Props.KKTLimit
import Verif.Props.KKTLimitExamples
import Verif.Props.KnotData
import Verif.Props.KnotPoint
import Verif.Props.LQ
import Verif.Props.LQConstrained
import Verif.Props.LQExamples
import Verif.Props.LQInequality
import Verif.Props.LQSolve
import Verif.Props.LQWhole
import Verif.Props.Launcher
import Verif.Props.Lifecycle
import Verif.Props.Limits
import Verif.Props.LimitsExamples
import Verif.Props.Logger
import Verif.Props.LoggerKeys
import Verif.Props.LoggerMove
import Verif.Props.NaN
import Verif.Props.NearOptimal
import Verif.Props.NearOptimalExamples
import Verif.Props.Newton
import Verif.Props.NewtonExamples
import Verif.Props.Parallel
import Verif.Props.Penalties
import Verif.Props.PenaltyLimit
import Verif.Props.Pool
import Verif.Props.PoolLive
import Verif.Props.PoolMove
import Verif.Props.Problem
import Verif.Props.ProblemRanges
import Verif.Props.ProfileOutput
import Verif.Props.Progress
import Verif.Props.Qualification
import Verif.Props.QualificationExact
import Verif.Props.QualificationExamples
import Verif.Props.Queue
import Verif.Props.Regular
import Verif.Props.RegularExamples
import Verif.Props.Repeat
import Verif.Props.Report
import Verif.Props.Slater
import Verif.Props.SlaterExamples
import Verif.Props.Smooth
import Verif.Props.SmoothExamples
import Verif.Props.SmoothWhole
import Verif.Props.SolverMove
import Verif.Props.Stats
import Verif.Props.StatsCopy
import Verif.Props.StatsMove
import Verif.Props.Sweep
import Verif.Props.Tasks
import Verif.Props.Timer
import Verif.Props.Trajectory
import Verif.Props.TrajectoryMemory
import Verif.Props.TripleExample
import Verif.Props.Validate
import Verif.Props.ViolationOf
import Verif.Props.WarmStart
import Verif.Spec.ALRate
import Verif.Spec.ALRepeat
import Verif.Spec.ALSolver
import Verif.Spec.ArithKP
import Verif.Spec.Calculus
import Verif.Spec.Constraints
import Verif.Spec.Convex
import Verif.Spec.DerivCheck
import Verif.Spec.Descent
import Verif.Spec.Double
import Verif.Spec.DoubleCon
import Verif.Spec.DoubleSum
import Verif.Spec.Dynamics
import Verif.Spec.ExampleSolvers
import Verif.Spec.FloatCholesky
import Verif.Spec.FloatIntegration
import Verif.Spec.ILQR
import Verif.Spec.InexactGains
import Verif.Spec.IntegrationOrder
import Verif.Spec.KKT
import Verif.Spec.LQ
import Verif.Spec.LQEquality
import Verif.Spec.LQInequality
import Verif.Spec.Limits
import Verif.Spec.Logger
import Verif.Spec.LoggerKeys
import Verif.Spec.LoggerValues
import Verif.Spec.NearKKT
import Verif.Spec.NearOptimal
import Verif.Spec.Newton
import Verif.Spec.Problem
import Verif.Spec.ProfileOutput
import Verif.Spec.Progress
import Verif.Spec.Quadratic
import Verif.Spec.Qualification
import Verif.Spec.Queue
import Verif.Spec.Repeat
import Verif.Spec.SecondOrder
import Verif.Spec.Slater
import Verif.Spec.Smooth
import Verif.Spec.Stats
import Verif.Spec.Sweeps
import Verif.Spec.Tasks
import Verif.Spec.Timer
import Verif.Spec.TrajectoryValues
import Verif.Spec.Validate
import Verif.Tactics
