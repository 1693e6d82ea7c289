import Verif.Jax.Core
import Verif.Jax.Ieee
import Verif.Jax.NDArr
import Verif.Lemmas.Adaptive
import Verif.Lemmas.AnyOrder
import Verif.Lemmas.Autocov
import Verif.Lemmas.Averages
import Verif.Lemmas.Basic
import Verif.Lemmas.BundleFrame
import Verif.Lemmas.BundleRun
import Verif.Lemmas.ChainAverages
import Verif.Lemmas.Compose
import Verif.Lemmas.Condition
import Verif.Lemmas.Converge
import Verif.Lemmas.ConvergeMH
import Verif.Lemmas.Covering
import Verif.Lemmas.ErrorBars
import Verif.Lemmas.FlowDensity
import Verif.Lemmas.FlowRows
import Verif.Lemmas.Freeze
import Verif.Lemmas.Fresh
import Verif.Lemmas.Gap
import Verif.Lemmas.Gaussian
import Verif.Lemmas.HilbertPowers
import Verif.Lemmas.Ideal
import Verif.Lemmas.Liouville
import Verif.Lemmas.ListMeas
import Verif.Lemmas.LoopAverages
import Verif.Lemmas.LoopErrors
import Verif.Lemmas.LoopMeas
import Verif.Lemmas.Metropolis
import Verif.Lemmas.MinRate
import Verif.Lemmas.NDArr
import Verif.Lemmas.OutChain
import Verif.Lemmas.Paths
import Verif.Lemmas.Positive
import Verif.Lemmas.RunMeas
import Verif.Lemmas.ShortTrajectory
import Verif.Lemmas.Spline
import Verif.Lemmas.SplineMeas
import Verif.Lemmas.StepCall
import Verif.Lemmas.Sweep
import Verif.Lemmas.Toy
import Verif.Lemmas.TrainMeas
import Verif.Lemmas.TransOp
import Verif.Lemmas.Transport
import Verif.Lemmas.Unbounded
import Verif.Lemmas.Uniform
import Verif.Lemmas.WallAdaptive
import Verif.Lemmas.WallMeas
import Verif.Lemmas.WallRate
import Verif.Model.Adam
import Verif.Model.Bundle
import Verif.Model.Composable
import Verif.Model.Coupling
import Verif.Model.FMTrain
import Verif.Model.FlowMatching
import Verif.Model.GenFlow
import Verif.Model.Hamiltonian
import Verif.Model.Histogram
import Verif.Model.Kernels
import Verif.Model.Loss
import Verif.Model.Optimizer
import Verif.Model.RQSpline
import Verif.Model.RealNVP
import Verif.Model.Resource
import Verif.Model.Sampler
import Verif.Model.Serialise
import Verif.Model.Shared
import Verif.Model.Stats
import Verif.Model.Strategies
import Verif.Model.Tempering
import Verif.Model.Train
import Verif.Model.TrainStep
import Verif.Props.AcceptRate
import Verif.Props.AcceptRateExamples
import Verif.Props.Adam
import Verif.Props.AdamDraws
import Verif.Props.AdaptiveAverages
import Verif.Props.AdaptiveChains
import Verif.Props.AdaptiveRun
import Verif.Props.AnyOrder
import Verif.Props.AnyOrderExamples
import Verif.Props.Autocovariance
import Verif.Props.AutocovarianceExamples
import Verif.Props.Averages
import Verif.Props.Backwards
import Verif.Props.BackwardsExamples
import Verif.Props.Bias
import Verif.Props.BiasExamples
import Verif.Props.Buffers
import Verif.Props.BundleBatching
import Verif.Props.BundleRun
import Verif.Props.BundleTraining
import Verif.Props.Bundles
import Verif.Props.ChainAverages
import Verif.Props.ChainAveragesExamples
import Verif.Props.Chains
import Verif.Props.Climb
import Verif.Props.ClimbNoise
import Verif.Props.CloseLadder
import Verif.Props.CloseLadderExamples
import Verif.Props.Collapse
import Verif.Props.CollapseExamples
import Verif.Props.CollapseReal
import Verif.Props.Composable
import Verif.Props.Compose
import Verif.Props.ComposeExamples
import Verif.Props.Converge
import Verif.Props.ConvergeExamples
import Verif.Props.ConvergeRun
import Verif.Props.Coupling
import Verif.Props.Decay
import Verif.Props.DecayExamples
import Verif.Props.Doeblin
import Verif.Props.Draws
import Verif.Props.ErrorBars
import Verif.Props.ErrorBarsExamples
import Verif.Props.Exchange
import Verif.Props.Extend
import Verif.Props.ExtendTraining
import Verif.Props.FMTrain
import Verif.Props.FlowChains
import Verif.Props.FlowDensity
import Verif.Props.FlowDiagnostics
import Verif.Props.FlowDiagnosticsExamples
import Verif.Props.FlowFalse
import Verif.Props.FlowGuard
import Verif.Props.FlowInit
import Verif.Props.FlowMatching
import Verif.Props.Frozen
import Verif.Props.HMC
import Verif.Props.HMCAlone
import Verif.Props.HMCAloneExamples
import Verif.Props.HMCFalse
import Verif.Props.Histogram
import Verif.Props.IdealTemper
import Verif.Props.IdealWorld
import Verif.Props.Improve
import Verif.Props.ImproveExamples
import Verif.Props.Inexact
import Verif.Props.InexactExamples
import Verif.Props.InitialHamiltonian
import Verif.Props.Intervals
import Verif.Props.IntervalsExamples
import Verif.Props.Keys
import Verif.Props.Learning
import Verif.Props.LearningExamples
import Verif.Props.Likelihood
import Verif.Props.Metropolis
import Verif.Props.Misfit
import Verif.Props.MisfitFlows
import Verif.Props.MisfitRun
import Verif.Props.Noninterference
import Verif.Props.Optimization
import Verif.Props.Pooled
import Verif.Props.PooledExamples
import Verif.Props.Positive
import Verif.Props.PositiveExamples
import Verif.Props.Precision
import Verif.Props.ProdLoops
import Verif.Props.Production
import Verif.Props.ProductionExamples
import Verif.Props.ProductionRun
import Verif.Props.Proposals
import Verif.Props.RealNVPFormula
import Verif.Props.Rungs
import Verif.Props.RungsExamples
import Verif.Props.SameKernels
import Verif.Props.SameKernelsExamples
import Verif.Props.SamplerProps
import Verif.Props.Schedule
import Verif.Props.SecondRun
import Verif.Props.Serialise
import Verif.Props.Shared
import Verif.Props.SmallSteps
import Verif.Props.SmallStepsExamples
import Verif.Props.Special
import Verif.Props.Spline
import Verif.Props.SplineBroken
import Verif.Props.SplineFormula
import Verif.Props.SplitCalls
import Verif.Props.SplitCallsExamples
import Verif.Props.StateHistory
import Verif.Props.StepCall
import Verif.Props.StepLog
import Verif.Props.Steps
import Verif.Props.TemperBias
import Verif.Props.TemperBundle
import Verif.Props.TemperChains
import Verif.Props.TemperLaw
import Verif.Props.TemperTotal
import Verif.Props.TemperedTarget
import Verif.Props.Tempering
import Verif.Props.Thinning
import Verif.Props.ThinningExamples
import Verif.Props.Totality
import Verif.Props.TrainCall
import Verif.Props.TrainSource
import Verif.Props.TrainTravel
import Verif.Props.TrainedSpline
import Verif.Props.TrainedSplineExamples
import Verif.Props.Training
import Verif.Props.Traps
import Verif.Props.Unbounded
import Verif.Props.UnboundedExamples
import Verif.Props.Units
import Verif.Props.UpToConstant
import Verif.Props.Visits
import Verif.Props.VisitsExamples
import Verif.Props.WallAdaptive
import Verif.Props.WallAdaptiveExamples
import Verif.Props.WallAverages
import Verif.Props.WallAveragesExamples
import Verif.Props.WallChains
import Verif.Props.WallConverge
import Verif.Props.WallConvergeExamples
import Verif.Props.WallConvergeRun
import Verif.Props.WallErrorBars
import Verif.Props.WallErrorBarsExamples
import Verif.Props.WallExamples
import Verif.Props.WallProduction
import Verif.Props.WallSweep
import Verif.Props.WallVisits
import Verif.Props.WallVisitsExamples
import Verif.Props.Walls
import Verif.Props.WitnessBundleTraining
import Verif.Props.WitnessCalls
import Verif.Props.WitnessExtend
import Verif.Props.WitnessExtendTraining
import Verif.Props.WitnessFlows
import Verif.Props.WitnessKernels
import Verif.Props.WitnessRuns
import Verif.Props.WitnessShared
import Verif.Props.WitnessTemper
import Verif.Props.WitnessTraining
import Verif.Props.WitnessTraps
import Verif.Spec.Acceptance
import Verif.Spec.AdamDraws
import Verif.Spec.Adaptive
import Verif.Spec.Agree
import Verif.Spec.BundleRun
import Verif.Spec.Climb
import Verif.Spec.Collapse
import Verif.Spec.Composable
import Verif.Spec.Compose
import Verif.Spec.Converge
import Verif.Spec.Draws
import Verif.Spec.ErrorBars
import Verif.Spec.Files
import Verif.Spec.Flow
import Verif.Spec.FlowInit
import Verif.Spec.FlowLaw
import Verif.Spec.Hamiltonian
import Verif.Spec.Histogram
import Verif.Spec.Ideal
import Verif.Spec.Improve
import Verif.Spec.Intervals
import Verif.Spec.Keys
import Verif.Spec.Learning
import Verif.Spec.Log
import Verif.Spec.Markov
import Verif.Spec.Misfit
import Verif.Spec.Networks
import Verif.Spec.Ode
import Verif.Spec.Run
import Verif.Spec.Rungs
import Verif.Spec.Serialise
import Verif.Spec.Shared
import Verif.Spec.SplineFormula
import Verif.Spec.StepCall
import Verif.Spec.TrainedSpline
import Verif.Spec.Training
import Verif.Spec.Traps
import Verif.Spec.Units
import Verif.Spec.UpToConstant
import Verif.Spec.Visits
import Verif.Spec.WallAverages
import Verif.Spec.WallErrorBars
import Verif.Spec.WallVisits
import Verif.Spec.Walls
