import Verif.Cost.Angle
import Verif.Cost.Chain
import Verif.Cost.ClosestGrad
import Verif.Cost.Commuting
import Verif.Cost.Continuous
import Verif.Cost.Deterministic
import Verif.Cost.Dissipation
import Verif.Cost.Estimator
import Verif.Cost.Existence
import Verif.Cost.Fidelity
import Verif.Cost.Gauge
import Verif.Cost.Gradient
import Verif.Cost.Grape
import Verif.Cost.LeakTotal
import Verif.Cost.Leakage
import Verif.Cost.Legacy
import Verif.Cost.LindbladTotal
import Verif.Cost.Master
import Verif.Cost.MatrixNorm
import Verif.Cost.MethodError
import Verif.Cost.Model
import Verif.Cost.NoiseTotal
import Verif.Cost.NormGrad
import Verif.Cost.OpenCovariance
import Verif.Cost.OpenExistence
import Verif.Cost.OpenForget
import Verif.Cost.OpenLeak
import Verif.Cost.OpenLimits
import Verif.Cost.OpenSampled
import Verif.Cost.OpenSensitivity
import Verif.Cost.OpenSequence
import Verif.Cost.OpenSubsystems
import Verif.Cost.OpenWorst
import Verif.Cost.Sensitivity
import Verif.Cost.Smooth
import Verif.Cost.Solver
import Verif.Cost.SpectralGradient
import Verif.Cost.SpectralOpen
import Verif.Cost.State
import Verif.Cost.StochGrad
import Verif.Cost.Subspace
import Verif.Cost.SupRange
import Verif.Cost.Systematic
import Verif.Cost.Total
import Verif.Cost.Uniqueness
import Verif.Cost.Worst
import Verif.Data.Analyser
import Verif.Data.Best
import Verif.Data.Bloch
import Verif.Data.Container
import Verif.Data.ContainerThms
import Verif.Data.Parallel
import Verif.Data.Plot
import Verif.Data.Spectrum
import Verif.Data.Stats
import Verif.Noise.Colored
import Verif.Noise.Erf
import Verif.Noise.Gauss
import Verif.Noise.Model
import Verif.Noise.Quadrature
import Verif.Noise.QuasiStatic
import Verif.Noise.Redraw
import Verif.Noise.Sample2d
import Verif.Noise.Stationary
import Verif.Noise.Variance
import Verif.Operator.Array
import Verif.Operator.ClosestUnitary
import Verif.Operator.DexpThms
import Verif.Operator.Duhamel
import Verif.Operator.Exp
import Verif.Operator.ExpThms
import Verif.Operator.Heap
import Verif.Operator.HeapThms
import Verif.Operator.MatDeriv
import Verif.Operator.Methods
import Verif.Operator.Ptrace
import Verif.Operator.PtraceLemmas
import Verif.Operator.PtraceThms
import Verif.Operator.Truncate
import Verif.Operator.VecThms
import Verif.Optim.Anneal
import Verif.Optim.AnnealRun
import Verif.Optim.Count
import Verif.Optim.Flatten
import Verif.Optim.Model
import Verif.Optim.Records
import Verif.Optim.Run
import Verif.Optim.Scalar
import Verif.Optim.Termination
import Verif.Optim.Violations
import Verif.Py
import Verif.Sim.CommutingNoise
import Verif.Sim.Compare
import Verif.Sim.Composition
import Verif.Sim.Conjugation
import Verif.Sim.ConjugationNoise
import Verif.Sim.ConjugationOpen
import Verif.Sim.Conserved
import Verif.Sim.ConservedOpen
import Verif.Sim.ControlNoise
import Verif.Sim.Covariance
import Verif.Sim.Crosstalk
import Verif.Sim.Curve
import Verif.Sim.EstimatorState
import Verif.Sim.FiniteDiff
import Verif.Sim.History
import Verif.Sim.InverseNoise
import Verif.Sim.LeakSequence
import Verif.Sim.Lemmas
import Verif.Sim.Limits
import Verif.Sim.Mirror
import Verif.Sim.MirrorNoise
import Verif.Sim.Mixing
import Verif.Sim.MixingNoise
import Verif.Sim.MixingOpen
import Verif.Sim.Model
import Verif.Sim.NoPulse
import Verif.Sim.NoiseAmplitudes
import Verif.Sim.NoiseDescriptions
import Verif.Sim.NoiseModels
import Verif.Sim.NoiseSequence
import Verif.Sim.NoisyPreparation
import Verif.Sim.Numeric
import Verif.Sim.Preparation
import Verif.Sim.Refine
import Verif.Sim.RefinedNoise
import Verif.Sim.RefinedOpen
import Verif.Sim.Schroed
import Verif.Sim.Sequence
import Verif.Sim.Subsystems
import Verif.Sim.SubsystemsNoise
import Verif.Sim.Thms
import Verif.Sim.Truncation
import Verif.Sim.TruncationNoise
import Verif.Sim.TruncationOpen
import Verif.Sim.Vectorize
import Verif.Solver.Alias
import Verif.Solver.Cache
import Verif.Solver.CacheThms
import Verif.Solver.InitAmps
import Verif.Solver.Lemmas
import Verif.Solver.Lindblad
import Verif.Solver.LindbladAfterError
import Verif.Solver.LindbladCache
import Verif.Solver.LindbladCacheThms
import Verif.Solver.LindbladErrors
import Verif.Solver.LindbladThms
import Verif.Solver.Model
import Verif.Solver.MonteCarlo
import Verif.Solver.MonteCarloCache
import Verif.Solver.MonteCarloCacheThms
import Verif.Solver.MonteCarloErrors
import Verif.Solver.MonteCarloThms
import Verif.Solver.NoiseTrace
import Verif.Solver.OpenCompose
import Verif.Solver.Positivity
import Verif.Solver.PropThms
import Verif.Solver.PulseGrad
import Verif.Solver.PulseSeq
import Verif.Solver.Unital
import Verif.Transfer.Adjoint
import Verif.Transfer.Check
import Verif.Transfer.ComposeLemmas
import Verif.Transfer.ComposeThms
import Verif.Transfer.Convolution
import Verif.Transfer.ConvolutionModes
import Verif.Transfer.Custom
import Verif.Transfer.Exponential
import Verif.Transfer.ExponentialThms
import Verif.Transfer.GaussianMtf
import Verif.Transfer.Lemmas
import Verif.Transfer.Lengths
import Verif.Transfer.Model
import Verif.Transfer.MtfModel
import Verif.Transfer.MtfThms
import Verif.Transfer.PlotPulse
import Verif.Transfer.RetimeThms
import Verif.Transfer.Reverse
import Verif.Transfer.RunLemmas
import Verif.Transfer.TimesThms
