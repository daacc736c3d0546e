import Verif.Model.Py
import Verif.Model.Smc
import Verif.Spec.Smc
import Verif.Lemmas.Smc
import Verif.Lemmas.SmcFields
import Verif.Lemmas.SmcMicro
import Verif.Demo.Smc
import Verif.Props.SmcCore
import Verif.Lemmas.SmcHistory
import Verif.Props.SmcHistory
import Verif.Model.Particle
import Verif.Lemmas.Particle
import Verif.Props.Particle
import Verif.Props.Risk
import Verif.Model.Resample
import Verif.Lemmas.Resample
import Verif.Props.Resample
import Verif.Model.Domain
import Verif.Props.Domain
import Verif.Model.Simplex
import Verif.Props.Simplex
import Verif.Model.Outcome
import Verif.Props.Outcome
import Verif.Props.Pdf
import Verif.Props.TestModels
import Verif.Model.Chain
import Verif.Props.Chain
import Verif.Model.Ale
import Verif.Props.Ale
import Verif.Model.Parallel
import Verif.Props.Parallel
import Verif.Model.Mixed
import Verif.Lemmas.Mixed
import Verif.Props.Mixed
import Verif.Model.Designer
import Verif.Props.Designer
import Verif.Model.Perf
import Verif.Props.Perf
import Verif.Props.SmcMore
import Verif.Model.Dists
import Verif.Lemmas.Moments
import Verif.Props.Dists
import Verif.Model.Walk
import Verif.Props.Walk
import Verif.Model.Bcrb
import Verif.Props.Bcrb
import Verif.Model.Bases
import Verif.Spec.Tomo
import Verif.Lemmas.Bases
import Verif.Lemmas.BasesMore
import Verif.Props.Bases
import Verif.Model.Tomo
import Verif.Spec.Density
import Verif.Lemmas.Tomo
import Verif.Lemmas.TomoModel
import Verif.Props.Tomo
import Verif.Props.DiffTomo
import Verif.Model.Heur
import Verif.Props.Heur
import Verif.Model.Score
import Verif.Props.Score
import Verif.Model.TomoDist
import Verif.Props.TomoDist
import Verif.Model.SimpleDists
import Verif.Props.SimpleDists
import Verif.Model.Estimates
import Verif.Lemmas.Mvee
import Verif.Lemmas.MveeLoop
import Verif.Props.Estimates
import Verif.Props.Ellipsoid
import Verif.Model.SimpleEst
import Verif.Model.PerfTest
import Verif.Props.SimpleEst
import Verif.Props.SimpleEstPrec
import Verif.Props.ShortenRight
import Verif.Props.PerfTest
import Verif.Props.PrettyTime
import Verif.Model.GaussHyper
import Verif.Model.Multinomial
import Verif.Model.Derived
import Verif.Props.GaussHyper
import Verif.Props.Multinomial
import Verif.Props.Amplify
import Verif.Props.DiffBinom
import Verif.Props.Settings
import Verif.Spec.Adapt
import Verif.Lemmas.Adapt
import Verif.Props.Consistency
import Verif.Props.Calibration
import Verif.Model.Misc
import Verif.Props.Promise
import Verif.Props.EllipsoidVolume
import Verif.Props.Sigfigs
import Verif.Props.FormatUnc
import Verif.Spec.Path
import Verif.Lemmas.Path
import Verif.Props.ManyParticles
import Verif.Model.TomoHeur
import Verif.Props.TomoHeur
import Verif.Model.Region
import Verif.Props.Region
import Verif.Model.Gpu
import Verif.Props.Gpu
import Verif.Model.RoundSmc
import Verif.Props.RoundSmc
import Verif.Props.Postselect
import Verif.Props.ResampleNoise
import Verif.Props.Concentrate
import Verif.Model.ClusterResample
import Verif.Props.ClusterResample
import Verif.Model.LwSmc
import Verif.Props.Unbiased
import Verif.Model.Legacy
import Verif.Props.Legacy
import Verif.Props.Bootstrap
import Verif.Lemmas.Shuffle
import Verif.Props.Mixtures
import Verif.Model.Batched
import Verif.Props.Batched
import Verif.Props.ResampleDrift
import Verif.Model.Shapes
import Verif.Props.Shapes
import Verif.Model.Forward
import Verif.Props.Forward
import Verif.Lemmas.VanTrees
import Verif.Lemmas.RunInfo
import Verif.Props.CramerRao
import Verif.Props.SampleError
import Verif.Model.Plot
import Verif.Props.Plot
import Verif.Props.Stopping
import Verif.Props.Information
import Verif.Model.Nest
import Verif.Props.Nest
import Verif.Model.Show
import Verif.Props.Show
import Verif.Model.Stack
import Verif.Props.Stack
import Verif.Model.StackSim
import Verif.Props.StackSim
import Verif.Props.EstResample
import Verif.Props.SimpleEstRb
import Verif.Model.Version
import Verif.Spec.Version
import Verif.Lemmas.Version
import Verif.Props.Version
import Verif.Model.Deferred
import Verif.Props.Deferred
import Verif.Props.AnyResampler
import Verif.Props.SmcPolicies
import Verif.Props.Approx
import Verif.Model.Handover
import Verif.Props.Handover
import Verif.Props.SameCloud
import Verif.Props.Units
import Verif.Props.Noise
import Verif.Model.RandomStates
import Verif.Props.Isotropy
import Verif.Model.WalkRun
import Verif.Props.Diffusion
import Verif.Props.Purity
import Verif.Model.ParallelLife
import Verif.Spec.ParallelLife
import Verif.Lemmas.ParallelLife
import Verif.Props.ParallelLife
import Verif.Lemmas.Identify
import Verif.Props.Identify
import Verif.Lemmas.InfoComplete
import Verif.Props.InfoComplete
import Verif.Props.ModelSelection
import Verif.Props.StabComplete
import Verif.Props.Collapse
import Verif.Lemmas.ContRate
import Verif.Props.ContLearn
import Verif.Props.ContCopies
import Verif.Model.Config
import Verif.Props.Config
import Verif.Props.ApproxMean
import Verif.Lemmas.AdaptRate
import Verif.Props.AdaptLearn
import Verif.Props.OwnChoice
import Verif.Props.GuessLearn
import Verif.Lemmas.Products
import Verif.Props.Schedule
import Verif.Lemmas.Spread
import Verif.Props.SparseLearn
import Verif.Props.Mixture
import Verif.Props.BestLearn
import Verif.Lemmas.History
import Verif.Props.Forecast
import Verif.Model.RoundEst
import Verif.Props.RoundEst
import Verif.Model.RoundDraw
import Verif.Props.RoundDraw
import Verif.Model.RoundRun
import Verif.Props.RoundRun
import Verif.Model.RoundRegion
import Verif.Props.RoundRegion
import Verif.Model.RoundTotal
import Verif.Props.RoundTotal
import Verif.Model.Cost
import Verif.Model.ResampleCount
import Verif.Props.Cost
import Verif.Props.ResampleCount
import Verif.Props.PlotPrior
import Verif.Model.RoundChecks
import Verif.Props.RoundChecks
import Verif.Model.RoundMove
import Verif.Props.RoundMove
import Verif.Props.RootStable
import Verif.Props.MoveStable
import Verif.Model.OnePoint
import Verif.Props.OnePoint
import Verif.Props.SimpleEstRow
import Verif.Props.StackNan
import Verif.Props.OnePointLaw
import Verif.Props.OnePointCov
import Verif.Model.WeightedDist
import Verif.Props.WeightedDist
