import Verif.Props.Ess
import Verif.Props.Trim
import Verif.Props.Resample
import Verif.Props.Particles
import Verif.Props.Scaler
import Verif.Props.Prior
import Verif.Props.Mcmc
import Verif.Props.LogLike
import Verif.Props.Reweight
import Verif.Props.Run
import Verif.Props.RunHistory
import Verif.Props.Resume
import Verif.Props.Counts
import Verif.Props.Total
import Verif.Props.Demo
import Verif.Props.Posterior
import Verif.Props.DemoPosterior
import Verif.Props.Balance
import Verif.Props.Config
import Verif.Props.Flow
import Verif.Props.Store
import Verif.Props.Pool
import Verif.Props.Files
import Verif.Props.Shift
import Verif.Props.Geometry
import Verif.Props.Kernel
import Verif.Props.Bounds
import Verif.Props.WarmupRun
import Verif.Model.ScalerFull
import Verif.Props.ScalerFull
import Verif.Props.ScalerArgs
import Verif.Props.Given
import Verif.Props.Training
import Verif.Props.Starting
import Verif.Props.Epoch
import Verif.Props.Fit
import Verif.Props.ErrorBar
import Verif.Props.Unbiased
import Verif.Props.FlowEvidence
import Verif.Model.Search
import Verif.Props.Search
import Verif.Props.Sizes
import Verif.Props.FloatSpec
import Verif.Props.Plateau
import Verif.Model.Failure
import Verif.Lemmas.Failure
import Verif.Lemmas.Flaky
import Verif.Lemmas.Kept
import Verif.Spec.Attempts
import Verif.Props.Failure
import Verif.Props.Retry
import Verif.Lemmas.Clock
import Verif.Props.Interrupt
import Verif.Spec.Invariance
import Verif.Props.Invariance
import Verif.Props.Memory
import Verif.Model.Memory
import Verif.Spec.Memory
import Verif.Lemmas.Memory
import Verif.Lemmas.MemoryRun
import Verif.Props.Diagnostics
import Verif.Lemmas.Fuel
import Verif.Lemmas.Spread
import Verif.Props.Termination
import Verif.Props.Price
import Verif.Props.Stream
import Verif.Props.NoNan
import Verif.Props.TrimMass
import Verif.Props.Consistent
import Verif.Props.Raise
import Verif.Props.Infinite
import Verif.Props.DemoInfinite
import Verif.Props.Double
import Verif.Props.DoubleTrim
import Verif.Props.DoubleResample
import Verif.Props.DoubleDemo
import Verif.Props.DoubleLogw
import Verif.Props.DoubleScaler
import Verif.Props.DoubleScalerDemo
import Verif.Props.DoubleWrap
import Verif.Props.DoubleJacobian
import Verif.Props.Ergodic
import Verif.Props.DoubleMcmc
import Verif.Props.Smc
import Verif.Props.SmcAdapt
import Verif.Props.SmcTrim
import Verif.Props.Blobs
import Verif.Lemmas.Units
import Verif.Props.Units
import Verif.Spec.Extend
import Verif.Props.Extend
import Verif.Props.Modes
import Verif.Props.PriorShift
import Verif.Props.Exchange
import Verif.Model.Returned
import Verif.Spec.Returned
import Verif.Props.Returned
import Verif.Model.Progress
import Verif.Spec.Progress
import Verif.Props.Progress
import Verif.Props.Adapt
import Verif.Props.ZeroRegion
import Verif.Props.Single
import Verif.Props.Between
import Verif.Props.Cut
import Verif.Props.Redraw
import Verif.Props.ErrorBound
import Verif.Props.Enough
import Verif.Model.DoubleTools
import Verif.Spec.DoubleTools
import Verif.Props.DoubleTools
import Verif.Props.CutStep
import Verif.Props.DoubleEvidence
import Verif.Props.DoubleIncrement
import Verif.Props.ErrorSpread
import Verif.Props.DoubleRange
