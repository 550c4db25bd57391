import Verif.Num.Res
import Verif.Num.Fl
import Verif.Num.Dbl
import Verif.Model.World
import Verif.Lemmas.World
import Verif.Lemmas.Factory
import Verif.Props.Market
import Verif.Props.Observers
import Verif.Props.Singleton
import Verif.Props.Payoffs
import Verif.Props.Factories
import Verif.Model.Control
import Verif.Model.Random
import Verif.Model.StockModel
import Verif.Model.MonteCarlo
import Verif.Spec.MonteCarloSpec
import Verif.Lemmas.MonteCarlo
import Verif.Props.MonteCarlo
import Verif.Props.PathDependent
import Verif.Model.American
import Verif.Spec.LsmcSpec
import Verif.Lemmas.American
import Verif.Props.American
import Verif.Model.Pricer
import Verif.Spec.BuilderSpec
import Verif.Props.Pricers
import Verif.Lemmas.StockModel
import Verif.Lemmas.Paths
import Verif.Spec.SqrtLog
import Verif.Spec.StockModelSpec
import Verif.Props.StockModels
import Verif.Props.Variance
import Verif.Props.Jumps
import Verif.Spec.Randomness
import Verif.Lemmas.Normal
import Verif.Props.RiskNeutral
import Verif.Lemmas.GaussianFamily
import Verif.Props.Bridge
import Verif.Spec.Outcomes
import Verif.Props.Quantile
import Verif.Props.Random
import Verif.Model.Interpolation
import Verif.Spec.InterpSpec
import Verif.Props.Interpolation
import Verif.Model.LinearAlgebra
import Verif.Spec.LinearSystem
import Verif.Props.LinearSystems
import Verif.Model.Regression
import Verif.Spec.RegressionSpec
import Verif.Lemmas.Polynomials
import Verif.Props.BasisFunctions
import Verif.Lemmas.Projection
import Verif.Props.Regression
import Verif.Model.Fdm
import Verif.Spec.FdmSpec
import Verif.Lemmas.Fdm
import Verif.Lemmas.FdmSchemes
import Verif.Lemmas.FdmBlackScholes
import Verif.Props.FdmGrid
import Verif.Props.FdmSchemes
import Verif.Props.FdmStability
import Verif.Spec.OptionValue
import Verif.Lemmas.OptionValue
import Verif.Props.FdmBoundary
import Verif.Model.FdmWorld
import Verif.Props.FdmHistory
import Verif.Spec.RandomSource
import Verif.Lemmas.Laws
import Verif.Lemmas.Sampling
import Verif.Lemmas.SamplingLoops
import Verif.Lemmas.SamplingModels
import Verif.Lemmas.SamplingJumps
import Verif.Lemmas.PerfectGenerator
import Verif.Spec.RiskNeutralSpec
import Verif.Lemmas.RiskNeutral
import Verif.Spec.EstimatorSpec
import Verif.Lemmas.MonteCarloSampling
import Verif.Props.ModelDrift
import Verif.Spec.DistributionSpec
import Verif.Props.Distributions
import Verif.Props.Estimator
import Verif.Num.Binary64
import Verif.Spec.RoundingSpec
import Verif.Lemmas.Accuracy
import Verif.Props.RoundingError
import Verif.Props.FdmDouble
import Verif.Props.SampleMean
import Verif.Props.StockModelsDouble
import Verif.Lemmas.Taylor
import Verif.Spec.SmoothSolution
import Verif.Props.FdmConvergence
import Verif.Props.FdmConvergenceCN
import Verif.Model.Reentrant
import Verif.Spec.ReentrantSpec
import Verif.Lemmas.Reentrant
import Verif.Props.Reentrant
import Verif.Props.ReentrantFails
import Verif.Model.Threads
import Verif.Spec.ThreadsSpec
import Verif.Props.Threads
import Verif.Spec.AveragesSpec
import Verif.Props.Concentration
import Verif.Spec.DominanceSpec
import Verif.Props.Dominance
import Verif.Model.System
import Verif.Lemmas.Embed
import Verif.Spec.SystemSpec
import Verif.Props.System
import Verif.Model.Session
import Verif.Lemmas.Session
import Verif.Spec.SessionSpec
import Verif.Props.Session
import Verif.Spec.ClosedFormSpec
import Verif.Lemmas.ClosedForm
import Verif.Props.ClosedForm
import Verif.Spec.LimitSpec
import Verif.Props.Limits
import Verif.Model.Export
import Verif.Spec.ExportSpec
import Verif.Props.Export
import Verif.Spec.QuasiSpec
import Verif.Lemmas.Equidistribution
import Verif.Props.QuasiMonteCarlo
import Verif.Model.MainProgram
import Verif.Spec.MainSpec
import Verif.Props.MainProgram
import Verif.Lemmas.PolyCheck
import Verif.Lemmas.NormalCdf
import Verif.Lemmas.QuantileCentral
import Verif.Lemmas.QuantileTail
import Verif.Lemmas.Hybrid
import Verif.Props.QuantileAccuracy
import Verif.Spec.LookbackSpec
import Verif.Lemmas.Exact
import Verif.Props.LookbackSession
import Verif.Spec.PathErrorSpec
import Verif.Lemmas.ForwardError
import Verif.Props.PathError
import Verif.Spec.DoubleSessionSpec
import Verif.Props.DoubleSession
import Verif.Spec.FdmPriceSpec
import Verif.Lemmas.Heat
import Verif.Lemmas.Semigroup
import Verif.Lemmas.Smoothing
import Verif.Lemmas.FdmBarrier
import Verif.Lemmas.FdmPrice
import Verif.Props.FdmPrice
import Verif.Spec.FdmDigitalSpec
import Verif.Lemmas.DigitalValue
import Verif.Props.FdmDigital
import Verif.Lemmas.DoubleOps
import Verif.Lemmas.FdmRounding
import Verif.Lemmas.FdmRoundingRun
import Verif.Lemmas.InterpRounding
import Verif.Lemmas.FdmRoundingPrice
import Verif.Spec.FdmDoubleSpec
import Verif.Props.FdmDoublePrice
import Verif.Spec.FdmFailureSpec
import Verif.Lemmas.FdmFailure
import Verif.Lemmas.FdmRetry
import Verif.Props.FdmFailure
import Verif.Props.FdmDegenerate
import Verif.Spec.PathDependentErrorSpec
import Verif.Lemmas.PathDependentError
import Verif.Props.PathDependentError
import Verif.Spec.PathSessionSpec
import Verif.Props.PathSession
import Verif.Spec.BarrierSessionSpec
import Verif.Props.BarrierSession
import Verif.Spec.ThomasDoubleSpec
import Verif.Lemmas.ThomasRounding
import Verif.Props.ThomasDouble
import Verif.Spec.ImplicitDoubleSpec
import Verif.Lemmas.ImplicitRounding
import Verif.Lemmas.ImplicitRoundingRun
import Verif.Lemmas.ImplicitRoundingPrice
import Verif.Lemmas.ImplicitRoundingSizes
import Verif.Props.ImplicitDoublePrice
import Verif.Spec.CNDoubleSpec
import Verif.Lemmas.CNRounding
import Verif.Lemmas.CNRoundingRun
import Verif.Lemmas.CNRoundingSizes
import Verif.Props.CNDoublePrice
import Verif.Props.InterpolationDouble
import Verif.Props.MaturityPrices
import Verif.Lemmas.QuantileRounding
import Verif.Props.QuantileDouble
import Verif.Lemmas.Koksma
import Verif.Spec.QuasiDoubleSpec
import Verif.Props.QuasiDouble
import Verif.Spec.DigitalDoubleSpec
import Verif.Props.DigitalDoublePrice
import Verif.Props.DigitalMaturity
import Verif.Spec.LevySpec
import Verif.Lemmas.Convolution
import Verif.Lemmas.GammaConvolution
import Verif.Lemmas.LogSteps
import Verif.Lemmas.Clipping
import Verif.Props.ExactLaws
import Verif.Spec.MertonSpec
import Verif.Props.MertonFormula
import Verif.Spec.JumpErrorSpec
import Verif.Props.JumpPathError
import Verif.Props.AcceptedModels
import Verif.Spec.JumpSessionSpec
import Verif.Props.JumpSession
import Verif.Spec.ParitySpec
import Verif.Props.Parity
import Verif.Props.Orderings
import Verif.Props.ParityJumps
import Verif.Lemmas.Thinning
import Verif.Props.Refinement
