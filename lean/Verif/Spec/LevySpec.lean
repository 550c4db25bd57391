import Mathlib.MeasureTheory.Group.Convolution
import Mathlib.MeasureTheory.Measure.GiryMonad
import Mathlib.Probability.Distributions.Gaussian.Real
import Mathlib.Probability.Distributions.Gamma
import Mathlib.Probability.Distributions.Exponential
import Mathlib.Probability.Distributions.Poisson.Basic

/-!
# Laws of log-returns in continuous time

The laws of the log-price at time `t` in the textbook models.  Nothing here mentions time steps.
-/

namespace Verif.Spec
open MeasureTheory ProbabilityTheory
open scoped NNReal ENNReal

/-- Law of the sum of `n` independent draws from `ν`. -/
noncomputable def sumLaw {M : Type} [MeasurableSpace M] [AddCommMonoid M] (ν : Measure M) : ℕ → Measure M
  | 0 => .dirac 0
  | n + 1 => ν ∗ sumLaw ν n

/-- Law of the sum of a random number of independent draws from `ν`. -/
noncomputable def compound (c : Measure ℕ) (ν : Measure ℝ) : Measure ℝ := c.bind (sumLaw ν)

/-- Brownian motion with drift `b` and volatility `σ` at time `t`. -/
noncomputable def brownianLaw (b σ t : ℝ) : Measure ℝ := gaussianReal (b * t) (σ ^ 2 * t).toNNReal

/-- Jump diffusion at time `t`: a Brownian motion plus jumps with law `J` at the times of a Poisson process with intensity `lam`. -/
noncomputable def jumpDiffusionLaw (b σ lam : ℝ) (J : Measure ℝ) (t : ℝ) : Measure ℝ :=
  brownianLaw b σ t ∗ compound (poissonMeasure (lam * t).toNNReal) J

/-- Variance gamma process at time `t`: a Brownian motion with drift `theta` and volatility `σ` run at a gamma time with mean `t`
and variance `nu t`, plus the drift `b t`. -/
noncomputable def varianceGammaLaw (b theta σ nu t : ℝ) : Measure ℝ :=
  Measure.dirac (b * t) ∗ (gammaMeasure (t / nu) (1 / nu)).bind (brownianLaw theta σ)

/-- The jump of Kou's model as coded: an exponential down jump, and with probability `p` an exponential up jump as well. -/
noncomputable def kouJumpLaw (p eta1 eta2 : ℝ) : Measure ℝ :=
  (ENNReal.ofReal p • expMeasure eta1 + ENNReal.ofReal (1 - p) • Measure.dirac 0) ∗ (expMeasure eta2).map Neg.neg

end Verif.Spec
