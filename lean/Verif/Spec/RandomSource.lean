import Verif.Model.Random
import Mathlib.Probability.Distributions.Gaussian.Real
import Mathlib.Probability.Distributions.Gamma
import Mathlib.Probability.Distributions.Exponential
import Mathlib.Probability.Distributions.Poisson.Basic
import Mathlib.Probability.ConditionalProbability

/-!
# Perfect random number generators

The idealisation behind Monte Carlo: the state of the generator is random, a draw has the law of the
requested distribution, and it is independent of the new state, whose law is that of the old one.
-/

namespace Verif.Spec
open MeasureTheory ProbabilityTheory

/-- The parameters for which the C++ standard defines the distributions. -/
def ValidLaw : Dist.StdLaw ℝ → Prop
  | .normal _ stddev => 0 < stddev
  | .poisson mean => 0 < mean
  | .uniform a b => a < b
  | .exponential lambda => 0 < lambda
  | .gamma shape scale => 0 < shape ∧ 0 < scale

/-- The laws of the distributions in the C++ standard ([rand.dist]).  `std::poisson_distribution<int>` cannot give
numbers above `INT_MAX`, so its law is left open: `count mean`. -/
noncomputable def stdMeasure (count : ℝ → Measure ℕ) : Dist.StdLaw ℝ → Measure ℝ
  | .normal mean stddev => gaussianReal mean ⟨stddev ^ 2, sq_nonneg stddev⟩
  | .poisson mean => (count mean).map fun n : ℕ => (n : ℝ)
  | .uniform a b => cond volume (Set.Ico a b)
  | .exponential lambda => expMeasure lambda
  | .gamma shape scale => gammaMeasure shape (1 / scale)

/-- Number of jumps: the Poisson law with the mass above `INT_MAX` put on `INT_MAX`. -/
noncomputable def clippedPoisson (mean : ℝ) : Measure ℕ :=
  (poissonMeasure mean.toNNReal).map fun n => min n INT_MAX

variable {G : Type} [MeasurableSpace G]

/-- `g` is a perfect generator when its state has the law `μ`: draws always succeed, the value has the law of the
distribution and is independent of the new state, which has the law `μ` again.  Poisson draws are integers
between 0 and `INT_MAX`. -/
structure RandomSource (g : Gen G ℝ) (μ : Measure G) (count : ℝ → Measure ℕ) : Prop where
  draw : ∀ d : Dist ℝ, ValidLaw d.law → ∃ (x : G → ℝ) (t : G → G), Measurable x ∧ Measurable t ∧
    (∀ s, g.draw d s = (.ok (x s), t s)) ∧ μ.map (fun s => (x s, t s)) = (stdMeasure count d.law).prod μ
  integer : ∀ (mean : ℝ) (s s' : G) (x : ℝ), 0 < mean → g.draw (.poisson mean) s = (.ok x, s') → ∃ n : ℕ, n ≤ INT_MAX ∧ x = n
  newDist : ∀ d : Dist ℝ, MeasurePreserving (g.newDist d) μ μ

end Verif.Spec
