import Mathlib.Probability.CDF
import Mathlib.Probability.Distributions.Gaussian.Real

/-!
# Closed formulas for prices in the Black-Scholes model

Spot `S`, volatility `σ`, rate `r`, dividend yield `q`, maturity `T`, strike `K`; the standard normal distribution function
is `cdf (gaussianReal 0 1)`.
-/

namespace Verif.Spec
open ProbabilityTheory

/-- The probability that the price at maturity exceeds `K`. -/
noncomputable def exceedance (S σ r q T K : ℝ) : ℝ :=
  cdf (gaussianReal 0 1) ((Real.log (S / K) + (r - q - σ ^ 2 / 2) * T) / (σ * Real.sqrt T))

/-- The volatility of the geometric mean of the prices at `n` equidistant dates, the last one at maturity. -/
noncomputable def meanSigma (σ : ℝ) (n : ℕ) : ℝ := σ * Real.sqrt ((n + 1) * (2 * n + 1) / (6 * n ^ 2))

/-- The drift of the logarithm of the geometric mean. -/
noncomputable def meanDrift (σ r q : ℝ) (n : ℕ) : ℝ := (r - q - σ ^ 2 / 2) * ((n + 1) / (2 * n))

/-- The price of a call on the geometric mean of `n` prices. -/
noncomputable def geometricAsianCall (S σ r q T K : ℝ) (n : ℕ) : ℝ :=
  let d2 := (Real.log (S / K) + meanDrift σ r q n * T) / (meanSigma σ n * Real.sqrt T)
  let d1 := d2 + meanSigma σ n * Real.sqrt T
  Real.exp (-(r * T)) * (S * Real.exp ((meanDrift σ r q n + meanSigma σ n ^ 2 / 2) * T) * cdf (gaussianReal 0 1) d1 - K * cdf (gaussianReal 0 1) d2)

/-- The price of a put on the geometric mean of `n` prices. -/
noncomputable def geometricAsianPut (S σ r q T K : ℝ) (n : ℕ) : ℝ :=
  let d2 := (Real.log (S / K) + meanDrift σ r q n * T) / (meanSigma σ n * Real.sqrt T)
  let d1 := d2 + meanSigma σ n * Real.sqrt T
  Real.exp (-(r * T)) * (K * (1 - cdf (gaussianReal 0 1) d2) -
    S * Real.exp ((meanDrift σ r q n + meanSigma σ n ^ 2 / 2) * T) * (1 - cdf (gaussianReal 0 1) d1))

end Verif.Spec
