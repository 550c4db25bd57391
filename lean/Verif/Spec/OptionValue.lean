import Mathlib.Probability.Distributions.Gaussian.Real

/-!
# The Black-Scholes value of a European option and its asymptotics
-/

namespace Verif.Spec
open MeasureTheory ProbabilityTheory Filter Topology

/-- The price after time `τ` of a stock with price `S`, volatility `σ` and dividend rate `c`, as a function of a
standard normal variable. -/
noncomputable def terminalPrice (σ r c τ S z : ℝ) : ℝ := S * Real.exp ((r - c - σ ^ 2 / 2) * τ + σ * Real.sqrt τ * z)

/-- The value of a European option with time to maturity `τ`: the discounted expectation of its payoff. -/
noncomputable def optionValue (payoff : ℝ → ℝ) (σ r c τ S : ℝ) : ℝ :=
  Real.exp (-r * τ) * ∫ z, payoff (terminalPrice σ r c τ S z) ∂gaussianReal 0 1

/-- `g` is the right boundary value at `x = 0`: the limit of the option value for small prices. -/
def LeftAsymptotic (payoff : ℝ → ℝ) (σ r c τ g : ℝ) : Prop :=
  Tendsto (optionValue payoff σ r c τ) (𝓝[>] 0) (𝓝 g)

/-- `g` describes the option value for large prices. -/
def RightAsymptotic (payoff : ℝ → ℝ) (σ r c τ : ℝ) (g : ℝ → ℝ) : Prop :=
  Tendsto (fun S => optionValue payoff σ r c τ S - g S) atTop (𝓝 0)

end Verif.Spec
