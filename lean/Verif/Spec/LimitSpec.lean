import Verif.Model.Control
import Mathlib.Probability.Distributions.Gaussian.Real

/-!
# Specification of the behaviour of Monte Carlo prices for many paths
-/

namespace Verif.Spec
open MeasureTheory ProbabilityTheory Filter Topology

/-- Started in a random state of law `μ`, the program returns a number for every positive number of paths, and almost surely
these numbers converge to `limit`. -/
def Converges {G : Type} [MeasurableSpace G] (μ : Measure G) (run : ℕ → Eff G ℝ) (limit : ℝ) : Prop :=
  ∃ Y : ℕ → G → ℝ, (∀ N, 0 < N → ∀ s, ∃ s', run N s = (.ok (Y N s), s')) ∧ ∀ᵐ s ∂μ, Tendsto (fun N => Y N s) atTop (𝓝 limit)

/-- The probability that the error is between `a` and `b` standard errors `sd / √N` tends to the probability that a standard
normal number is between `a` and `b`. -/
def NormalErrors {G : Type} [MeasurableSpace G] (μ : Measure G) (run : ℕ → Eff G ℝ) (mean sd : ℝ) : Prop :=
  ∃ Y : ℕ → G → ℝ, (∀ N, 0 < N → ∀ s, ∃ s', run N s = (.ok (Y N s), s')) ∧
    ∀ a b, Tendsto (fun N : ℕ => μ.real {s | a * (sd / Real.sqrt N) ≤ Y N s - mean ∧ Y N s - mean ≤ b * (sd / Real.sqrt N)}) atTop
      (𝓝 ((gaussianReal 0 1).real (Set.Icc a b)))

end Verif.Spec
