import Verif.Num.Res
import Mathlib.Probability.Martingale.Basic

/-!
# Risk neutral price paths
-/

namespace Verif.Spec
open MeasureTheory ProbabilityTheory

variable {Ω : Type} [MeasurableSpace Ω]

/-- From every state the program returns the `n` numbers `X 0, ..., X (n - 1)`. -/
def SimulatedPath (run : Eff Ω (List ℝ)) (n : ℕ) (X : ℕ → Ω → ℝ) : Prop :=
  ∀ s, ∃ s', run s = (.ok ((List.range n).map fun k => X k s), s')

/-- The discounted price at the times `0, 1, ..., n, n, ...`: at time 0 the spot, at time `k + 1` the simulated
price `X k` divided by the growth `q ^ (k + 1)` of an account that pays the rate less the dividend yield. -/
noncomputable def discounted (S0 q : ℝ) (n : ℕ) (X : ℕ → Ω → ℝ) (k : ℕ) (ω : Ω) : ℝ :=
  if min k n = 0 then S0 else X (min k n - 1) ω / q ^ min k n

/-- The discounted price is a martingale: given the prices so far, its expected next value is the present one. -/
def RiskNeutral (μ : Measure Ω) (S0 q : ℝ) (n : ℕ) (X : ℕ → Ω → ℝ) : Prop :=
  ∃ h : ∀ k, StronglyMeasurable (discounted S0 q n X k),
    Martingale (discounted S0 q n X) (Filtration.natural (discounted S0 q n X) h) μ

end Verif.Spec
