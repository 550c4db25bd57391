import Verif.Model.StockModel
import Verif.Model.OptionFactory
import Mathlib.Probability.Moments.Variance

/-!
# Estimators, and which models can be simulated
-/

namespace Verif.Spec
open MeasureTheory ProbabilityTheory

/-- Started in a random state of law `μ` the program always returns a number; this number has the expectation `mean`
and the variance `var`. -/
def Estimator {G : Type} [MeasurableSpace G] (μ : Measure G) (run : Eff G ℝ) (mean var : ℝ) : Prop :=
  ∃ Y : G → ℝ, (∀ s, ∃ s', run s = (.ok (Y s), s')) ∧ MemLp Y 2 μ ∧ ∫ s, Y s ∂μ = mean ∧ Var[Y; μ] = var

/-- The step of a variance discretisation is a measurable function of the variance and the draw. -/
def MeasurableStep (d : CIR ℝ) : Prop := ∀ dt kappa theta sigmaV, Measurable fun x : ℝ × ℝ => d.update x.1 dt kappa theta sigmaV x.2

/-- The parameters with which the distributions used by a model with time step `dt` are admissible. -/
def Simulatable (dt : ℝ) : ModelKind ℝ → Prop
  | .gbm => True
  | .heston _ _ _ _ _ disc => MeasurableStep disc
  | .bates _ _ _ _ _ lambda _ sigmaJ disc => 0 < lambda * dt ∧ 0 < sigmaJ ∧ MeasurableStep disc
  | .kou lambda _ eta1 eta2 _ => 0 < lambda * dt ∧ 0 < eta1 ∧ 0 < eta2
  | .merton lambda _ sigmaJ => 0 < lambda * dt ∧ 0 < sigmaJ
  | .varianceGamma nu _ _ => 0 < dt ∧ 0 < nu

/-- The price is at the barrier or beyond it. -/
def Beyond (d : BarrierDirection) (B x : ℝ) : Prop :=
  match d with
  | .up => B ≤ x
  | .down => x ≤ B

end Verif.Spec
