import Verif.Spec.FdmPriceSpec
import Mathlib.Analysis.SpecialFunctions.Sqrt

/-!
# Errors of finite difference prices of digital options

The payoff jumps at the strike; the bounds contain a free parameter `δ`, the width over which the jump is replaced by a smooth
step from below and from above.
-/

namespace Verif.Spec

/-- The effect of the jump: the price at maturity ends within `9 δ` of the strike. -/
noncomputable def jumpEffect (σ T K δ : ℝ) : ℝ := 36 * δ / (K * (σ * Real.sqrt T))

/-- The constant of the time step: a bound for the second time derivative of the value of the smooth step. -/
noncomputable def digitalTimeConstant (σ r c K δ : ℝ) : ℝ :=
  timeBound σ r c (K + 9 * δ) 1 (1 / δ) (1 / δ / δ) (1 / δ / δ / δ) (1 / δ / δ / δ / δ)

/-- The error of the price of a digital option; the boundary values are wrong by `BL` and `BR`. -/
noncomputable def digitalGridError (σ r c T K S X h k δ BL BR : ℝ) : ℝ :=
  5 / 4 * (jumpEffect σ T K δ + T * ((digitalTimeConstant σ r c K δ + r ^ 2) / 2 * k + spaceConstant σ r c T X δ / δ * h ^ 2) +
      boundaryEffect σ r c T S X h BL BR) +
    1 / δ / δ * Real.exp ((2 * |r - c| + σ ^ 2) * T) * h ^ 2 / 2 + jumpEffect σ T K δ

end Verif.Spec
