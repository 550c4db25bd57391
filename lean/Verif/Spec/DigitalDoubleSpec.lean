import Mathlib.Analysis.SpecialFunctions.Log.Basic
import Verif.Spec.FdmDigitalSpec
import Verif.Spec.CNDoubleSpec
import Verif.Spec.ImplicitDoubleSpec

/-!
# Digital options on grids in double precision
-/

namespace Verif.Spec

/-- The effect of the jump when the nodes are rounded: the price at maturity ends within `10 δ` of the strike. -/
noncomputable def roundedJumpEffect (σ T K δ : ℝ) : ℝ := 40 * δ / (K * (σ * Real.sqrt T))

/-- The constant of the time step: a bound for the second time derivative of the value of a smooth step that leaves room for the rounding of the nodes. -/
noncomputable def roundedTimeConstant (σ r c K δ : ℝ) : ℝ :=
  timeBound σ r c (K + 10 * δ) 1 (1 / δ) (1 / δ / δ) (1 / δ / δ / δ) (1 / δ / δ / δ / δ)

/-- The error of the price of a digital option on a grid whose nodes may be on the wrong side of the strike by rounding; the boundary values are wrong by `BL` and `BR`. -/
noncomputable def roundedDigitalError (σ r c T K S X h k δ BL BR : ℝ) : ℝ :=
  5 / 4 * (roundedJumpEffect σ T K δ + T * ((roundedTimeConstant σ r c K δ + r ^ 2) / 2 * k + spaceConstant σ r c T X δ / δ * h ^ 2) +
      boundaryEffect σ r c T S X h BL BR) +
    1 / δ / δ * Real.exp ((2 * |r - c| + σ ^ 2) * T) * h ^ 2 / 2 + roundedJumpEffect σ T K δ

/-- A bound for the change of the price of a digital option per unit of time, for maturities from `T` on. -/
noncomputable def digitalMaturityRate (S σ r c K T : ℝ) : ℝ :=
  r + |Real.log (S / K)| / (4 * σ * T * Real.sqrt T) + |r - c - σ ^ 2 / 2| / (4 * σ * Real.sqrt T)

/-- The error of the price of a digital option with the maturity `T` when the time loop may end one step of the length `k` late. -/
noncomputable def lateDigitalError (σ r c T K S X h k δ BL BR : ℝ) : ℝ :=
  roundedDigitalError σ r c (T + k) K S X h k δ BL BR + 9 / 4 * (roundedJumpEffect σ T K δ - roundedJumpEffect σ (T + k) K δ) + digitalMaturityRate S σ r c K T * k

end Verif.Spec
