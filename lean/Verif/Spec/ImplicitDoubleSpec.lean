import Verif.Spec.FdmDoubleSpec
import Verif.Spec.FdmPriceSpec

/-!
# Implicit Euler in double precision
-/

namespace Verif.Spec

/-- Data for which the rounding errors of implicit Euler are bounded: a grid of moderate size with at least two inner nodes, and time steps that are not extremely long. There is no
condition that the time step be short compared with the square of the space step. -/
structure ModerateImplicit (σ r c K S T X : ℝ) (J N : ℕ) : Prop extends GridSizes σ r c K S T X J N where
  inner : 4 ≤ J
  load : T / (N - 1) * (σ ^ 2 * (J : ℝ) ^ 2 + r) ≤ 2 ^ 16

/-- What is lost to rounding. -/
noncomputable def implicitRounding (σ r K T X : ℝ) (J N : ℕ) : ℝ := (N + T * (σ ^ 2 * (J : ℝ) ^ 2 + r) + J) * (X + K) / 2 ^ 34

/-- The error of the price of a call when the last boundary value may be taken after expiry. -/
noncomputable def lateCallGridError (σ r c T K S X h k δ : ℝ) : ℝ :=
  gridError σ r c T S X h k δ (timeConstant σ r c K δ + X * c ^ 2 * Real.exp (|c| * T) + K * r ^ 2) K
    (X * (Real.exp (|c| * T) - 1) + 4 * K)

end Verif.Spec
