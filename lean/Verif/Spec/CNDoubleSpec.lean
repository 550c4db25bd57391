import Verif.Spec.FdmDoubleSpec
import Verif.Spec.FdmPriceSpec

/-!
# Crank-Nicolson in double precision
-/

namespace Verif.Spec

/-- Data for which the rounding errors of Crank-Nicolson are bounded: a grid of moderate size with at least two inner nodes, and the weights of the explicit half of the scheme
are not negative. -/
structure ModerateCN (σ r c K S T X : ℝ) (J N : ℕ) : Prop extends GridSizes σ r c K S T X J N where
  inner : 4 ≤ J
  weights : T / (N - 1) / 2 * (σ ^ 2 * (J : ℝ) ^ 2 + r) ≤ 1

/-- What is lost to rounding. -/
noncomputable def cnRounding (K X : ℝ) (J N : ℕ) : ℝ := (N + J) * (X + K) / 2 ^ 33

/-- The error of the price of a call computed by Crank-Nicolson, which drops the old boundary values, when the last boundary value may be taken after expiry. -/
noncomputable def lateCallGridErrorCN (σ r c T K S X h k δ : ℝ) : ℝ :=
  gridError σ r c T S X h k δ (timeConstant σ r c K δ + X * c ^ 2 * Real.exp (|c| * T) + K * r ^ 2) K
    (X * Real.exp (|c| * T) + 4 * K)

end Verif.Spec
