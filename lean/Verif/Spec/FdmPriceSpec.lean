import Mathlib.Analysis.SpecialFunctions.Exp

/-!
# Errors of finite difference prices of calls and puts

Volatility `σ`, rate `r`, dividend rate `c`, maturity `T`, strike `K`, price `S` of the stock; grid on `[0, X]` with spacing `h`
and time step `k`.  The payoff has a kink; the bounds contain a free parameter `δ > 0`, the width over which it is rounded off.
-/

namespace Verif.Spec

/-- A bound for the second time derivative of the value of a payoff supported in `[-R, R]` whose `k`-th derivative is
bounded by `Bₖ`. -/
noncomputable def timeBound (σ r c R B0 B1 B2 B3 B4 : ℝ) : ℝ :=
  σ ^ 4 / 4 * (R ^ 4 * B4) + σ ^ 2 * (σ ^ 2 + |r - c|) * (R ^ 3 * B3) + (σ ^ 4 / 2 + 2 * |r - c| * σ ^ 2 + (r - c) ^ 2 + r * σ ^ 2) * (R ^ 2 * B2) +
    ((r - c) ^ 2 + 2 * |r - c| * r) * (R * B1) + r ^ 2 * B0

/-- The constant of the time step: a bound for the second time derivative. -/
noncomputable def timeConstant (σ r c K δ : ℝ) : ℝ :=
  timeBound σ r c (K + 4 * δ) K 1 (1 / δ) (1 / δ / δ) (1 / δ / δ / δ)

/-- The constant of the square of the space step: coefficients of the equation times third and fourth derivatives. -/
noncomputable def spaceConstant (σ r c T X δ : ℝ) : ℝ :=
  σ ^ 2 / 2 * X ^ 2 * (1 / δ / δ / δ * Real.exp ((4 * |r - c| + 6 * σ ^ 2) * T)) / 12 +
    |r - c| * X * (1 / δ / δ * Real.exp ((3 * |r - c| + 3 * σ ^ 2) * T)) / 6

/-- The effect at `S` of boundary values that are wrong by `BL` at 0 and by `BR` at `X`. -/
noncomputable def boundaryEffect (σ r c T S X h BL BR : ℝ) : ℝ :=
  Real.exp (2 * (σ ^ 2 + 2 * |r - c|) * T) * (BL * (2 * h / S) + BR * (2 * S / X) ^ 2)

/-- The error of the price, where `M` bounds the second time derivative. -/
noncomputable def gridError (σ r c T S X h k δ M BL BR : ℝ) : ℝ :=
  5 / 4 * (4 * δ + T * (M / 2 * k + spaceConstant σ r c T X δ * h ^ 2) + boundaryEffect σ r c T S X h BL BR) +
    1 / δ * Real.exp ((2 * |r - c| + σ ^ 2) * T) * h ^ 2 / 2 + 4 * δ

/-- The error of the price of a put. -/
noncomputable def putGridError (σ r c T K S X h k δ : ℝ) : ℝ :=
  gridError σ r c T S X h k δ (timeConstant σ r c K δ) K K

/-- The error of the price of a call. -/
noncomputable def callGridError (σ r c T K S X h k δ : ℝ) : ℝ :=
  gridError σ r c T S X h k δ (timeConstant σ r c K δ + X * c ^ 2 * Real.exp (|c| * T) + K * r ^ 2) K
    (X * (Real.exp (|c| * T) - 1) + 2 * K)

/-- The error of the price of a call computed by Crank-Nicolson, which drops the old boundary values. -/
noncomputable def callGridErrorCN (σ r c T K S X h k δ : ℝ) : ℝ :=
  gridError σ r c T S X h k δ (timeConstant σ r c K δ + X * c ^ 2 * Real.exp (|c| * T) + K * r ^ 2) K
    (X * Real.exp (|c| * T) + 2 * K)

end Verif.Spec
