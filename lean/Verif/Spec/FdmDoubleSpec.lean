import Verif.Spec.FdmPriceSpec

/-!
# Vocabulary for finite difference prices in double precision
-/

namespace Verif.Spec

/-- Data of a grid of moderate size: volatility `σ`, rate `r`, dividend yield `c`, strike `K`, price of the stock `S`, maturity `T`, grid on `[0, X]` with
`J` nodes and `N` time levels.  The price of the stock keeps a distance from both ends of the grid, and no quantity is very large or very small. -/
structure GridSizes (σ r c K S T X : ℝ) (J N : ℕ) : Prop where
  vol : 0 < σ ∧ σ ≤ 2 ^ 10
  rate : 0 ≤ r ∧ r ≤ 2 ^ 10
  drift : |r - c| ≤ σ ^ 2
  maturity : 1 / 2 ^ 10 ≤ T ∧ T ≤ 2 ^ 10
  discount : r * T ≤ 64
  strike : 0 < K ∧ K ≤ 2 ^ 19
  width : 1 / 2 ^ 10 ≤ X ∧ X ≤ 2 ^ 19
  nodes : 2 ≤ J ∧ J ≤ 2 ^ 20
  levels : 2 ≤ N ∧ N ≤ 2 ^ 20
  step : (σ ^ 2 + 2 * |r - c|) * (T / (N - 1)) ≤ 1 / 2
  spot : 2 * (X / (J - 1)) ≤ S ∧ S + X / (J - 1) ≤ X

/-- Data for which the rounding errors of explicit Euler are bounded: a grid of moderate size, and the weights of the scheme are not negative. -/
structure ModerateGrid (σ r c K S T X : ℝ) (J N : ℕ) : Prop extends GridSizes σ r c K S T X J N where
  weights : T / (N - 1) * (σ ^ 2 * (J : ℝ) ^ 2 + r) ≤ 1

/-- What is lost by computing with doubles. -/
noncomputable def fdmRounding (K X : ℝ) (J N : ℕ) : ℝ := (N + J) * (X + K) / 2 ^ 36

end Verif.Spec
