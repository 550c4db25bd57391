import Verif.Spec.PathSessionSpec

/-!
# Specification for C90: barrier and digital prices in double precision against the discounted expected payoff

These contracts jump where a price meets the barrier or the strike, so a rounding error could change what a path pays by a whole
payoff. The bounds below measure how seldom that can happen.
-/

namespace Verif.Spec
open MeasureTheory

/-- How far inexact draws and rounding can move the logarithm of a price. -/
noncomputable def margin (sigma r q T : ℝ) (n : ℕ) (B tau : ℝ) : ℝ :=
  |sigma| * Real.sqrt (T / n) * (n * tau) + 2 ^ (-48 : ℤ) * workBound sigma r q T n B tau

/-- A bound on the probability that on some of `N` paths the logarithm of a price at one of the `dates` is within `eta` of a given level. -/
noncomputable def nearEvent (sigma T : ℝ) (n N : ℕ) (dates : Finset ℕ) (eta : ℝ) : ℝ :=
  N * ∑ j ∈ dates, eta / (|sigma| * Real.sqrt ((j + 1) * (T / n)))

/-- The distance between a digital price in doubles and in exact arithmetic, when no path is near the strike. -/
noncomputable def digitalGap (r T : ℝ) (N : ℕ) : ℝ := Real.exp (-(r * T)) * ((N + 9) * 2 ^ (-52 : ℤ)) + 2 ^ (-1070 : ℤ)

end Verif.Spec
