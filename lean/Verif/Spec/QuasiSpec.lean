import Verif.Spec.MonteCarloSpec
import Mathlib.MeasureTheory.Measure.Lebesgue.Basic

/-!
# Specification of quasi Monte Carlo prices
-/

namespace Verif.Spec
open MeasureTheory Filter Topology

/-- The open unit cube. -/
def cube (d : ℕ) : Set (Fin d → ℝ) := {u | ∀ j, 0 < u j ∧ u j < 1}

open Classical in
/-- The points are uniformly distributed in the unit cube (Weyl): the share of the first `N` points in a box tends to the
volume of the box.  Low discrepancy sequences (Sobol, Faure, Halton) have this property by definition. -/
def Equidistributed {d : ℕ} (x : ℕ → Fin d → ℝ) : Prop :=
  ∀ a b : Fin d → ℝ, (∀ j, 0 ≤ a j ∧ a j ≤ b j ∧ b j ≤ 1) →
    Tendsto (fun N : ℕ => ((Finset.range N).filter fun n => ∀ j, a j ≤ x n j ∧ x n j < b j).card / (N : ℝ)) atTop
      (𝓝 (∏ j, (b j - a j)))

/-- The generator of points, started in state `s`, gives the points `P 0, P 1, ...`. -/
def Yields {Q F : Type} {d : ℕ} (generate : Eff Q (List F)) (s : Q) (P : ℕ → Fin d → F) : Prop :=
  ∀ N, ∃ s', Draws generate s ((List.range N).map fun n => List.ofFn (P n)) s'

/-- The path of geometric Brownian motion made from one point `u` of the unit cube with the quantile function `Z`: at date
`(k + 1) T / d` the price is `S exp((r - c - σ²/2) t + σ √(T/d) (Z(u_0) + ... + Z(u_k)))`. -/
noncomputable def quasiPath {d : ℕ} (S r c σ T : ℝ) (Z : ℝ → ℝ) (u : Fin d → ℝ) (k : Fin d) : ℝ :=
  S * Real.exp ((r - c - σ ^ 2 / 2) * ((k + 1) * (T / d)) + σ * Real.sqrt (T / d) * ∑ j ∈ Finset.Iic k, Z (u j))

end Verif.Spec
