import Verif.Spec.QuasiSpec
import Verif.Spec.PathDependentErrorSpec
import Verif.Spec.DoubleSessionSpec
import Verif.Model.Random

/-!
# Specification of quasi Monte Carlo prices in double precision
-/

namespace Verif.Spec
open ProbabilityTheory

/-- Seeded with `seed`, the sequence for `dim` dimensions delivers the points `p 0, …, p (N - 1)` as doubles; at the scale `c` their coordinates
are not below `2⁻⁶⁴` and not so close to one that the quotient is rounded to one. -/
structure QuasiRun {Q : Type} (q : Quasi.Sequence Q (Dbl .binary64)) (dim seed N : ℕ) (p : ℕ → Fin dim → ℝ) (c : ℝ) : Prop where
  dates : 0 < dim ∧ dim ≤ INT_MAX
  paths : 0 < N ∧ N ≤ INT_MAX
  points : ∃ s₀ s₁, q.seeded dim seed = .ok s₀ ∧ Draws q.generate s₀ ((List.range N).map fun n => List.ofFn fun j => (.num (p n j) : Dbl .binary64)) s₁
  scale : q.scale = .num c
  inside : ∀ n < N, ∀ j, 2 ^ (-64 : ℤ) ≤ p n j / c ∧ p n j / c ≤ 1 - 2 ^ (-53 : ℤ)

/-- The normal numbers `z` belong to the probabilities `u`, up to seven ten-billionths; none exceeds ten. -/
def NormalScores {dim : ℕ} (N : ℕ) (u z : ℕ → Fin dim → ℝ) : Prop :=
  ∀ n < N, ∀ j, |cdf (gaussianReal 0 1) (z n j) - u n j| ≤ 7 / 10000000000 ∧ |z n j| ≤ 10

/-- The star discrepancy of the first `N` numbers is at most `D`: in every interval from zero on there is the right share of them. -/
def DiscrepancyAtMost (N : ℕ) (u : ℕ → ℝ) (D : ℝ) : Prop :=
  ∀ t : ℝ, 0 ≤ t → t ≤ 1 → |(((Finset.range N).filter fun n => u n ≤ t).card : ℝ) / N - t| ≤ D

end Verif.Spec
