import Verif.Spec.DoubleSessionSpec
import Verif.Spec.PathDependentErrorSpec
import Mathlib.Probability.Moments.Variance

/-!
# Path-dependent sessions in double precision driven by a perfect engine
-/

namespace Verif.Spec
open MeasureTheory ProbabilityTheory

/-- The finite data of a session in double precision on a GBM. -/
structure DoubleData (i : Session (Dbl .binary64)) (S sigma r : ℝ) (q : Option ℝ) (T : ℝ) : Prop where
  price : i.S = .num S
  vol : i.sigma = .num sigma
  coupon : i.coupon = q.map fun x : ℝ => .num x
  rate : i.r = .num r
  maturity : lastSet i.params "T" = some (.dbl (.num T))
  dim : 0 < i.dim ∧ i.dim ≤ INT_MAX
  small : |r * T| ≤ 1

/-- Started in a random state of law `μ`, the program in doubles fails to return a finite number closer than `ε + gap` to `mean`
with a probability of at most `bound ε`. -/
def DoubleDeviates {E : Type} [MeasurableSpace E] (μ : Measure E) (run : Eff E (Dbl .binary64)) (mean gap : ℝ) (bound : ℝ → ℝ) : Prop :=
  ∀ ε, 0 < ε → μ.real {x | ¬ ∃ y : ℝ, (run x).1 = .ok (.num y) ∧ |y - mean| < ε + gap} ≤ bound ε

/-- The discounted expectation of what a contract `f` pays on a geometric Brownian motion observed at `n` dates. -/
noncomputable def fairValue (S sigma r q T : ℝ) (n : ℕ) (f : (ℕ → ℝ) → ℝ) : ℝ :=
  ∫ z, Real.exp (-(r * T)) * f (gbmPath S sigma r q T n z) ∂normals

/-- The variance of the discounted payoff. -/
noncomputable def fairVariance (S sigma r q T : ℝ) (n : ℕ) (f : (ℕ → ℝ) → ℝ) : ℝ :=
  Var[fun z => Real.exp (-(r * T)) * f (gbmPath S sigma r q T n z); normals]

/-- The distance between the price in doubles and in exact arithmetic, when the relative error of the averaged price is `w` times
the work for a path; `sessionGap` is the case `w = 2⁻⁴⁸`. -/
noncomputable def averageGap (w S sigma r q T K : ℝ) (n N : ℕ) (B tau : ℝ) : ℝ :=
  Real.exp (-(r * T)) * (S * Real.exp (logRange sigma r q T n B tau) * (w * workBound sigma r q T n B tau + |sigma| * Real.sqrt (T / n) * (n * tau)) +
    (N + 13) * 2 ^ (-52 : ℤ) * (S * Real.exp (logRange sigma r q T n B tau) + |K|)) + 2 ^ (-1070 : ℤ)

end Verif.Spec
