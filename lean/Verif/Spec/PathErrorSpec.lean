import Verif.Spec.RoundingSpec
import Verif.Spec.LookbackSpec
import Verif.Spec.MonteCarloSpec
import Verif.Model.StockModel

/-!
# Accuracy of simulated paths in floating point
-/

namespace Verif.Spec

/-- Double precision with a good exponential function: relative error `2⁻⁵³` for a rounding and `2⁻⁵²` for an exponential,
integers up to `2⁵³` exact. -/
structure DoubleAccurate (R : Rounding) : Prop where
  round : Accurate R (2 ^ (-53 : ℤ)) (2 ^ (-1075 : ℤ)) (2 ^ (1000 : ℤ))
  int : ∀ n : ℕ, n ≤ 2 ^ 53 → R.rnd (n : ℝ) = ((n : ℝ) : EReal)
  exp : ∀ x : ℝ, |x| ≤ 650 → ∃ y : ℝ, R.expF x = y ∧ |y - Real.exp x| ≤ 2 ^ (-52 : ℤ) * Real.exp x

/-- How much can be lost up to date `j`: the number of steps, plus the sums of the sizes of drift and diffusion in the exponents. -/
noncomputable def gbmWork (sigma r q T : ℝ) (n : ℕ) (z : ℕ → ℝ) (j : ℕ) : ℝ :=
  ∑ l ∈ Finset.range (j + 1), (1 + (|r| + |q| + sigma ^ 2 / 2) * (T / n) + |sigma| * Real.sqrt (T / n) * |z l|)

/-- Neither the data nor the exact prices are near the limits of the format. -/
structure Moderate (S sigma r q T : ℝ) (n : ℕ) (z : ℕ → ℝ) : Prop where
  start : Real.exp (-300) ≤ S ∧ S ≤ Real.exp 300
  prices : ∀ j < n, Real.exp (-300) ≤ gbmPath S sigma r q T n z j ∧ gbmPath S sigma r q T n z j ≤ Real.exp 300
  draws : ∀ j < n, |z j| ≤ 2 ^ 100
  vol : |sigma| ≤ 2 ^ 100
  rate : |r| ≤ 2 ^ 100
  coupon : |q| ≤ 2 ^ 100
  step : 2 ^ (-200 : ℤ) ≤ T / n ∧ T / n ≤ 2 ^ 100
  work : gbmWork sigma r q T n z (n - 1) ≤ 2 ^ 40

/-- The generator delivers the normal numbers `zss` for paths with `n` dates, one path after the other; each path makes its own
distribution object. -/
inductive PathDraws {G : Type} {R : Rounding} (g : Gen G (Dbl R)) (n : ℕ) : G → List (List ℝ) → G → Prop
  | nil (s : G) : PathDraws g n s [] s
  | cons {s s₁ s₂ : G} {zs : List ℝ} {zss : List (List ℝ)} (hl : zs.length = n)
      (h : Draws (g.draw .stdNormal) (g.newDist .stdNormal s) (zs.map fun x : ℝ => .num x) s₁) (t : PathDraws g n s₁ zss s₂) :
      PathDraws g n s (zs :: zss) s₂

/-- The value at expiry of a call or put. -/
noncomputable def vanillaValue (call : Prop) [Decidable call] (K x : ℝ) : ℝ := if call then max (x - K) 0 else max (K - x) 0

/-- The bound for the error in the payoff of one path: `gbmWork` times `2⁻⁴⁹` for the price, and the subtraction of the strike. -/
noncomputable def payoffError (S sigma r q T K : ℝ) (n : ℕ) (z : ℕ → ℝ) : ℝ :=
  2 ^ (-49 : ℤ) * gbmWork sigma r q T n z (n - 1) * gbmPath S sigma r q T n z (n - 1) + 2 ^ (-51 : ℤ) * (gbmPath S sigma r q T n z (n - 1) + |K|)

end Verif.Spec
