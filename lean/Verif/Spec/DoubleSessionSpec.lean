import Verif.Spec.PathErrorSpec
import Verif.Spec.SessionSpec

/-!
# Sessions in double precision driven by a perfect engine
-/

namespace Verif.Spec

/-- An engine for doubles serves the normal numbers of a perfect engine with an error of at most `tau`, as long as these do not
exceed `B`; both go through the same states. -/
structure NormalsClose {E : Type} {R : Rounding} (e' : Engine E (Dbl R)) (e : Engine E ℝ) (B tau : ℝ) : Prop where
  sample : ∀ x, |(e.sample (.normal 0 1) x).1| ≤ B → ∃ z : ℝ, e'.sample (.normal (.num 0) (.num 1)) x = (.num z, (e.sample (.normal 0 1) x).2) ∧
    |z - (e.sample (.normal 0 1) x).1| ≤ tau
  forget : ∀ x, e'.forget (.normal (.num 0) (.num 1)) x = e.forget (.normal 0 1) x

/-- How far the logarithm of the price can move until maturity, when no partial sum of normal numbers exceeds `B` standard
deviations. -/
noncomputable def logRange (sigma r q T : ℝ) (n : ℕ) (B tau : ℝ) : ℝ :=
  (|r| + |q| + sigma ^ 2 / 2) * T + |sigma| * Real.sqrt (T / n) * (B * Real.sqrt n + n * tau)

/-- A bound for `gbmWork` when no normal number exceeds `B`. -/
noncomputable def workBound (sigma r q T : ℝ) (n : ℕ) (B tau : ℝ) : ℝ :=
  n * (1 + (|r| + |q| + sigma ^ 2 / 2) * (T / n) + |sigma| * Real.sqrt (T / n) * (B + tau))

/-- The data keep away from the limits of the format. -/
structure Comfortable (S sigma r q T : ℝ) (n : ℕ) (B tau : ℝ) : Prop where
  range : |Real.log S| + logRange sigma r q T n B tau ≤ 300
  pos : 0 < S ∧ 0 ≤ B ∧ 0 ≤ tau
  draws : B + tau ≤ 2 ^ 100
  vol : |sigma| ≤ 2 ^ 100
  rate : |r| ≤ 2 ^ 100
  coupon : |q| ≤ 2 ^ 100
  step : 2 ^ (-200 : ℤ) ≤ T / n ∧ T / n ≤ 2 ^ 100
  work : workBound sigma r q T n B tau ≤ 2 ^ 40

/-- The distance between the price in doubles and the price in exact arithmetic. -/
noncomputable def sessionGap (S sigma r q T K : ℝ) (n N : ℕ) (B tau : ℝ) : ℝ :=
  Real.exp (-(r * T)) * (S * Real.exp (logRange sigma r q T n B tau) * (2 ^ (-48 : ℤ) * workBound sigma r q T n B tau + |sigma| * Real.sqrt (T / n) * (n * tau)) +
    (N + 13) * 2 ^ (-52 : ℤ) * (S * Real.exp (logRange sigma r q T n B tau) + |K|)) + 2 ^ (-1070 : ℤ)

/-- The probability that some normal number or partial sum exceeds `B` standard deviations. -/
noncomputable def rareEvent (n N : ℕ) (B : ℝ) : ℝ := 4 * N * n * Real.exp (-(B ^ 2) / 2)

end Verif.Spec
