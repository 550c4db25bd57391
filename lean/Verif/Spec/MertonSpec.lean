import Verif.Spec.SessionSpec

/-!
# Merton's series for the price of a put
-/

namespace Verif.Spec

/-- Mean relative size of a jump `exp N(muJ, sigmaJ ^ 2)`. -/
noncomputable def jumpMean (muJ sigmaJ : ℝ) : ℝ := Real.exp (muJ + sigmaJ ^ 2 / 2) - 1

/-- Merton (1976): the price of a European put when the log-price is a Brownian motion plus normal jumps with intensity `lam`,
an average of Black-Scholes prices over the number `n` of jumps. -/
noncomputable def mertonPut (S σ r q T K lam muJ sigmaJ : ℝ) : ℝ :=
  ∑' n : ℕ, Real.exp (-(lam * (1 + jumpMean muJ sigmaJ) * T)) * (lam * (1 + jumpMean muJ sigmaJ) * T) ^ n / n.factorial *
    blackScholesPut S (Real.sqrt (σ ^ 2 + n * sigmaJ ^ 2 / T)) (r - lam * jumpMean muJ sigmaJ + n * (muJ + sigmaJ ^ 2 / 2) / T) q T K

end Verif.Spec
