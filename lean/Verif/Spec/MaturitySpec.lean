import Verif.Spec.CNDoubleSpec
import Verif.Spec.ImplicitDoubleSpec

/-!
# How much the price of an option can change with its maturity
-/

namespace Verif.Spec

/-- A bound for the change of the Black-Scholes price of a call or put per unit of time, for maturities from `T` to `T'`. -/
noncomputable def maturityRate (S σ r c K T T' : ℝ) : ℝ :=
  r * K + S * Real.exp (|c| * T') * (|c| + σ / (4 * Real.sqrt T))

end Verif.Spec
