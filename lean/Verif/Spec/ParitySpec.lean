import Verif.Num.Res
import Mathlib.MeasureTheory.Integral.Bochner.Basic
import Mathlib.Analysis.SpecialFunctions.Exp

/-!
# Specification: expected prices, and what the absence of arbitrage demands of them
-/

namespace Verif.Spec
open MeasureTheory

/-- Started in a random state of law `μ` the program always returns a number, and this number has the expectation `mean`. -/
def Expected {G : Type} [MeasurableSpace G] (μ : Measure G) (run : Eff G ℝ) (mean : ℝ) : Prop :=
  ∃ Y : G → ℝ, (∀ s, ∃ s', run s = (.ok (Y s), s')) ∧ Integrable Y μ ∧ ∫ s, Y s ∂μ = mean

/-- The prices `call` and `put` of options with payment at most `K` on an underlying whose delivery at maturity costs `asset`
today, where a payment of `K` at maturity costs `cash` today: put-call parity, and no price allows an arbitrage with the
underlying and the account. -/
structure ArbitrageFree (asset cash call put : ℝ) : Prop where
  parity : call - put = asset - cash
  call_lower : max (asset - cash) 0 ≤ call
  call_upper : call ≤ asset
  put_lower : max (cash - asset) 0 ≤ put
  put_upper : put ≤ cash

end Verif.Spec
