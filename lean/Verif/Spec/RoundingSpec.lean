import Verif.Num.Dbl
import Mathlib.Tactic.NormNum

/-!
# Accuracy of a floating-point format
-/

namespace Verif.Spec

/-- Up to the size `M` nothing overflows, and the error of a rounding is at most `u` times the exact value, plus `η`
(underflow). -/
def Accurate (R : Rounding) (u η M : ℝ) : Prop :=
  ∀ x : ℝ, |x| ≤ M → ∃ y : ℝ, R.rnd x = y ∧ |y - x| ≤ u * |x| + η

end Verif.Spec
