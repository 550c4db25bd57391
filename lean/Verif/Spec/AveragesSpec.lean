import Verif.Num.Res
import Mathlib.Probability.IdentDistrib
import Mathlib.Probability.Independence.Basic

/-!
# Specification: averages of independent copies
-/

namespace Verif.Spec
open MeasureTheory ProbabilityTheory

/-- There are independent random variables with the law of `V`, one for each path, such that for every admissible number
`N` of paths the program, started in a random state of law `μ`, returns `d` times the average of the first `N` of them. -/
def Averages {G : Type} [MeasurableSpace G] (μ : Measure G) (run : ℕ → Eff G ℝ) (admissible : Set ℕ) (d : ℝ) (V : G → ℝ) : Prop :=
  ∃ X : ℕ → G → ℝ, iIndepFun X μ ∧ (∀ n, IdentDistrib (X n) V μ μ) ∧
    ∀ N ∈ admissible, 0 < N → ∀ s, ∃ s', run N s = (.ok (d * ((∑ n ∈ Finset.range N, X n s) / N)), s')

/-- Started in a random state of law `μ` the program always returns a number, and the probability that it is off `mean` by
`ε` or more is at most `bound ε`. -/
def Deviates {G : Type} [MeasurableSpace G] (μ : Measure G) (run : Eff G ℝ) (mean : ℝ) (bound : ℝ → ℝ) : Prop :=
  ∃ Y : G → ℝ, (∀ s, ∃ s', run s = (.ok (Y s), s')) ∧ ∀ ε, 0 ≤ ε → μ.real {s | ε ≤ |Y s - mean|} ≤ bound ε

end Verif.Spec
