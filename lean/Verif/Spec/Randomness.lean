import Verif.Num.Fl
import Mathlib.Probability.Distributions.Gaussian.Real
import Mathlib.Probability.Martingale.Basic

/-!
# Independent standard normal draws
-/

namespace Verif.Spec
open MeasureTheory ProbabilityTheory

variable {Ω : Type} [MeasurableSpace Ω]

/-- `Z 0, Z 1, ...` are independent and standard normal. -/
structure IidNormal (P : Measure Ω) (Z : ℕ → Ω → ℝ) : Prop where
  measurable : ∀ i, Measurable (Z i)
  law : ∀ i, P.map (Z i) = gaussianReal 0 1
  indep : iIndepFun Z P

/-- The information in the draws number `i, ..., i + n - 1`, for `n = 0, 1, ...`. -/
def information (Z : ℕ → Ω → ℝ) (hZ : ∀ i, Measurable (Z i)) (i : ℕ) :
    Filtration ℕ (inferInstance : MeasurableSpace Ω) where
  seq n := ⨆ j ∈ Set.Ico i (i + n), MeasurableSpace.comap (Z j) inferInstance
  mono' := fun _ _ h => biSup_mono fun _ hj => ⟨hj.1, lt_of_lt_of_le hj.2 (by omega)⟩
  le' := fun _ => iSup₂_le fun j _ => (hZ j).comap_le

end Verif.Spec
