import Verif.Spec.RandomSource

/-!
# What it means that an object samples from a distribution
-/

namespace Verif.Spec
open MeasureTheory ProbabilityTheory

variable {G : Type} [MeasurableSpace G]

/-- Drawing from `d` with the generator `g` in a random state of law `μ` always succeeds, the number has the law `ν`
and is independent of the state of the generator after the draw, which has the law `μ` again. -/
def DrawsFrom (g : Gen G ℝ) (μ : Measure G) (d : Dist ℝ) (ν : Measure ℝ) : Prop :=
  ∃ (x : G → ℝ) (t : G → G), Measurable x ∧ Measurable t ∧ (∀ s, g.draw d s = (.ok (x s), t s)) ∧ μ.map (fun s => (x s, t s)) = ν.prod μ

/-- A constructor with the condition `valid` on its arguments: it throws `invalid_argument` if the condition does not
hold and otherwise makes an object with the property `good`. -/
def Validates (ctor : Res (Dist ℝ)) (valid : Prop) (good : Dist ℝ → Prop) : Prop :=
  (valid → ∃ d, ctor = .ok d ∧ good d) ∧ (¬ valid → Res.Throws .invalidArgument ctor)

/-- Preconditions of the distributions in the C++ standard, [rand.dist], for doubles: comparison with NaN is false. -/
def StdPrecondition {R : Rounding} : Dist.StdLaw (Dbl R) → Prop
  | .normal _ stddev => Fl.lt (lit 0) stddev = true
  | .poisson mean => Fl.lt (lit 0) mean = true
  | .uniform a b => Fl.le a b = true
  | .exponential lambda => Fl.lt (lit 0) lambda = true
  | .gamma shape scale => Fl.lt (lit 0) shape = true ∧ Fl.lt (lit 0) scale = true

end Verif.Spec
