import Verif.Spec.FdmSpec
import Mathlib.Analysis.Calculus.Deriv.Basic

/-!
# Smooth solutions of the continuous problem
-/

namespace Verif.Spec

/-- `u t x` is a smooth solution of the problem `q` on `0 ≤ t ≤ T`, `0 ≤ x ≤ L`: together with its time derivatives
`ut`, `utt` and its space derivatives `ux`, …, `uxxxx` it satisfies the equation inside and takes the
initial and the boundary values.  (At the edges of the rectangle the derivatives are one-sided.) -/
structure SmoothSolution (q : Problem) (L T : ℝ) (u : ℝ → ℝ → ℝ) where
  ut : ℝ → ℝ → ℝ
  utt : ℝ → ℝ → ℝ
  ux : ℝ → ℝ → ℝ
  uxx : ℝ → ℝ → ℝ
  uxxx : ℝ → ℝ → ℝ
  uxxxx : ℝ → ℝ → ℝ
  hasT : ∀ t ∈ Set.Icc 0 T, ∀ x ∈ Set.Icc 0 L, HasDerivWithinAt (fun t => u t x) (ut t x) (Set.Icc 0 T) t
  hasTT : ∀ t ∈ Set.Icc 0 T, ∀ x ∈ Set.Icc 0 L, HasDerivWithinAt (fun t => ut t x) (utt t x) (Set.Icc 0 T) t
  hasX : ∀ t ∈ Set.Icc 0 T, ∀ x ∈ Set.Icc 0 L, HasDerivWithinAt (u t) (ux t x) (Set.Icc 0 L) x
  hasXX : ∀ t ∈ Set.Icc 0 T, ∀ x ∈ Set.Icc 0 L, HasDerivWithinAt (ux t) (uxx t x) (Set.Icc 0 L) x
  hasXXX : ∀ t ∈ Set.Icc 0 T, ∀ x ∈ Set.Icc 0 L, HasDerivWithinAt (uxx t) (uxxx t x) (Set.Icc 0 L) x
  hasXXXX : ∀ t ∈ Set.Icc 0 T, ∀ x ∈ Set.Icc 0 L, HasDerivWithinAt (uxxx t) (uxxxx t x) (Set.Icc 0 L) x
  equation : ∀ t ∈ Set.Icc 0 T, ∀ x ∈ Set.Ioo 0 L,
    ut t x = q.D t x * uxx t x + q.C t x * ux t x + q.R t x * u t x - q.f t x
  initial : ∀ x ∈ Set.Icc 0 L, u 0 x = q.initial x
  left : ∀ t ∈ Set.Ioc 0 T, u t 0 = q.left t 0
  right : ∀ t ∈ Set.Ioc 0 T, u t L = q.right t L

/-- Bounds for the derivatives of the solution that matter for the error, and for two coefficients. -/
structure Bounded {q : Problem} {L T : ℝ} {u : ℝ → ℝ → ℝ} (S : SmoothSolution q L T u) (Dm Cm M2 M3 M4 : ℝ) : Prop where
  D : ∀ t ∈ Set.Icc 0 T, ∀ x ∈ Set.Icc 0 L, |q.D t x| ≤ Dm
  C : ∀ t ∈ Set.Icc 0 T, ∀ x ∈ Set.Icc 0 L, |q.C t x| ≤ Cm
  tt : ∀ t ∈ Set.Icc 0 T, ∀ x ∈ Set.Icc 0 L, |S.utt t x| ≤ M2
  xxx : ∀ t ∈ Set.Icc 0 T, ∀ x ∈ Set.Icc 0 L, |S.uxxx t x| ≤ M3
  xxxx : ∀ t ∈ Set.Icc 0 T, ∀ x ∈ Set.Icc 0 L, |S.uxxxx t x| ≤ M4

end Verif.Spec
