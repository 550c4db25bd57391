import Mathlib.Probability.Distributions.Gaussian.Real
import Mathlib.Probability.CDF
import Mathlib.MeasureTheory.Integral.IntervalIntegral.FundThmCalculus
import Mathlib.Analysis.SpecialFunctions.Log.Basic

/-!
# The standard normal distribution function: derivative, symmetry, value at zero
-/

open MeasureTheory ProbabilityTheory

namespace Verif

/-- The standard normal distribution function. -/
noncomputable def Phi (x : ℝ) : ℝ := cdf (gaussianReal 0 1) x

theorem Phi_eq (x : ℝ) : Phi x = ∫ y in Set.Iic x, gaussianPDFReal 0 1 y := by
  rw [Phi, cdf_eq_real, measureReal_def, gaussianReal_apply_eq_integral 0 one_ne_zero,
    ENNReal.toReal_ofReal (integral_nonneg fun _ => gaussianPDFReal_nonneg _ _ _)]

theorem continuous_pdf : Continuous (gaussianPDFReal 0 1) := by
  unfold gaussianPDFReal; fun_prop

theorem hasDerivAt_Phi (x : ℝ) : HasDerivAt Phi (gaussianPDFReal 0 1 x) x := by
  have hi : Integrable (gaussianPDFReal 0 1) := integrable_gaussianPDFReal 0 1
  have e : Phi = fun y => Phi 0 + ∫ t in (0 : ℝ)..y, gaussianPDFReal 0 1 t := by
    funext y
    have := intervalIntegral.integral_Iic_sub_Iic (a := 0) (b := y) (hi.integrableOn (s := Set.Iic 0))
      (hi.integrableOn (s := Set.Iic y))
    rw [← this, Phi_eq, Phi_eq]; ring
  rw [e]
  exact (intervalIntegral.integral_hasDerivAt_right (hi.intervalIntegrable)
    (continuous_pdf.stronglyMeasurableAtFilter _ _) continuous_pdf.continuousAt).const_add _

theorem Phi_neg (x : ℝ) : Phi (-x) = 1 - Phi x := by
  have : NullSingletonClass (gaussianReal 0 1) := nullSingletonClass_gaussianReal one_ne_zero
  have h1 : Phi (-x) = (gaussianReal 0 1).real (Set.Ici x) := by
    rw [Phi, cdf_eq_real]
    have := (gaussianReal_map_neg (μ := 0) (v := 1))
    rw [neg_zero] at this
    conv_lhs => rw [← this]
    rw [measureReal_def, measureReal_def, Measure.map_apply measurable_neg measurableSet_Iic]
    congr 2
    ext y; simp
  have h2 : (gaussianReal 0 1).real (Set.Ici x) = (gaussianReal 0 1).real (Set.Ioi x) :=
    measureReal_congr Ioi_ae_eq_Ici.symm
  rw [h1, h2, Phi, cdf_eq_real, ← probReal_compl_eq_one_sub measurableSet_Iic, Set.compl_Iic]

theorem Phi_zero : Phi 0 = 1 / 2 := by
  have := Phi_neg 0
  rw [neg_zero] at this
  linarith

theorem Phi_mono : Monotone Phi := fun _ _ h => monotone_cdf _ h

theorem Phi_nonneg (x : ℝ) : 0 ≤ Phi x := cdf_nonneg _ x

theorem pdf_eq (x : ℝ) :
    gaussianPDFReal 0 1 x = Real.exp (-(x ^ 2) / 2 - Real.log (2 * Real.pi) / 2) := by
  have h : (0 : ℝ) < 2 * Real.pi := by positivity
  have hs : Real.sqrt (2 * Real.pi) = Real.exp (Real.log (2 * Real.pi) / 2) := by
    rw [Real.exp_half, Real.exp_log h]
  rw [Real.exp_sub, ← hs]
  simp [gaussianPDFReal]
  field_simp

theorem Phi_strictMono : StrictMono Phi :=
  strictMono_of_deriv_pos fun x => by
    rw [(hasDerivAt_Phi x).deriv, pdf_eq]; exact Real.exp_pos _

end Verif
