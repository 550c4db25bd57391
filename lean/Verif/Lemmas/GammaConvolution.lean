import Verif.Lemmas.Convolution
import Mathlib.Analysis.LConvolution
import Mathlib.Probability.Distributions.Beta
import Mathlib.MeasureTheory.Measure.WithDensity

/-!
# Sums of independent gamma draws
-/

namespace Verif
open MeasureTheory ProbabilityTheory Spec
open scoped NNReal ENNReal

theorem gammaPDF_mul (a b : ℝ) {r : ℝ} (ha : 0 < a) (hb : 0 < b) (hr : 0 < r) {x y : ℝ} (hx : 0 < x) (h0 : y ≠ 0) (h1 : y ≠ x) :
    gammaPDF a r y * gammaPDF b r (-y + x) = gammaPDF (a + b) r x * (ENNReal.ofReal x⁻¹ * betaPDF a b (x⁻¹ * y)) := by
  rcases lt_or_gt_of_ne h0 with hy | hy
  · rw [gammaPDF_of_neg hy, betaPDF_eq_zero_of_nonpos (mul_nonpos_of_nonneg_of_nonpos (by positivity) hy.le)]
    simp
  rcases lt_or_gt_of_ne h1 with hyx | hyx
  swap
  · rw [gammaPDF_of_neg (show -y + x < 0 by linarith), betaPDF_eq_zero_of_one_le (by rw [inv_mul_eq_div, le_div_iff₀ hx]; linarith)]
    simp
  have hd : 0 < -y + x := by linarith
  have hu : 0 < x⁻¹ * y := by positivity
  have hu1 : x⁻¹ * y < 1 := by rw [inv_mul_eq_div, div_lt_one hx]; exact hyx
  have hG1 := Real.Gamma_pos_of_pos ha
  have hG2 := Real.Gamma_pos_of_pos hb
  have hG3 := Real.Gamma_pos_of_pos (add_pos ha hb)
  rw [gammaPDF_of_nonneg hy.le, gammaPDF_of_nonneg hd.le, gammaPDF_of_nonneg hx.le, betaPDF_of_pos_lt_one hu hu1,
    ← ENNReal.ofReal_mul (by positivity), ← ENNReal.ofReal_mul (by positivity), ← ENNReal.ofReal_mul (by positivity)]
  congr 1
  have e1 : 1 - x⁻¹ * y = x⁻¹ * (-y + x) := by field_simp; ring
  rw [e1, Real.mul_rpow (by positivity) hy.le, Real.mul_rpow (by positivity) hd.le, Real.inv_rpow hx.le, Real.inv_rpow hx.le]
  have e2 : x ^ (a + b - 1) = x ^ (a - 1) * x ^ (b - 1) * x := by
    rw [← Real.rpow_add hx, ← Real.rpow_add_one hx.ne']
    congr 1
    ring
  have e3 : Real.exp (-(r * y)) * Real.exp (-(r * (-y + x))) = Real.exp (-(r * x)) := by
    rw [← Real.exp_add]
    congr 1
    ring
  have p1 : 0 < x ^ (a - 1) := Real.rpow_pos_of_pos hx _
  have p2 : 0 < x ^ (b - 1) := Real.rpow_pos_of_pos hx _
  rw [e2, ← e3, Real.rpow_add hr]
  unfold beta
  field_simp

theorem gamma_conv {a b r : ℝ} (ha : 0 < a) (hb : 0 < b) (hr : 0 < r) : gammaMeasure a r ∗ gammaMeasure b r = gammaMeasure (a + b) r := by
  have m : ∀ a, Measurable (gammaPDF a r) := fun a => (measurable_gammaPDFReal a r).ennreal_ofReal
  have mb : Measurable (betaPDF a b) := (measurable_betaPDFReal a b).ennreal_ofReal
  unfold gammaMeasure
  haveI : SFinite (volume.withDensity (gammaPDF b r)) := inferInstance
  rw [conv_withDensity_eq_lconvolution (m a) (m b)]
  refine withDensity_congr_ae ?_
  have hne : ∀ᵐ x : ℝ, x ≠ 0 := by simp [ae_iff]
  filter_upwards [hne] with x hx0
  rw [lconvolution_def]
  rcases lt_or_gt_of_ne hx0 with hx | hx
  · rw [gammaPDF_of_neg hx]
    refine lintegral_eq_zero_of_ae_eq_zero (.of_forall fun y => ?_)
    rcases lt_or_ge y 0 with hy | hy
    · simp [gammaPDF_of_neg hy]
    · simp [gammaPDF_of_neg (show -y + x < 0 by linarith)]
  have e : ∀ᵐ y : ℝ, gammaPDF a r y * gammaPDF b r (-y + x) = gammaPDF (a + b) r x * (ENNReal.ofReal x⁻¹ * betaPDF a b (x⁻¹ * y)) := by
    have hnx : ∀ᵐ y : ℝ, y ≠ x := by simp [ae_iff]
    filter_upwards [hne, hnx] with y h0 h1 using gammaPDF_mul a b ha hb hr hx h0 h1
  rw [lintegral_congr_ae e, lintegral_const_mul _ (by fun_prop), lintegral_const_mul _ (by fun_prop)]
  have hs := Real.smul_map_volume_mul_left (a := x⁻¹) (by positivity)
  have h2 : ENNReal.ofReal x⁻¹ * ∫⁻ y, betaPDF a b (x⁻¹ * y) = ∫⁻ u, betaPDF a b u := by
    conv_rhs => rw [← hs]
    rw [lintegral_smul_measure, lintegral_map mb (by fun_prop), abs_of_pos (by positivity)]
    simp
  rw [h2, lintegral_betaPDF_eq_one ha hb, mul_one]

theorem gamma_nonneg {a r : ℝ} : ∀ᵐ u ∂gammaMeasure a r, 0 ≤ u := by
  rw [gammaMeasure, ae_withDensity_iff (show Measurable (gammaPDF a r) from (measurable_gammaPDFReal a r).ennreal_ofReal)]
  refine .of_forall fun x hx => ?_
  by_contra h
  exact hx (gammaPDF_of_neg (not_le.mp h))

theorem sumLaw_gamma {a r : ℝ} (ha : 0 < a) (hr : 0 < r) (n : ℕ) : sumLaw (gammaMeasure a r) (n + 1) = gammaMeasure ((n + 1) * a) r := by
  haveI := isProbabilityMeasure_gammaMeasure ha hr
  induction n with
  | zero => rw [sumLaw_one]; simp
  | succ n ih =>
    rw [sumLaw, ih, gamma_conv ha (by positivity) hr]
    congr 1
    push_cast
    ring

theorem gamma_scale {a r s : ℝ} (ha : 0 < a) (hr : 0 < r) (hs : 0 < s) : (gammaMeasure a r).map (fun u => s * u) = gammaMeasure a (r / s) := by
  have m : ∀ r, Measurable (gammaPDF a r) := fun r => (measurable_gammaPDFReal a r).ennreal_ofReal
  refine Measure.ext_of_lintegral _ fun φ hφ => ?_
  rw [lintegral_map hφ (by fun_prop), gammaMeasure, gammaMeasure, lintegral_withDensity_eq_lintegral_mul _ (m r) (by fun_prop),
    lintegral_withDensity_eq_lintegral_mul _ (m (r / s)) hφ]
  have hv := Real.smul_map_volume_mul_left (a := s⁻¹) (by positivity)
  have m2 : Measurable fun u => gammaPDF a r u * φ (s * u) := (m r).mul (by fun_prop)
  calc ∫⁻ u, (gammaPDF a r * fun u => φ (s * u)) u = ∫⁻ u, gammaPDF a r u * φ (s * u) := rfl
    _ = ENNReal.ofReal s⁻¹ * ∫⁻ y, gammaPDF a r (s⁻¹ * y) * φ (s * (s⁻¹ * y)) := by
      conv_lhs => rw [← hv]
      rw [lintegral_smul_measure, lintegral_map m2 (by fun_prop), abs_of_pos (by positivity)]
      rfl
    _ = ∫⁻ y, ENNReal.ofReal s⁻¹ * (gammaPDF a r (s⁻¹ * y) * φ (s * (s⁻¹ * y))) := by
      exact (lintegral_const_mul _ (m2.comp (by fun_prop : Measurable fun y : ℝ => s⁻¹ * y))).symm
    _ = ∫⁻ y, (gammaPDF a (r / s) * φ) y := by
      have hne : ∀ᵐ x : ℝ, x ≠ 0 := by simp [ae_iff]
      refine lintegral_congr_ae (hne.mono fun y hy => ?_)
      simp only [Pi.mul_apply]
      rw [← mul_assoc, show s * (s⁻¹ * y) = y by field_simp]
      congr 1
      rcases lt_or_gt_of_ne hy with h | h
      · rw [gammaPDF_of_neg h, gammaPDF_of_neg (mul_neg_of_pos_of_neg (by positivity) h), mul_zero]
      · have hu : 0 ≤ s⁻¹ * y := by positivity
        have hG := Real.Gamma_pos_of_pos ha
        rw [gammaPDF_of_nonneg h.le, gammaPDF_of_nonneg hu, ← ENNReal.ofReal_mul (by positivity)]
        congr 1
        rw [Real.mul_rpow (by positivity) h.le, Real.inv_rpow hs.le, Real.div_rpow hr.le hs.le, Real.rpow_sub_one hs.ne',
          show r / s * y = r * (s⁻¹ * y) by field_simp]
        have : 0 < s ^ a := Real.rpow_pos_of_pos hs _
        field_simp

end Verif
