import Mathlib.Probability.Distributions.Gaussian.Real
import Mathlib.MeasureTheory.Integral.IntegralEqImproper
import Mathlib.Analysis.Calculus.ParametricIntegral
import Mathlib.Analysis.Calculus.FDeriv.Extend
import Mathlib.Analysis.SpecialFunctions.Sqrt

/-!
# Expectations of functions of a Brownian motion with drift solve a heat equation
-/

namespace Verif.Heat
open MeasureTheory ProbabilityTheory Filter Topology Set

theorem pdf_hasDerivAt (z : ℝ) : HasDerivAt (gaussianPDFReal 0 1) (-z * gaussianPDFReal 0 1 z) z := by
  have h : HasDerivAt (fun z : ℝ => (Real.sqrt (2 * Real.pi * (1 : NNReal)))⁻¹ * Real.exp (-(z - 0) ^ 2 / (2 * (1 : NNReal))))
      ((Real.sqrt (2 * Real.pi * (1 : NNReal)))⁻¹ * (Real.exp (-(z - 0) ^ 2 / (2 * (1 : NNReal))) * (-z))) z := by
    refine HasDerivAt.const_mul _ (HasDerivAt.exp ?_)
    have := ((((hasDerivAt_id z).sub_const 0).pow 2).neg).div_const (2 * ((1 : NNReal) : ℝ))
    refine this.congr_deriv ?_
    simp
    ring
  refine (h.congr_deriv ?_)
  rw [gaussianPDFReal]
  ring

theorem integrable_id_gaussian : Integrable (fun z : ℝ => z) (gaussianReal 0 1) := by
  have := (memLp_id_gaussianReal (μ := 0) (v := 1) 1).integrable le_rfl
  exact this

/-- An integral against the density. -/
theorem integrable_pdf_mul {f : ℝ → ℝ} (hf : Integrable f (gaussianReal 0 1)) :
    Integrable (fun z => gaussianPDFReal 0 1 z * f z) := by
  rw [gaussianReal_of_var_ne_zero 0 one_ne_zero, integrable_withDensity_iff_integrable_smul' (measurable_gaussianPDF _ _)
    (ae_of_all _ fun _ => gaussianPDF_lt_top)] at hf
  refine hf.congr (ae_of_all _ fun z => ?_)
  simp [toReal_gaussianPDF]

/-- Integration by parts for the standard normal distribution. -/
theorem stein {f f' : ℝ → ℝ} {B B' : ℝ} (hd : ∀ z, HasDerivAt f (f' z) z) (hc : Continuous f') (hb : ∀ z, |f z| ≤ B)
    (hb' : ∀ z, |f' z| ≤ B') : ∫ z, z * f z ∂gaussianReal 0 1 = ∫ z, f' z ∂gaussianReal 0 1 := by
  have cf : Continuous f := continuous_iff_continuousAt.mpr fun z => (hd z).continuousAt
  have i0 : Integrable f (gaussianReal 0 1) :=
    Integrable.of_bound cf.aestronglyMeasurable B (ae_of_all _ fun z => by simpa using hb z)
  have i1 : Integrable f' (gaussianReal 0 1) :=
    Integrable.of_bound hc.aestronglyMeasurable B' (ae_of_all _ fun z => by simpa using hb' z)
  have i2 : Integrable (fun z => z * f z) (gaussianReal 0 1) := by
    refine Integrable.mono' (integrable_id_gaussian.abs.mul_const B) (by fun_prop) (ae_of_all _ fun z => ?_)
    rw [Real.norm_eq_abs, abs_mul]
    exact mul_le_mul_of_nonneg_left (hb z) (abs_nonneg z)
  have h := integral_mul_deriv_eq_deriv_mul_of_integrable (u := f) (u' := f') (v := gaussianPDFReal 0 1)
    (v' := fun z => -z * gaussianPDFReal 0 1 z) (fun z _ => hd z) (fun z _ => pdf_hasDerivAt z)
    ((integrable_pdf_mul i2).neg.congr (ae_of_all _ fun z => by simp [Pi.mul_apply]; ring))
    ((integrable_pdf_mul i1).congr (ae_of_all _ fun z => by simp [Pi.mul_apply]; ring))
    ((integrable_pdf_mul i0).congr (ae_of_all _ fun z => by simp [Pi.mul_apply]; ring))
  rw [integral_gaussianReal_eq_integral_smul one_ne_zero, integral_gaussianReal_eq_integral_smul one_ne_zero]
  have e1 : ∫ z, gaussianPDFReal 0 1 z • (z * f z) = -∫ z, f z * (-z * gaussianPDFReal 0 1 z) := by
    rw [← integral_neg]
    exact integral_congr_ae (ae_of_all _ fun z => by simp; ring)
  have e2 : ∫ z, gaussianPDFReal 0 1 z • f' z = ∫ z, f' z * gaussianPDFReal 0 1 z :=
    integral_congr_ae (ae_of_all _ fun z => by simp; ring)
  rw [e1, e2, h, neg_neg]

section
variable {p : ℝ → ℝ} {B : ℝ} {a s : ℝ}

/-- The expectation of a function of the position at time `t`. -/
noncomputable def mean (a s : ℝ) (p : ℝ → ℝ) (t : ℝ) : ℝ := ∫ z, p (a * t + s * Real.sqrt t * z) ∂gaussianReal 0 1

theorem continuous_mean (hp : Continuous p) (hb : ∀ w, |p w| ≤ B) : Continuous (mean a s p) := by
  refine continuous_of_dominated (bound := fun _ => B) (fun t => ?_) (fun t => ae_of_all _ fun z => by simpa using hb _)
    (integrable_const B) (ae_of_all _ fun z => ?_)
  · exact (hp.comp (by fun_prop)).aestronglyMeasurable
  · exact hp.comp (by fun_prop)

theorem abs_mean_le (hb : ∀ w, |p w| ≤ B) (t : ℝ) : |mean a s p t| ≤ B := by
  have := norm_integral_le_of_norm_le_const (μ := gaussianReal 0 1) (f := fun z => p (a * t + s * Real.sqrt t * z)) (C := B)
    (ae_of_all _ fun z => by simpa using hb _)
  simpa [mean] using this

/-- The heat equation with drift. -/
theorem mean_hasDerivAt {p1 p2 : ℝ → ℝ} {B1 B2 : ℝ} (h1 : ∀ w, HasDerivAt p (p1 w) w) (h2 : ∀ w, HasDerivAt p1 (p2 w) w)
    (hc : Continuous p2) (b0 : ∀ w, |p w| ≤ B) (b1 : ∀ w, |p1 w| ≤ B1) (b2 : ∀ w, |p2 w| ≤ B2) {t : ℝ} (ht : 0 < t) :
    HasDerivAt (mean a s p) (mean a s (fun w => a * p1 w + s ^ 2 / 2 * p2 w) t) t := by
  have c0 : Continuous p := continuous_iff_continuousAt.mpr fun z => (h1 z).continuousAt
  have c1 : Continuous p1 := continuous_iff_continuousAt.mpr fun z => (h2 z).continuousAt
  have hB1 : 0 ≤ B1 := (abs_nonneg _).trans (b1 0)
  have hst : 0 < Real.sqrt t := Real.sqrt_pos.mpr ht
  have key := hasDerivAt_integral_of_dominated_loc_of_deriv_le (μ := gaussianReal 0 1) (x₀ := t) (s := Ioi (t / 4))
    (F := fun t z => p (a * t + s * Real.sqrt t * z))
    (F' := fun t z => p1 (a * t + s * Real.sqrt t * z) * (a + s * (1 / (2 * Real.sqrt t)) * z))
    (bound := fun z => B1 * (|a| + |s| * (1 / Real.sqrt t) * |z|)) (Ioi_mem_nhds (by linarith))
    (Eventually.of_forall fun t => (c0.comp (by fun_prop)).aestronglyMeasurable)
    (Integrable.of_bound (c0.comp (by fun_prop)).aestronglyMeasurable B (ae_of_all _ fun z => by simpa using b0 _))
    (Continuous.aestronglyMeasurable (by fun_prop))
    (ae_of_all _ fun z x hx => ?_) ?_ (ae_of_all _ fun z x hx => ?_)
  · refine key.2.congr_deriv ?_
    have hS := stein (f := fun z => p1 (a * t + s * Real.sqrt t * z)) (f' := fun z => p2 (a * t + s * Real.sqrt t * z) * (s * Real.sqrt t)) (B := B1)
      (B' := B2 * |s * Real.sqrt t|) (fun z => ?_) ((hc.comp (by fun_prop)).mul continuous_const) (fun z => b1 _) (fun z => ?_)
    · have i1 : Integrable (fun z => p1 (a * t + s * Real.sqrt t * z)) (gaussianReal 0 1) :=
        Integrable.of_bound (c1.comp (by fun_prop)).aestronglyMeasurable B1 (ae_of_all _ fun z => by simpa using b1 _)
      have i2 : Integrable (fun z => p2 (a * t + s * Real.sqrt t * z)) (gaussianReal 0 1) :=
        Integrable.of_bound (hc.comp (by fun_prop)).aestronglyMeasurable B2 (ae_of_all _ fun z => by simpa using b2 _)
      have i3 : Integrable (fun z => z * p1 (a * t + s * Real.sqrt t * z)) (gaussianReal 0 1) := by
        refine Integrable.mono' (integrable_id_gaussian.abs.mul_const B1) (by fun_prop) (ae_of_all _ fun z => ?_)
        rw [Real.norm_eq_abs, abs_mul]
        exact mul_le_mul_of_nonneg_left (b1 _) (abs_nonneg z)
      have e1 : ∫ z, p1 (a * t + s * Real.sqrt t * z) * (a + s * (1 / (2 * Real.sqrt t)) * z) ∂gaussianReal 0 1 =
          a * ∫ z, p1 (a * t + s * Real.sqrt t * z) ∂gaussianReal 0 1 +
          s * (1 / (2 * Real.sqrt t)) * ∫ z, z * p1 (a * t + s * Real.sqrt t * z) ∂gaussianReal 0 1 := by
        rw [← integral_const_mul, ← integral_const_mul, ← integral_add (i1.const_mul _) (i3.const_mul _)]
        exact integral_congr_ae (ae_of_all _ fun z => by ring)
      rw [e1, hS, integral_mul_const, mean, integral_add (i1.const_mul _) (i2.const_mul _), integral_const_mul, integral_const_mul]
      field_simp
    · have hd : HasDerivAt (fun z => a * t + s * Real.sqrt t * z) (s * Real.sqrt t) z := by
        simpa using ((hasDerivAt_id z).const_mul (s * Real.sqrt t)).const_add (a * t)
      exact (h2 _).comp z hd
    · rw [abs_mul]
      exact mul_le_mul_of_nonneg_right (b2 _) (abs_nonneg _)
  · have hx : t / 4 < x := hx
    have hsx : Real.sqrt t / 2 ≤ Real.sqrt x := by
      refine Real.le_sqrt_of_sq_le ?_
      rw [div_pow, Real.sq_sqrt ht.le]
      linarith
    rw [Real.norm_eq_abs, abs_mul]
    refine mul_le_mul (b1 _) ?_ (abs_nonneg _) hB1
    refine (abs_add_le _ _).trans (add_le_add le_rfl ?_)
    rw [abs_mul, abs_mul]
    refine mul_le_mul_of_nonneg_right (mul_le_mul_of_nonneg_left ?_ (abs_nonneg s)) (abs_nonneg z)
    rw [abs_of_nonneg (by positivity)]
    exact one_div_le_one_div_of_le hst (by linarith)
  · exact ((integrable_const _).add (integrable_id_gaussian.abs.const_mul _)).const_mul _
  · have hx0 : 0 < x := lt_trans (by linarith) (show t / 4 < x from hx)
    have hd : HasDerivAt (fun t => a * t + s * Real.sqrt t * z) (a + s * (1 / (2 * Real.sqrt x)) * z) x := by
      have := ((hasDerivAt_id x).const_mul a).add (((Real.hasDerivAt_sqrt hx0.ne').const_mul s).mul_const z)
      rw [mul_one] at this
      exact this
    exact (h1 _).comp x hd

/-- The heat equation with drift, from time 0 on. -/
theorem mean_hasDerivWithinAt {p1 p2 : ℝ → ℝ} {B1 B2 : ℝ} (h1 : ∀ w, HasDerivAt p (p1 w) w) (h2 : ∀ w, HasDerivAt p1 (p2 w) w)
    (hc : Continuous p2) (b0 : ∀ w, |p w| ≤ B) (b1 : ∀ w, |p1 w| ≤ B1) (b2 : ∀ w, |p2 w| ≤ B2) {t : ℝ} (ht : 0 ≤ t) :
    HasDerivWithinAt (mean a s p) (mean a s (fun w => a * p1 w + s ^ 2 / 2 * p2 w) t) (Ici 0) t := by
  have c0 : Continuous p := continuous_iff_continuousAt.mpr fun z => (h1 z).continuousAt
  have c1 : Continuous p1 := continuous_iff_continuousAt.mpr fun z => (h2 z).continuousAt
  have hd : ∀ t, 0 < t → HasDerivAt (mean a s p) (mean a s (fun w => a * p1 w + s ^ 2 / 2 * p2 w) t) t :=
    fun t ht => mean_hasDerivAt h1 h2 hc b0 b1 b2 ht
  rcases ht.eq_or_lt with rfl | ht
  · refine hasDerivWithinAt_Ici_of_tendsto_deriv (s := Ioi 0) (fun t ht => (hd t ht).differentiableAt.differentiableWithinAt)
      (continuous_mean c0 b0).continuousAt.continuousWithinAt self_mem_nhdsWithin ?_
    have hcm : Continuous (mean a s (fun w => a * p1 w + s ^ 2 / 2 * p2 w)) := by
      refine continuous_mean (B := |a| * B1 + |s ^ 2 / 2| * B2) (by fun_prop) fun w => ?_
      refine (abs_add_le _ _).trans (add_le_add ?_ ?_) <;> rw [abs_mul]
      · exact mul_le_mul_of_nonneg_left (b1 w) (abs_nonneg _)
      · exact mul_le_mul_of_nonneg_left (b2 w) (abs_nonneg _)
    refine ((hcm.tendsto 0).mono_left nhdsWithin_le_nhds).congr' ?_
    filter_upwards [self_mem_nhdsWithin] with t ht
    exact (hd t ht).deriv.symm
  · exact (hd t ht).hasDerivWithinAt

end

end Verif.Heat
