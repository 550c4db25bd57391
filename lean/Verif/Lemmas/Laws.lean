import Verif.Spec.RandomSource

/-!
# Exponential moments of the standard distributions
-/

namespace Verif
open MeasureTheory ProbabilityTheory Set
open scoped ENNReal

theorem lintegral_exp_gaussian (m : ℝ) (v : NNReal) (a : ℝ) :
    ∫⁻ x, ENNReal.ofReal (Real.exp (a * x)) ∂gaussianReal m v = ENNReal.ofReal (Real.exp (m * a + v * a ^ 2 / 2)) := by
  rw [← ofReal_integral_eq_lintegral_ofReal (integrable_exp_mul_gaussianReal a) (.of_forall fun x => (Real.exp_pos _).le)]
  congr 1
  have := congrFun (mgf_fun_id_gaussianReal (μ := m) (v := v)) a
  simpa [mgf] using this

theorem lintegral_exp_stdNormal (a : ℝ) (count : ℝ → Measure ℕ) :
    ∫⁻ x, ENNReal.ofReal (Real.exp (a * x)) ∂Spec.stdMeasure count (Dist.law Dist.stdNormal) = ENNReal.ofReal (Real.exp (a ^ 2 / 2)) := by
  have h := lintegral_exp_gaussian (lit 0) ⟨(lit 1 : ℝ) ^ 2, sq_nonneg _⟩ a
  refine h.trans ?_
  congr 2
  show lit 0 * a + (lit 1 : ℝ) ^ 2 * a ^ 2 / 2 = a ^ 2 / 2
  simp

theorem lintegral_exp_gamma {a r : ℝ} (ha : 0 < a) (hr : 0 < r) {b : ℝ} (hb : b < r) :
    ∫⁻ x, ENNReal.ofReal (Real.exp (b * x)) ∂gammaMeasure a r = ENNReal.ofReal ((r / (r - b)) ^ a) := by
  have hrb : 0 < r - b := by linarith
  unfold gammaMeasure
  have hm : Measurable (gammaPDF a r) := (measurable_gammaPDFReal a r).ennreal_ofReal
  rw [lintegral_withDensity_eq_lintegral_mul _ hm (by fun_prop)]
  have e : ∀ x, (gammaPDF a r * fun x => ENNReal.ofReal (Real.exp (b * x))) x = ENNReal.ofReal ((r / (r - b)) ^ a) * gammaPDF a (r - b) x := by
    intro x
    simp only [Pi.mul_apply]
    rcases lt_or_ge x 0 with hx | hx
    · simp [gammaPDF_of_neg hx]
    · rw [gammaPDF_of_nonneg hx, gammaPDF_of_nonneg hx, ← ENNReal.ofReal_mul' (Real.exp_pos _).le, ← ENNReal.ofReal_mul (by positivity)]
      congr 1
      rw [Real.div_rpow hr.le hrb.le, show -((r - b) * x) = -(r * x) + b * x by ring, Real.exp_add]
      have : (r - b) ^ a ≠ 0 := (Real.rpow_pos_of_pos hrb a).ne'
      field_simp
  rw [lintegral_congr e, lintegral_const_mul _ (show Measurable (gammaPDF a (r - b)) from (measurable_gammaPDFReal a (r - b)).ennreal_ofReal), lintegral_gammaPDF_eq_one ha hrb, mul_one]

/-- Beyond the rate the exponential moment is infinite. -/
theorem lintegral_exp_gamma_top {a r : ℝ} (ha : 0 < a) (hr : 0 < r) {b : ℝ} (hb : r ≤ b) :
    ∫⁻ x, ENNReal.ofReal (Real.exp (b * x)) ∂gammaMeasure a r = ⊤ := by
  rw [eq_top_iff]
  refine ENNReal.le_of_forall_nnreal_lt fun q _ => ?_
  -- choose b' < r with (r / (r - b')) ^ a ≥ q
  obtain ⟨M, hM1, hM⟩ : ∃ M : ℝ, 1 < M ∧ (q : ℝ) ≤ M ^ a := by
    refine ⟨(q + 2) ^ (1 / a), Real.one_lt_rpow (by have := NNReal.coe_nonneg q; linarith) (by positivity), ?_⟩
    rw [← Real.rpow_mul (by positivity), one_div, inv_mul_cancel₀ ha.ne', Real.rpow_one]
    linarith
  have hb' : r - r / M < r := by
    have : 0 < r / M := by positivity
    linarith
  have h := lintegral_exp_gamma ha hr hb'
  have e : r / (r - (r - r / M)) = M := by field_simp; ring
  rw [e] at h
  calc (q : ℝ≥0∞) = ENNReal.ofReal q := by simp
    _ ≤ ENNReal.ofReal (M ^ a) := ENNReal.ofReal_le_ofReal hM
    _ = _ := h.symm
    _ ≤ _ := by
      have hae : ∀ᵐ x ∂gammaMeasure a r, 0 ≤ x := by
        rw [ae_iff]
        unfold gammaMeasure
        have hs : {x : ℝ | ¬ 0 ≤ x} = Iio 0 := by ext x; simp
        rw [hs, withDensity_apply _ measurableSet_Iio]
        exact lintegral_gammaPDF_of_nonpos le_rfl
      refine lintegral_mono_ae (hae.mono fun x hx => ?_)
      refine ENNReal.ofReal_le_ofReal (Real.exp_le_exp.mpr ?_)
      have : 0 < r / M := by positivity
      exact mul_le_mul_of_nonneg_right (by linarith) hx

theorem lintegral_exp_expMeasure {r : ℝ} (hr : 0 < r) {b : ℝ} (hb : b < r) :
    ∫⁻ x, ENNReal.ofReal (Real.exp (b * x)) ∂expMeasure r = ENNReal.ofReal (r / (r - b)) := by
  have := lintegral_exp_gamma one_pos hr hb
  simpa [expMeasure] using this

theorem lintegral_uniform {p : ℝ} (h0 : 0 ≤ p) (h1 : p ≤ 1) (A B : ℝ≥0∞) :
    ∫⁻ u, (if u < p then A else B) ∂cond volume (Ico (0 : ℝ) 1) = ENNReal.ofReal p * A + ENNReal.ofReal (1 - p) * B := by
  have hv : volume (Ico (0 : ℝ) 1) = 1 := by simp
  rw [ProbabilityTheory.cond, hv, inv_one, one_smul]
  have hs : Ico (0 : ℝ) 1 = Ico 0 p ∪ Ico p 1 := (Ico_union_Ico_eq_Ico h0 h1).symm
  rw [hs, lintegral_union measurableSet_Ico (Set.Ico_disjoint_Ico_same)]
  congr 1
  · rw [setLIntegral_congr_fun (g := fun _ => A) measurableSet_Ico (fun x hx => by simp [hx.2])]
    simp [mul_comm]
  · rw [setLIntegral_congr_fun (g := fun _ => B) measurableSet_Ico (fun x hx => by simp [not_lt.mpr hx.1])]
    simp [mul_comm]

end Verif
