import Verif.Lemmas.Semigroup
import Mathlib.MeasureTheory.Integral.IntervalIntegral.FundThmCalculus

/-!
# Smooth approximations of Lipschitz payoffs: four moving averages
-/

namespace Verif.Smoothing
open MeasureTheory Set intervalIntegral

variable {f F F' : ℝ → ℝ} {δ Λ B R : ℝ}

/-- The mean over the interval `[y - δ, y + δ]`. -/
noncomputable def average (δ : ℝ) (f : ℝ → ℝ) (y : ℝ) : ℝ := (∫ s in (y - δ)..(y + δ), f s) / (2 * δ)
/-- The difference quotient over the same interval. -/
noncomputable def slope (δ : ℝ) (f : ℝ → ℝ) (y : ℝ) : ℝ := (f (y + δ) - f (y - δ)) / (2 * δ)

theorem average_hasDerivAt (hf : Continuous f) (y : ℝ) : HasDerivAt (average δ f) (slope δ f y) y := by
  have h : ∀ y, HasDerivAt (fun u => ∫ s in (0 : ℝ)..u, f s) (f y) y := fun y => hf.integral_hasStrictDerivAt 0 y |>.hasDerivAt
  have e : average δ f = fun y => ((∫ s in (0 : ℝ)..(y + δ), f s) - ∫ s in (0 : ℝ)..(y - δ), f s) / (2 * δ) := by
    funext y
    rw [average, integral_interval_sub_left (hf.intervalIntegrable _ _) (hf.intervalIntegrable _ _)]
  rw [e]
  have h1 := (h (y + δ)).comp y ((hasDerivAt_id y).add_const δ)
  have h2 := (h (y - δ)).comp y ((hasDerivAt_id y).sub_const δ)
  refine ((h1.sub h2).div_const (2 * δ)).congr_deriv ?_
  simp [slope]

theorem continuous_average (hf : Continuous f) : Continuous (average δ f) :=
  continuous_iff_continuousAt.mpr fun y => (average_hasDerivAt hf y).continuousAt

theorem slope_hasDerivAt (h : ∀ y, HasDerivAt F (F' y) y) (y : ℝ) : HasDerivAt (slope δ F) (slope δ F' y) y := by
  have h1 := (h (y + δ)).comp y ((hasDerivAt_id y).add_const δ)
  have h2 := (h (y - δ)).comp y ((hasDerivAt_id y).sub_const δ)
  refine ((h1.sub h2).div_const (2 * δ)).congr_deriv ?_
  simp [slope]

theorem continuous_slope (hf : Continuous f) : Continuous (slope δ f) := by
  unfold slope
  fun_prop

theorem abs_average_le (hδ : 0 < δ) (hb : ∀ y, |f y| ≤ B) (y : ℝ) : |average δ f y| ≤ B := by
  have := norm_integral_le_of_norm_le_const (a := y - δ) (b := y + δ) (f := f) (C := B) fun s _ => by simpa using hb s
  rw [average, abs_div, abs_of_pos (by linarith : 0 < 2 * δ), div_le_iff₀ (by linarith)]
  rw [Real.norm_eq_abs, show y + δ - (y - δ) = 2 * δ by ring, abs_of_pos (by linarith : 0 < 2 * δ)] at this
  exact this

/-- Averages of functions between two constants. -/
theorem average_mem (hδ : 0 < δ) {lo hi : ℝ} (hf : Continuous f) (h : ∀ y, f y ∈ Icc lo hi) (y : ℝ) : average δ f y ∈ Icc lo hi := by
  have hy : y - δ ≤ y + δ := by linarith
  have e : y + δ - (y - δ) = 2 * δ := by ring
  have hp : 0 < 2 * δ := by linarith
  have i1 := integral_mono_on hy (intervalIntegrable_const (c := lo)) (hf.intervalIntegrable (μ := volume) _ _) fun s _ => (h s).1
  have i2 := integral_mono_on hy (hf.intervalIntegrable (μ := volume) _ _) (intervalIntegrable_const (c := hi)) fun s _ => (h s).2
  rw [intervalIntegral.integral_const, e, smul_eq_mul] at i1 i2
  unfold average
  exact ⟨by rw [le_div_iff₀ hp]; linarith, by rw [div_le_iff₀ hp]; linarith⟩

theorem average_eq_zero (hδ : 0 < δ) (hs : ∀ y, R ≤ |y| → f y = 0) : ∀ y, R + δ ≤ |y| → average δ f y = 0 := by
  intro y hy
  have : ∫ s in (y - δ)..(y + δ), f s = 0 := by
    refine (integral_congr (g := fun _ => 0) fun s hs' => ?_).trans (by simp)
    rw [uIcc_of_le (by linarith)] at hs'
    refine hs s ?_
    rcases abs_cases y with ⟨e, -⟩ | ⟨e, -⟩
    · exact le_trans (by linarith [hs'.1]) (le_abs_self s)
    · exact le_trans (by linarith [hs'.2]) (neg_le_abs s)
  rw [average, this, zero_div]

theorem slope_eq_zero (hδ : 0 < δ) (hs : ∀ y, R ≤ |y| → f y = 0) : ∀ y, R + δ ≤ |y| → slope δ f y = 0 := by
  intro y hy
  have h1 := abs_add_le (y + δ) (-δ)
  have h2 := abs_add_le (y - δ) δ
  rw [abs_neg, add_neg_cancel_right, abs_of_pos hδ] at h1
  rw [sub_add_cancel, abs_of_pos hδ] at h2
  rw [slope, hs _ (by linarith), hs _ (by linarith), sub_zero, zero_div]

theorem abs_slope_le (hδ : 0 < δ) (hb : ∀ y, |f y| ≤ B) (y : ℝ) : |slope δ f y| ≤ B / δ := by
  rw [slope, abs_div, abs_of_pos (by linarith : 0 < 2 * δ), div_le_div_iff₀ (by linarith) hδ]
  have := (abs_sub (f (y + δ)) (f (y - δ))).trans (add_le_add (hb _) (hb _))
  nlinarith

theorem abs_slope_lipschitz (hδ : 0 < δ) (hl : ∀ x y, |f x - f y| ≤ Λ * |x - y|) (y : ℝ) : |slope δ f y| ≤ Λ := by
  rw [slope, abs_div, abs_of_pos (by linarith : 0 < 2 * δ), div_le_iff₀ (by linarith)]
  have := hl (y + δ) (y - δ)
  rwa [show y + δ - (y - δ) = 2 * δ by ring, abs_of_pos (by linarith : 0 < 2 * δ)] at this

theorem average_lipschitz (hδ : 0 < δ) (hf : Continuous f) (hl : ∀ x y, |f x - f y| ≤ Λ * |x - y|) (x y : ℝ) :
    |average δ f x - average δ f y| ≤ Λ * |x - y| := by
  have e : ∫ s in (x - δ)..(x + δ), f s = ∫ s in (y - δ)..(y + δ), f (s + (x - y)) := by
    rw [integral_comp_add_right fun s => f s]
    congr 1 <;> ring
  have h := norm_integral_le_of_norm_le_const (a := y - δ) (b := y + δ) (f := fun s => f (s + (x - y)) - f s) (C := Λ * |x - y|) fun s _ => by
    have := hl (s + (x - y)) s
    rwa [add_sub_cancel_left] at this
  rw [Real.norm_eq_abs, show y + δ - (y - δ) = 2 * δ by ring, abs_of_pos (by linarith : 0 < 2 * δ),
    integral_sub (Continuous.intervalIntegrable (by fun_prop) _ _) (hf.intervalIntegrable _ _)] at h
  rw [average, average, e, ← sub_div, abs_div, abs_of_pos (by linarith : 0 < 2 * δ), div_le_iff₀ (by linarith)]
  exact h

theorem average_close (hδ : 0 < δ) (hf : Continuous f) (hl : ∀ x y, |f x - f y| ≤ Λ * |x - y|) (hΛ : 0 ≤ Λ) (y : ℝ) :
    |average δ f y - f y| ≤ Λ * δ := by
  have h := norm_integral_le_of_norm_le_const (a := y - δ) (b := y + δ) (f := fun s => f s - f y) (C := Λ * δ) fun s hs => by
    rw [uIoc_of_le (by linarith)] at hs
    refine (hl s y).trans (mul_le_mul_of_nonneg_left ?_ hΛ)
    rw [abs_le]
    exact ⟨by linarith [hs.1], by linarith [hs.2]⟩
  rw [Real.norm_eq_abs, show y + δ - (y - δ) = 2 * δ by ring, abs_of_pos (by linarith : 0 < 2 * δ),
    integral_sub (hf.intervalIntegrable _ _) (intervalIntegrable_const), intervalIntegral.integral_const, show y + δ - (y - δ) = 2 * δ by ring, smul_eq_mul] at h
  have e : average δ f y - f y = ((∫ s in (y - δ)..(y + δ), f s) - 2 * δ * f y) / (2 * δ) := by
    rw [average]; field_simp
  rw [e, abs_div, abs_of_pos (by linarith : 0 < 2 * δ), div_le_iff₀ (by linarith)]
  exact h

/-- Four averages of a Lipschitz function that vanishes outside `[-R, R]`. -/
noncomputable def smooth (δ : ℝ) (f : ℝ → ℝ) : ℝ → ℝ := average δ (average δ (average δ (average δ f)))

/-- The result is smooth. -/
noncomputable def smoothPayoff (hδ : 0 < δ) (hf : Continuous f) (hl : ∀ x y, |f x - f y| ≤ Λ * |x - y|) (hb : ∀ y, |f y| ≤ B)
    (hs : ∀ y, R ≤ |y| → f y = 0) :
    SmoothPayoff (smooth δ f) (R + 4 * δ) B Λ (Λ / δ) (Λ / δ / δ) (Λ / δ / δ / δ) := by
  have k1 := continuous_average (δ := δ) hf
  have k2 := continuous_average (δ := δ) k1
  have k3 := continuous_average (δ := δ) k2
  have l1 := average_lipschitz hδ hf hl
  have l2 := average_lipschitz hδ k1 l1
  have l3 := average_lipschitz hδ k2 l2
  have z1 := average_eq_zero hδ hs
  have z2 := average_eq_zero hδ z1
  have z3 := average_eq_zero hδ z2
  have e4 : R + 4 * δ = R + δ + δ + δ + δ := by ring
  exact
  { g1 := slope δ (average δ (average δ (average δ f)))
    g2 := slope δ (slope δ (average δ (average δ f)))
    g3 := slope δ (slope δ (slope δ (average δ f)))
    g4 := slope δ (slope δ (slope δ (slope δ f)))
    h1 := average_hasDerivAt k3
    h2 := slope_hasDerivAt (average_hasDerivAt k2)
    h3 := slope_hasDerivAt (slope_hasDerivAt (average_hasDerivAt k1))
    h4 := slope_hasDerivAt (slope_hasDerivAt (slope_hasDerivAt (average_hasDerivAt hf)))
    c4 := continuous_slope (continuous_slope (continuous_slope (continuous_slope hf)))
    b0 := abs_average_le hδ (abs_average_le hδ (abs_average_le hδ (abs_average_le hδ hb)))
    b1 := abs_slope_lipschitz hδ l3
    b2 := abs_slope_le hδ (abs_slope_lipschitz hδ l2)
    b3 := abs_slope_le hδ (abs_slope_le hδ (abs_slope_lipschitz hδ l1))
    b4 := abs_slope_le hδ (abs_slope_le hδ (abs_slope_le hδ (abs_slope_lipschitz hδ hl)))
    s1 := by rw [e4]; exact slope_eq_zero hδ z3
    s2 := by rw [e4]; exact slope_eq_zero hδ (slope_eq_zero hδ z2)
    s3 := by rw [e4]; exact slope_eq_zero hδ (slope_eq_zero hδ (slope_eq_zero hδ z1))
    s4 := by rw [e4]; exact slope_eq_zero hδ (slope_eq_zero hδ (slope_eq_zero hδ (slope_eq_zero hδ hs))) }

theorem smooth_close (hδ : 0 < δ) (hf : Continuous f) (hl : ∀ x y, |f x - f y| ≤ Λ * |x - y|) (hΛ : 0 ≤ Λ) (y : ℝ) :
    |smooth δ f y - f y| ≤ 4 * Λ * δ := by
  have k1 := continuous_average (δ := δ) hf
  have k2 := continuous_average (δ := δ) k1
  have k3 := continuous_average (δ := δ) k2
  have l1 := average_lipschitz hδ hf hl
  have l2 := average_lipschitz hδ k1 l1
  have l3 := average_lipschitz hδ k2 l2
  have a0 := abs_le.mp (average_close hδ hf hl hΛ y)
  have a1 := abs_le.mp (average_close hδ k1 l1 hΛ y)
  have a2 := abs_le.mp (average_close hδ k2 l2 hΛ y)
  have a3 := abs_le.mp (average_close hδ k3 l3 hΛ y)
  unfold smooth
  rw [abs_le]
  exact ⟨by linarith [a0.1, a1.1, a2.1, a3.1], by linarith [a0.2, a1.2, a2.2, a3.2]⟩

theorem smooth_mem (hδ : 0 < δ) {lo hi : ℝ} (hf : Continuous f) (h : ∀ y, f y ∈ Icc lo hi) (y : ℝ) : smooth δ f y ∈ Icc lo hi := by
  have k1 := continuous_average (δ := δ) hf
  have k2 := continuous_average (δ := δ) k1
  have k3 := continuous_average (δ := δ) k2
  exact average_mem hδ k3 (average_mem hδ k2 (average_mem hδ k1 (average_mem hδ hf h))) y

end Verif.Smoothing
