import Verif.Lemmas.NormalCdf
import Verif.Spec.SessionSpec
import Verif.Spec.MaturitySpec
import Mathlib.Analysis.Calculus.MeanValue
import Mathlib.Analysis.SpecialFunctions.Sqrt
import Mathlib.Analysis.Real.Pi.Bounds

/-!
# The Black-Scholes price as a function of the maturity
-/

namespace Verif
open Spec ProbabilityTheory

variable {S σ r c K : ℝ}

/-- `d₁`. -/
noncomputable def dOne (S σ r c K T : ℝ) : ℝ := (Real.log (S / K) + (r - c + σ ^ 2 / 2) * T) / (σ * Real.sqrt T)

theorem dOne_hasDerivAt (hσ : 0 < σ) {T : ℝ} (hT : 0 < T) : ∃ D, HasDerivAt (dOne S σ r c K) D T := by
  have h1 : HasDerivAt (fun T => Real.log (S / K) + (r - c + σ ^ 2 / 2) * T) (r - c + σ ^ 2 / 2) T := by
    simpa using ((hasDerivAt_id T).const_mul (r - c + σ ^ 2 / 2)).const_add (Real.log (S / K))
  have h2 : HasDerivAt (fun T => σ * Real.sqrt T) (σ * (1 / (2 * Real.sqrt T))) T := (Real.hasDerivAt_sqrt hT.ne').const_mul σ
  exact ⟨_, h1.div h2 (mul_pos hσ (Real.sqrt_pos.mpr hT)).ne'⟩

/-- The densities at `d₁` and `d₂`. -/
theorem pdf_dOne (hS : 0 < S) (hK : 0 < K) (hσ : 0 < σ) {T : ℝ} (hT : 0 < T) :
    K * Real.exp (-(r * T)) * gaussianPDFReal 0 1 (dOne S σ r c K T - σ * Real.sqrt T) = S * Real.exp (-(c * T)) * gaussianPDFReal 0 1 (dOne S σ r c K T) := by
  have hs : 0 < σ * Real.sqrt T := mul_pos hσ (Real.sqrt_pos.mpr hT)
  have e1 : dOne S σ r c K T * (σ * Real.sqrt T) = Real.log (S / K) + (r - c + σ ^ 2 / 2) * T := div_mul_cancel₀ _ hs.ne'
  have e2 : (σ * Real.sqrt T) ^ 2 = σ ^ 2 * T := by rw [mul_pow, Real.sq_sqrt hT.le]
  have e3 : S = K * Real.exp (Real.log (S / K)) := by rw [Real.exp_log (div_pos hS hK)]; field_simp
  generalize dOne S σ r c K T = d at *
  rw [gaussianPDFReal, gaussianPDFReal]
  have e4 : -(d - σ * Real.sqrt T - 0) ^ 2 / (2 * ((1 : NNReal) : ℝ)) = -(d - 0) ^ 2 / (2 * ((1 : NNReal) : ℝ)) + Real.log (S / K) + (r - c) * T := by
    have : (d - σ * Real.sqrt T) ^ 2 = d ^ 2 - 2 * (d * (σ * Real.sqrt T)) + (σ * Real.sqrt T) ^ 2 := by ring
    simp only [sub_zero, this, e1, e2, NNReal.coe_one]
    ring
  rw [e4, Real.exp_add, Real.exp_add]
  have e5 : Real.exp (-(r * T)) * Real.exp ((r - c) * T) = Real.exp (-(c * T)) := by rw [← Real.exp_add]; congr 1; ring
  calc _ = (Real.sqrt (2 * Real.pi * ((1 : NNReal) : ℝ)))⁻¹ * Real.exp (-(d - 0) ^ 2 / (2 * ((1 : NNReal) : ℝ))) * (K * Real.exp (Real.log (S / K))) *
        (Real.exp (-(r * T)) * Real.exp ((r - c) * T)) := by ring
    _ = _ := by rw [e5, ← e3]; ring

theorem pdf_le (x : ℝ) : gaussianPDFReal 0 1 x ≤ 1 / 2 := by
  rw [gaussianPDFReal]
  have h1 : Real.exp (-(x - 0) ^ 2 / (2 * ((1 : NNReal) : ℝ))) ≤ 1 := by
    rw [Real.exp_le_one_iff]
    have : 0 ≤ (x - 0) ^ 2 := sq_nonneg _
    simp only [NNReal.coe_one]
    linarith
  have h2 : (2 : ℝ) ≤ Real.sqrt (2 * Real.pi * ((1 : NNReal) : ℝ)) := by
    rw [Real.le_sqrt' (by norm_num)]
    simp only [NNReal.coe_one]
    linarith [Real.pi_gt_three]
  have h3 : (Real.sqrt (2 * Real.pi * ((1 : NNReal) : ℝ)))⁻¹ ≤ 1 / 2 := by
    rw [one_div]
    exact inv_anti₀ (by norm_num) h2
  calc _ ≤ (Real.sqrt (2 * Real.pi * ((1 : NNReal) : ℝ)))⁻¹ * 1 := mul_le_mul_of_nonneg_left h1 (by positivity)
    _ ≤ _ := by linarith

/-- The derivative of the price of a call with respect to the maturity. -/
theorem call_hasDerivAt (hS : 0 < S) (hK : 0 < K) (hσ : 0 < σ) {T : ℝ} (hT : 0 < T) :
    HasDerivAt (fun T => blackScholesCall S σ r c T K) (S * Real.exp (-(c * T)) * gaussianPDFReal 0 1 (dOne S σ r c K T) * (σ * (1 / (2 * Real.sqrt T))) -
      c * (S * Real.exp (-(c * T))) * Phi (dOne S σ r c K T) + r * (K * Real.exp (-(r * T))) * Phi (dOne S σ r c K T - σ * Real.sqrt T)) T := by
  obtain ⟨D, hD⟩ := dOne_hasDerivAt (S := S) (r := r) (c := c) (K := K) hσ hT
  have hs : HasDerivAt (fun T => σ * Real.sqrt T) (σ * (1 / (2 * Real.sqrt T))) T := (Real.hasDerivAt_sqrt hT.ne').const_mul σ
  have he : ∀ a : ℝ, HasDerivAt (fun T => Real.exp (-(a * T))) (Real.exp (-(a * T)) * -(a * 1)) T := fun a => (((hasDerivAt_id T).const_mul a).neg).exp
  have p1 := (hasDerivAt_Phi (dOne S σ r c K T)).comp T hD
  have p2 := (hasDerivAt_Phi (dOne S σ r c K T - σ * Real.sqrt T)).comp T (hD.sub hs)
  have key := (((he c).const_mul S).mul p1).sub (((he r).const_mul K).mul p2)
  refine (key.congr_deriv ?_)
  have e := pdf_dOne (r := r) (c := c) hS hK hσ hT
  simp only [Function.comp_apply]
  linear_combination (-(D - σ * (1 / (2 * Real.sqrt T)))) * e

/-- Puts and calls. -/
theorem blackScholes_parity (T : ℝ) : blackScholesPut S σ r c T K = blackScholesCall S σ r c T K - S * Real.exp (-(c * T)) + K * Real.exp (-(r * T)) := by
  unfold blackScholesPut blackScholesCall
  ring

theorem put_hasDerivAt (hS : 0 < S) (hK : 0 < K) (hσ : 0 < σ) {T : ℝ} (hT : 0 < T) :
    HasDerivAt (fun T => blackScholesPut S σ r c T K) (S * Real.exp (-(c * T)) * gaussianPDFReal 0 1 (dOne S σ r c K T) * (σ * (1 / (2 * Real.sqrt T))) +
      c * (S * Real.exp (-(c * T))) * (1 - Phi (dOne S σ r c K T)) - r * (K * Real.exp (-(r * T))) * (1 - Phi (dOne S σ r c K T - σ * Real.sqrt T))) T := by
  have he : ∀ a : ℝ, HasDerivAt (fun T => Real.exp (-(a * T))) (Real.exp (-(a * T)) * -(a * 1)) T := fun a => (((hasDerivAt_id T).const_mul a).neg).exp
  have key := ((call_hasDerivAt (r := r) (c := c) hS hK hσ hT).sub ((he c).const_mul S)).add ((he r).const_mul K)
  refine (key.congr_deriv (by ring)).congr_of_eventuallyEq (Filter.Eventually.of_forall fun T => ?_)
  exact blackScholes_parity T

theorem rate_le (hS : 0 < S) (hK : 0 < K) (hσ : 0 < σ) (hr : 0 ≤ r) {T T' t : ℝ} (hT : 0 < T) (h1 : T ≤ t) (h2 : t ≤ T') {d u v p : ℝ} (hu : 0 ≤ u ∧ u ≤ 1)
    (hv : 0 ≤ v ∧ v ≤ 1) (hp : 0 ≤ p ∧ p ≤ 1 / 2) (hd : d = S * Real.exp (-(c * t)) * p * (σ * (1 / (2 * Real.sqrt t))) + c * (S * Real.exp (-(c * t))) * u -
      r * (K * Real.exp (-(r * t))) * v ∨ d = S * Real.exp (-(c * t)) * p * (σ * (1 / (2 * Real.sqrt t))) - c * (S * Real.exp (-(c * t))) * u +
      r * (K * Real.exp (-(r * t))) * v) : |d| ≤ maturityRate S σ r c K T T' := by
  have ht : 0 < t := hT.trans_le h1
  have hs : 0 < Real.sqrt T := Real.sqrt_pos.mpr hT
  have hs' : Real.sqrt T ≤ Real.sqrt t := Real.sqrt_le_sqrt h1
  have e1 : Real.exp (-(c * t)) ≤ Real.exp (|c| * T') := by
    apply Real.exp_le_exp.mpr
    have : -(c * t) ≤ |c| * t := by
      rw [← neg_mul]
      exact mul_le_mul_of_nonneg_right (neg_le_abs c) ht.le
    exact this.trans (mul_le_mul_of_nonneg_left h2 (abs_nonneg c))
  have e2 : Real.exp (-(r * t)) ≤ 1 := Real.exp_le_one_iff.mpr (by nlinarith)
  have p1 := Real.exp_pos (-(c * t))
  have p2 := Real.exp_pos (-(r * t))
  have b1 : |S * Real.exp (-(c * t)) * p * (σ * (1 / (2 * Real.sqrt t)))| ≤ S * Real.exp (|c| * T') * (σ / (4 * Real.sqrt T)) := by
    rw [abs_of_nonneg (mul_nonneg (mul_nonneg (mul_nonneg hS.le p1.le) hp.1) (by positivity))]
    calc S * Real.exp (-(c * t)) * p * (σ * (1 / (2 * Real.sqrt t))) ≤ S * Real.exp (|c| * T') * (1 / 2) * (σ * (1 / (2 * Real.sqrt T))) := by
          refine mul_le_mul (mul_le_mul (mul_le_mul_of_nonneg_left e1 hS.le) hp.2 hp.1 (by positivity)) ?_ (by positivity) (by positivity)
          refine mul_le_mul_of_nonneg_left ?_ hσ.le
          exact one_div_le_one_div_of_le (by positivity) (by linarith)
      _ = _ := by field_simp; ring
  have b2 : |c * (S * Real.exp (-(c * t))) * u| ≤ S * Real.exp (|c| * T') * |c| := by
    rw [abs_mul, abs_mul, abs_of_nonneg hu.1, abs_of_nonneg (mul_nonneg hS.le p1.le)]
    calc |c| * (S * Real.exp (-(c * t))) * u ≤ |c| * (S * Real.exp (|c| * T')) * 1 :=
          mul_le_mul (mul_le_mul_of_nonneg_left (mul_le_mul_of_nonneg_left e1 hS.le) (abs_nonneg c)) hu.2 hu.1 (by positivity)
      _ = _ := by ring
  have b3 : |r * (K * Real.exp (-(r * t))) * v| ≤ r * K := by
    rw [abs_of_nonneg (mul_nonneg (mul_nonneg hr (mul_nonneg hK.le p2.le)) hv.1)]
    calc r * (K * Real.exp (-(r * t))) * v ≤ r * (K * 1) * 1 :=
          mul_le_mul (mul_le_mul_of_nonneg_left (mul_le_mul_of_nonneg_left e2 hK.le) hr) hv.2 hv.1 (by positivity)
      _ = _ := by ring
  unfold maturityRate
  rw [mul_add]
  have a1 := abs_le.mp b1
  have a2 := abs_le.mp b2
  have a3 := abs_le.mp b3
  rcases hd with rfl | rfl
  · exact abs_le.mpr ⟨by linarith [a1.1, a2.1, a3.2], by linarith [a1.2, a2.2, a3.1]⟩
  · exact abs_le.mpr ⟨by linarith [a1.1, a2.2, a3.1], by linarith [a1.2, a2.1, a3.2]⟩

theorem pdf_nonneg (x : ℝ) : 0 ≤ gaussianPDFReal 0 1 x := gaussianPDFReal_nonneg _ _ _

/-- Prices for different maturities. -/
theorem call_maturity (hS : 0 < S) (hK : 0 < K) (hσ : 0 < σ) (hr : 0 ≤ r) {T T' : ℝ} (hT : 0 < T) (h : T ≤ T') :
    |blackScholesCall S σ r c T' K - blackScholesCall S σ r c T K| ≤ maturityRate S σ r c K T T' * (T' - T) := by
  have key := (convex_Icc T T').norm_image_sub_le_of_norm_hasDerivWithin_le (f := fun T => blackScholesCall S σ r c T K) (C := maturityRate S σ r c K T T')
    (fun t ht => (call_hasDerivAt (r := r) (c := c) hS hK hσ (hT.trans_le ht.1)).hasDerivWithinAt)
    (fun t ht => rate_le (c := c) hS hK hσ hr hT ht.1 ht.2 ⟨Phi_nonneg (dOne S σ r c K t), cdf_le_one _ _⟩ ⟨Phi_nonneg (dOne S σ r c K t - σ * Real.sqrt t), cdf_le_one _ _⟩
      ⟨pdf_nonneg _, pdf_le _⟩ (.inr rfl)) (Set.left_mem_Icc.mpr h) (Set.right_mem_Icc.mpr h)
  rw [Real.norm_eq_abs, Real.norm_eq_abs, abs_of_nonneg (sub_nonneg.mpr h)] at key
  exact key

theorem put_maturity (hS : 0 < S) (hK : 0 < K) (hσ : 0 < σ) (hr : 0 ≤ r) {T T' : ℝ} (hT : 0 < T) (h : T ≤ T') :
    |blackScholesPut S σ r c T' K - blackScholesPut S σ r c T K| ≤ maturityRate S σ r c K T T' * (T' - T) := by
  have hPhi : ∀ x, 0 ≤ 1 - Phi x ∧ 1 - Phi x ≤ 1 := fun x => ⟨sub_nonneg.mpr (cdf_le_one _ _), by linarith [Phi_nonneg x]⟩
  have key := (convex_Icc T T').norm_image_sub_le_of_norm_hasDerivWithin_le (f := fun T => blackScholesPut S σ r c T K) (C := maturityRate S σ r c K T T')
    (fun t ht => (put_hasDerivAt (r := r) (c := c) hS hK hσ (hT.trans_le ht.1)).hasDerivWithinAt)
    (fun t ht => rate_le (c := c) hS hK hσ hr hT ht.1 ht.2 (hPhi (dOne S σ r c K t)) (hPhi (dOne S σ r c K t - σ * Real.sqrt t))
      ⟨pdf_nonneg _, pdf_le _⟩ (.inl rfl)) (Set.left_mem_Icc.mpr h) (Set.right_mem_Icc.mpr h)
  rw [Real.norm_eq_abs, Real.norm_eq_abs, abs_of_nonneg (sub_nonneg.mpr h)] at key
  exact key

end Verif
