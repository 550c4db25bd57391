import Verif.Spec.MertonSpec
import Verif.Props.ExactLaws
import Verif.Props.Estimator
import Verif.Props.QuasiDouble

/-!
# Property C98: put prices in Merton's model against Merton's series
-/

namespace Verif
open MeasureTheory ProbabilityTheory Function Spec
open scoped ENNReal NNReal

variable {G : Type} [MeasurableSpace G] {μ : Measure G} [IsProbabilityMeasure μ] {g : Gen G ℝ} {count : ℝ → Measure ℕ}

theorem conv_bind (A : Measure ℝ) [IsProbabilityMeasure A] (c : Measure ℕ) [IsProbabilityMeasure c] {K : ℕ → Measure ℝ} (hp : ∀ n, IsProbabilityMeasure (K n))
    {φ : ℝ → ℝ≥0∞} (hφ : Measurable φ) : ∫⁻ x, φ x ∂(A ∗ c.bind K) = ∫⁻ n, ∫⁻ x, φ x ∂(A ∗ K n) ∂c := by
  have hK : Measurable K := measurable_from_nat
  haveI := bind_probability c hK hp
  have m : Measurable fun x : ℝ => ∫⁻ y, φ (x + y) ∂A := by
    have : Measurable fun p : ℝ × ℝ => φ (p.1 + p.2) := by fun_prop
    exact this.lintegral_prod_right'
  rw [Measure.conv_comm, Measure.lintegral_conv hφ, Measure.lintegral_bind hK.aemeasurable m.aemeasurable]
  refine lintegral_congr fun n => ?_
  haveI := hp n
  rw [Measure.conv_comm, Measure.lintegral_conv hφ]

/-- The expectation of a bounded payoff given the number of jumps, averaged over the number of jumps. -/
theorem integral_conv_bind (A : Measure ℝ) [IsProbabilityMeasure A] (c : Measure ℕ) [IsProbabilityMeasure c] {K : ℕ → Measure ℝ} (hp : ∀ n, IsProbabilityMeasure (K n))
    {f : ℝ → ℝ} (hf : Measurable f) (h0 : ∀ x, 0 ≤ f x) {M : ℝ} (hM : ∀ x, f x ≤ M) : ∫ x, f x ∂(A ∗ c.bind K) = ∫ n, ∫ x, f x ∂(A ∗ K n) ∂c := by
  haveI := bind_probability c (measurable_from_nat (f := K)) hp
  have hi : ∀ (P : Measure ℝ) [IsProbabilityMeasure P], Integrable f P := fun P _ =>
    Integrable.of_bound hf.aestronglyMeasurable M (.of_forall fun x => by rw [Real.norm_eq_abs, abs_of_nonneg (h0 x)]; exact hM x)
  rw [integral_eq_lintegral_of_nonneg_ae (.of_forall h0) hf.aestronglyMeasurable, conv_bind A c hp hf.ennreal_ofReal,
    integral_eq_lintegral_of_nonneg_ae (.of_forall fun n => integral_nonneg h0) (by fun_prop)]
  congr 1
  refine lintegral_congr fun n => ?_
  haveI := hp n
  rw [ofReal_integral_eq_lintegral_ofReal (hi _) (.of_forall h0)]

/-- The discounted expectation of a put payoff when the log-price is normal. -/
theorem normal_put {S σ ρ q T K m V : ℝ} (hS : 0 < S) (hσ : 0 < σ) (hT : 0 < T) (hK : 0 < K) (hm : m = (ρ - q - σ ^ 2 / 2) * T) (hV : V = σ ^ 2 * T) :
    ∫ y, max (K - S * Real.exp y) 0 ∂gaussianReal m V.toNNReal = Real.exp (ρ * T) * blackScholesPut S σ ρ q T K := by
  have h := put_integral (r := ρ) (q := some q) hS hσ hT hK
  simp only [Option.getD_some] at h
  rw [← h, ← mul_assoc, ← Real.exp_add, show ρ * T + -(ρ * T) = 0 by ring, Real.exp_zero, one_mul, hV,
    show σ ^ 2 * T = (σ * Real.sqrt T) ^ 2 by rw [mul_pow, Real.sq_sqrt hT.le], ← Sim.map_gaussian, integral_map (by fun_prop) (by fun_prop), hm]

/-- The discounted expected put payoff in the jump diffusion is Merton's series. -/
theorem mertonPut_eq {S σ r c T K lam muJ sigmaJ : ℝ} (hS : 0 < S) (hσ : 0 < σ) (hT : 0 < T) (hK : 0 < K) (hl : 0 ≤ lam) :
    Real.exp (-(r * T)) * ∫ y, max (K - S * Real.exp y) 0 ∂jumpDiffusionLaw (r - c - σ ^ 2 / 2) σ lam (gaussianReal muJ (sigmaJ ^ 2).toNNReal) T =
      mertonPut S σ r (c - lam * jumpMean muJ sigmaJ) T K lam muJ sigmaJ := by
  have hκ : 0 < 1 + jumpMean muJ sigmaJ := by unfold jumpMean; have := Real.exp_pos (muJ + sigmaJ ^ 2 / 2); linarith
  haveI := Sim.brownianLaw_probability (r - c - σ ^ 2 / 2) σ T
  rw [jumpDiffusionLaw, compound, integral_conv_bind _ _ (fun n => inferInstance) (by fun_prop) (fun x => le_max_right _ _) (M := K)
    (fun x => max_le (by have := Real.exp_pos x; nlinarith) hK.le), integral_poissonMeasure, mertonPut, ← tsum_mul_left]
  refine tsum_congr fun n => ?_
  have hv : 0 < σ ^ 2 + n * sigmaJ ^ 2 / T := by positivity
  rw [sumLaw_gaussian, brownianLaw, gaussianReal_conv_gaussianReal,
    show (σ ^ 2 * T).toNNReal + (n : ℝ≥0) * (sigmaJ ^ 2).toNNReal = (σ ^ 2 * T + n * sigmaJ ^ 2).toNNReal from by
      apply NNReal.coe_injective
      push_cast
      rw [Real.coe_toNNReal _ (by positivity), Real.coe_toNNReal _ (by positivity), Real.coe_toNNReal _ (by positivity)],
    normal_put (σ := Real.sqrt (σ ^ 2 + n * sigmaJ ^ 2 / T)) (ρ := r - lam * jumpMean muJ sigmaJ + n * (muJ + sigmaJ ^ 2 / 2) / T)
      (q := c - lam * jumpMean muJ sigmaJ) hS (Real.sqrt_pos.mpr hv) hT hK (by rw [Real.sq_sqrt hv.le]; field_simp; ring)
      (by rw [Real.sq_sqrt hv.le]; field_simp)]
  rw [Real.coe_toNNReal _ (by positivity), smul_eq_mul]
  generalize blackScholesPut S _ _ _ T K = B
  have e : 1 + jumpMean muJ sigmaJ = Real.exp (muJ + sigmaJ ^ 2 / 2) := by unfold jumpMean; ring
  have e2 : (lam * (1 + jumpMean muJ sigmaJ) * T) ^ n = (lam * T) ^ n * Real.exp (n * (muJ + sigmaJ ^ 2 / 2)) := by
    rw [e, Real.exp_nat_mul, ← mul_pow]; congr 1; ring
  rw [e2]
  have e3 : Real.exp (-(lam * (1 + jumpMean muJ sigmaJ) * T)) * Real.exp (n * (muJ + sigmaJ ^ 2 / 2)) =
      Real.exp (-(r * T)) * Real.exp (-(lam * T)) * Real.exp ((r - lam * jumpMean muJ sigmaJ + n * (muJ + sigmaJ ^ 2 / 2) / T) * T) := by
    rw [← Real.exp_add, ← Real.exp_add, ← Real.exp_add]
    congr 1
    field_simp
    ring
  calc _ = (Real.exp (-(r * T)) * Real.exp (-(lam * T)) * Real.exp ((r - lam * jumpMean muJ sigmaJ + n * (muJ + sigmaJ ^ 2 / 2) / T) * T)) *
        ((lam * T) ^ n / n.factorial * B) := by ring
    _ = _ := by rw [← e3]; ring

/-- **C98.** Puts in Merton's model: the average of the simulated prices is Merton's series at the yield `c - lambda κ`, up to the saturation of the
counts, and the variance is at most the squared discounted strike over the number of paths.  Missing: the series at the yield `c` of the user. -/
theorem C98_mertonPut_partial (hg : RandomSource g μ clippedPoisson) {v : View ℝ} (hS : 0 < v.price) (hσ : 0 < v.sigma) {T : ℝ} (hT : 0 < T) {steps : ℕ} (h1 : 0 < steps)
    (h2 : steps ≤ INT_MAX) {lambda muJ sigmaJ : ℝ} (hl : 0 < lambda) {k : ModelKind ℝ} (hk : ModelKind.mkMerton lambda muJ sigmaJ = .ok k)
    {K : ℝ} (hK : 0 < K) {N : ℕ} (hN : 0 < N) (hN2 : N ≤ INT_MAX) :
    ∃ mean var, Estimator μ (MC.singlePath (modelSource g steps v k) (Eff.lift (.ok v.r)) (Payoff.vanilla .put K).eval1 T N) mean var ∧
      |mean - mertonPut v.price v.sigma v.r (v.coupon.getD 0 - lambda * jumpMean muJ sigmaJ) T K lambda muJ sigmaJ| ≤
        Real.exp (-(v.r * T)) * K * (lambda * T / 2 ^ 31) ∧ var ≤ (Real.exp (-(v.r * T)) * K) ^ 2 / N := by
  have hk' := hk
  unfold ModelKind.mkMerton at hk'
  split at hk'
  · simp [invalidArg] at hk'
  rename_i hs
  simp only [Fl.le_real, Fl.lit_real, Rat.cast_zero, not_le] at hs
  simp only [Res.ok.injEq] at hk'
  have hs' : (0 : ℝ) < steps := by exact_mod_cast h1
  have hsim : Simulatable (T / steps) k := by subst hk'; exact ⟨by positivity, hs⟩
  obtain ⟨X, hX, hXm, hpos⟩ := C65_path hg hS T h2 hsim
  have hlt : steps - 1 < steps := by omega
  have h0 : ∀ x : ℝ, 0 ≤ max (K - max x 0) 0 := fun x => le_max_right _ _
  have hM : ∀ x : ℝ, max (K - max x 0) 0 ≤ K := fun x => max_le (by linarith [le_max_right x 0]) hK.le
  have eX : ∀ s, max (K - X (steps - 1) s) 0 = max (K - max (X (steps - 1) s) 0) 0 := fun s => by rw [max_eq_left (hpos _ hlt s).le]
  have hm : Measurable fun s => max (K - X (steps - 1) s) 0 := by
    have := hXm (steps - 1)
    fun_prop
  have hb : ∀ s, 0 ≤ max (K - X (steps - 1) s) 0 ∧ max (K - X (steps - 1) s) 0 ≤ K := fun s => by rw [eX]; exact ⟨h0 _, hM _⟩
  have hL : MemLp (fun s => max (K - X (steps - 1) s) 0) 2 μ :=
    MemLp.of_bound hm.aestronglyMeasurable K (.of_forall fun s => by rw [Real.norm_eq_abs, abs_of_nonneg (hb s).1]; exact (hb s).2)
  refine ⟨_, _, C65_singlePath hg hS h1 h2 hsim (by fun_prop) (putValue K) hX hL hN hN2, ?_, ?_⟩
  · have a := C97_mertonPayoff hg hT h2 hl hk hX hlt (f := fun x => max (K - max x 0) 0) (by fun_prop) h0 hM
    rw [last_date h1] at a
    have e1 : ∀ y, max (K - max (v.price * Real.exp y) 0) 0 = max (K - v.price * Real.exp y) 0 := fun y => by rw [max_eq_left (a := v.price * Real.exp y) (by positivity)]
    simp only [e1, ← eX] at a
    rw [← mertonPut_eq hS hσ hT hK hl.le, ← mul_sub, abs_mul, abs_of_pos (Real.exp_pos _), mul_assoc]
    gcongr
  · gcongr
    refine (variance_le_expectation_sq (by fun_prop)).trans ?_
    have : ∀ s, (Real.exp (-(v.r * T)) * max (K - X (steps - 1) s) 0) ^ 2 ≤ (Real.exp (-(v.r * T)) * K) ^ 2 := by
      intro s
      have := (hb s).1
      have := (hb s).2
      gcongr
    refine (integral_mono_of_nonneg (.of_forall fun s => sq_nonneg _) (integrable_const _) (.of_forall this)).trans ?_
    simp

/-! ## The price at the user's own yield -/

/-- Exponential moments of a jump diffusion. -/
theorem lintegral_exp_jumps (b σ : ℝ) {lam T : ℝ} (hl : 0 ≤ lam) (hT : 0 ≤ T) (muJ sigmaJ a : ℝ) :
    ∫⁻ y, ENNReal.ofReal (Real.exp (a * y)) ∂jumpDiffusionLaw b σ lam (gaussianReal muJ (sigmaJ ^ 2).toNNReal) T =
      ENNReal.ofReal (Real.exp (a * b * T + a ^ 2 * σ ^ 2 * T / 2 + lam * T * (Real.exp (a * muJ + a ^ 2 * sigmaJ ^ 2 / 2) - 1))) := by
  haveI := Sim.brownianLaw_probability b σ T
  have e : ∀ n : ℕ, ∫⁻ y, ENNReal.ofReal (Real.exp (a * y)) ∂(brownianLaw b σ T ∗ sumLaw (gaussianReal muJ (sigmaJ ^ 2).toNNReal) n) =
      ENNReal.ofReal (Real.exp (a * b * T + a ^ 2 * σ ^ 2 * T / 2) * Real.exp (a * muJ + a ^ 2 * sigmaJ ^ 2 / 2) ^ n) := by
    intro n
    rw [sumLaw_gaussian, brownianLaw, gaussianReal_conv_gaussianReal, lintegral_exp_gaussian, ← Real.exp_nat_mul, ← Real.exp_add]
    push_cast
    rw [Real.coe_toNNReal _ (by positivity), Real.coe_toNNReal _ (by positivity)]
    congr 2
    ring
  rw [jumpDiffusionLaw, compound, conv_bind _ _ (fun n => inferInstance) (by fun_prop), lintegral_congr e]
  obtain ⟨i1, i2⟩ := integral_pow_poisson (lam * T).toNNReal (Real.exp (a * muJ + a ^ 2 * sigmaJ ^ 2 / 2))
  rw [← ofReal_integral_eq_lintegral_ofReal (i1.const_mul _) (.of_forall fun n => by positivity), integral_const_mul, i2, ← Real.exp_add,
    Real.coe_toNNReal _ (by positivity)]

theorem integral_exp_jumps (b σ : ℝ) {lam T : ℝ} (hl : 0 ≤ lam) (hT : 0 ≤ T) (muJ sigmaJ a : ℝ) :
    Integrable (fun y => Real.exp (a * y)) (jumpDiffusionLaw b σ lam (gaussianReal muJ (sigmaJ ^ 2).toNNReal) T) ∧
    ∫ y, Real.exp (a * y) ∂jumpDiffusionLaw b σ lam (gaussianReal muJ (sigmaJ ^ 2).toNNReal) T =
      Real.exp (a * b * T + a ^ 2 * σ ^ 2 * T / 2 + lam * T * (Real.exp (a * muJ + a ^ 2 * sigmaJ ^ 2 / 2) - 1)) := by
  have h := lintegral_exp_jumps b σ hl hT muJ sigmaJ a
  have hi : Integrable (fun y => Real.exp (a * y)) (jumpDiffusionLaw b σ lam (gaussianReal muJ (sigmaJ ^ 2).toNNReal) T) := by
    refine ⟨by fun_prop, ?_⟩
    rw [hasFiniteIntegral_iff_ofReal (.of_forall fun y => (Real.exp_pos _).le), h]
    exact ENNReal.ofReal_lt_top
  refine ⟨hi, ?_⟩
  rw [integral_eq_lintegral_of_nonneg_ae (.of_forall fun y => (Real.exp_pos _).le) (by fun_prop), h, ENNReal.toReal_ofReal (Real.exp_pos _).le]

/-- Merton's price of a put is at least the discounted strike less the spot price discounted at the dividend yield. -/
theorem mertonPut_ge {S σ r q T K lam muJ sigmaJ : ℝ} (hS : 0 < S) (hσ : 0 < σ) (hT : 0 < T) (hK : 0 < K) (hl : 0 ≤ lam) :
    K * Real.exp (-(r * T)) - S * Real.exp (-(q * T)) ≤ mertonPut S σ r q T K lam muJ sigmaJ := by
  have h := mertonPut_eq (S := S) (r := r) (c := q + lam * jumpMean muJ sigmaJ) (muJ := muJ) (sigmaJ := sigmaJ) hS hσ hT hK hl
  rw [add_sub_cancel_right] at h
  rw [← h]
  obtain ⟨i1, i2⟩ := integral_exp_jumps (r - (q + lam * jumpMean muJ sigmaJ) - σ ^ 2 / 2) σ hl hT.le muJ sigmaJ 1
  simp only [one_mul, one_pow] at i1 i2
  haveI := jumpDiffusionLaw_probability (r - (q + lam * jumpMean muJ sigmaJ) - σ ^ 2 / 2) σ lam T (gaussianReal muJ (sigmaJ ^ 2).toNNReal)
  have hb : Integrable (fun y => max (K - S * Real.exp y) 0) (jumpDiffusionLaw (r - (q + lam * jumpMean muJ sigmaJ) - σ ^ 2 / 2) σ lam (gaussianReal muJ (sigmaJ ^ 2).toNNReal) T) :=
    Integrable.of_bound (by fun_prop) K (.of_forall fun y => by
      rw [Real.norm_eq_abs, abs_of_nonneg (le_max_right _ _)]
      exact max_le (by have := Real.exp_pos y; nlinarith) hK.le)
  have h2 : ∫ y, (K - S * Real.exp y) ∂jumpDiffusionLaw (r - (q + lam * jumpMean muJ sigmaJ) - σ ^ 2 / 2) σ lam (gaussianReal muJ (sigmaJ ^ 2).toNNReal) T ≤
      ∫ y, max (K - S * Real.exp y) 0 ∂jumpDiffusionLaw (r - (q + lam * jumpMean muJ sigmaJ) - σ ^ 2 / 2) σ lam (gaussianReal muJ (sigmaJ ^ 2).toNNReal) T :=
    integral_mono ((integrable_const K).sub (i1.const_mul S)) hb fun y => le_max_left _ _
  rw [integral_sub (integrable_const K) (i1.const_mul S), integral_const_mul, i2] at h2
  simp only [integral_const, probReal_univ, one_smul] at h2
  have e : Real.exp (-(r * T)) * Real.exp ((r - (q + lam * jumpMean muJ sigmaJ) - σ ^ 2 / 2) * T + σ ^ 2 * T / 2 + lam * T * (Real.exp (muJ + sigmaJ ^ 2 / 2) - 1)) =
      Real.exp (-(q * T)) := by
    rw [← Real.exp_add]
    congr 1
    unfold jumpMean
    ring
  have h3 := mul_le_mul_of_nonneg_left h2 (Real.exp_pos (-(r * T))).le
  rw [mul_sub, mul_left_comm, e] at h3
  linarith

/-- Merton's price of a put is at most the discounted expectation of `K ^ 2 / (4 X)`. -/
theorem mertonPut_le {S σ r c T K lam muJ sigmaJ : ℝ} (hS : 0 < S) (hσ : 0 < σ) (hT : 0 < T) (hK : 0 < K) (hl : 0 ≤ lam) :
    mertonPut S σ r (c - lam * jumpMean muJ sigmaJ) T K lam muJ sigmaJ ≤
      Real.exp (-(r * T)) * (K ^ 2 / (4 * S) * Real.exp (-(r - c - σ ^ 2) * T + lam * T * (Real.exp (-muJ + sigmaJ ^ 2 / 2) - 1))) := by
  rw [← mertonPut_eq hS hσ hT hK hl]
  obtain ⟨i1, i2⟩ := integral_exp_jumps (r - c - σ ^ 2 / 2) σ hl hT.le muJ sigmaJ (-1)
  rw [show (-1 : ℝ) * (r - c - σ ^ 2 / 2) * T + (-1) ^ 2 * σ ^ 2 * T / 2 + lam * T * (Real.exp (-1 * muJ + (-1) ^ 2 * sigmaJ ^ 2 / 2) - 1) =
    -(r - c - σ ^ 2) * T + lam * T * (Real.exp (-muJ + sigmaJ ^ 2 / 2) - 1) by ring_nf] at i2
  rw [← i2]
  refine mul_le_mul_of_nonneg_left ?_ (Real.exp_pos _).le
  rw [← integral_const_mul]
  haveI := jumpDiffusionLaw_probability (r - c - σ ^ 2 / 2) σ lam T (gaussianReal muJ (sigmaJ ^ 2).toNNReal)
  refine integral_mono_of_nonneg (.of_forall fun y => le_max_right _ _) (i1.const_mul _) (.of_forall fun y => ?_)
  have hy := Real.exp_pos y
  simp only [neg_mul, one_mul, Real.exp_neg]
  rw [max_le_iff]
  refine ⟨?_, by positivity⟩
  rw [div_mul_eq_mul_div, ← div_eq_mul_inv, div_div, le_div_iff₀ (by positivity)]
  nlinarith [sq_nonneg (K - 2 * (S * Real.exp y))]

/-- The hypotheses of the theorems are met by a market with one jump a year on average. -/
theorem mkMerton_up : ModelKind.mkMerton (1 : ℝ) 1 (1/10) = .ok (.merton 1 1 (1/10)) := by
  unfold ModelKind.mkMerton
  rw [if_neg]
  simp only [Fl.le_real, Fl.lit_real, Rat.cast_zero]; norm_num

/-- **C98.** The prices are not those of Merton's model: for every number of time steps and paths, the average simulated price of a put with strike 200 on an asset
at 100 that jumps up once a year on average is at most 60, although the put is worth at least 100. -/
theorem C98_mertonPut_fails {steps : ℕ} (h1 : 0 < steps) (h2 : steps ≤ INT_MAX) {N : ℕ} (hN : 0 < N) (hN2 : N ≤ INT_MAX) :
    ∃ mean var, Estimator perfectMeasure (MC.singlePath (modelSource perfectGen steps ⟨100, 1/5, none, 0⟩ (.merton 1 1 (1/10))) (Eff.lift (.ok 0))
      (Payoff.vanilla .put 200).eval1 1 N) mean var ∧ mean ≤ 60 ∧ 100 ≤ mertonPut 100 (1/5) 0 ((none : Option ℝ).getD 0) 1 200 1 1 (1/10) := by
  obtain ⟨mean, var, e, h, -⟩ := C98_mertonPut_partial randomSource_perfectGen (v := ⟨100, 1/5, none, 0⟩) (by norm_num) (by norm_num) one_pos h1 h2 one_pos mkMerton_up
    (K := 200) (by norm_num) hN hN2
  refine ⟨mean, var, e, ?_, ?_⟩
  · have a := mertonPut_le (S := 100) (σ := 1/5) (r := 0) (c := (none : Option ℝ).getD 0) (T := 1) (K := 200) (lam := 1) (muJ := 1) (sigmaJ := 1/10)
      (by norm_num) (by norm_num) one_pos (by norm_num) one_pos.le
    have b := (abs_le.mp h).2
    simp only [Option.getD_none] at a b
    norm_num at a b
    have c1 : Real.exp (-(199/200)) ≤ 41/100 := by
      have := Real.quadratic_le_exp_of_nonneg (show (0 : ℝ) ≤ 199/200 by norm_num)
      rw [Real.exp_neg, inv_le_comm₀ (Real.exp_pos _) (by norm_num)]
      norm_num at this ⊢
      linarith
    have c2 : Real.exp (1/25 + (Real.exp (-(199/200)) - 1)) ≤ 59/100 := by
      have := Real.quadratic_le_exp_of_nonneg (show (0 : ℝ) ≤ 55/100 by norm_num)
      have q : Real.exp (-(55/100)) ≤ 59/100 := by
        rw [Real.exp_neg, inv_le_comm₀ (Real.exp_pos _) (by norm_num)]
        norm_num at this ⊢
        linarith
      refine le_trans (Real.exp_le_exp.mpr ?_) q
      linarith
    linarith
  · have := mertonPut_ge (S := 100) (σ := 1/5) (r := 0) (q := (none : Option ℝ).getD 0) (T := 1) (K := 200) (lam := 1) (muJ := 1) (sigmaJ := 1/10)
      (by norm_num) (by norm_num) one_pos (by norm_num) one_pos.le
    simp only [Option.getD_none] at this ⊢
    norm_num at this ⊢
    linarith

/-- With jumps whose mean relative size is nil the yield is the user's own, and the prices are those of Merton's series. -/
example : ∃ mean var, Estimator perfectMeasure (MC.singlePath (modelSource perfectGen 252 ⟨100, 1/5, some (1/100), 1/20⟩ (.merton 2 (-1/32) (1/4))) (Eff.lift (.ok (1/20)))
      (Payoff.vanilla .put 90).eval1 1 10000) mean var ∧
      |mean - mertonPut 100 (1/5) (1/20) (1/100) 1 90 2 (-1/32) (1/4)| ≤ 1 / 10000000 ∧ var ≤ 1 := by
  have hk : ModelKind.mkMerton (2 : ℝ) (-1/32) (1/4) = .ok (.merton 2 (-1/32) (1/4)) := by
    unfold ModelKind.mkMerton
    rw [if_neg]
    simp only [Fl.le_real, Fl.lit_real, Rat.cast_zero]; norm_num
  obtain ⟨mean, var, e, h, h'⟩ := C98_mertonPut_partial randomSource_perfectGen (v := ⟨100, 1/5, some (1/100), 1/20⟩) (by norm_num) (by norm_num) one_pos (steps := 252)
    (by norm_num) (by decide) two_pos hk (K := 90) (by norm_num) (N := 10000) (by norm_num) (by decide)
  have z : jumpMean (-1/32) (1/4) = 0 := by unfold jumpMean; norm_num
  simp only [z, mul_zero, sub_zero, Option.getD_some] at h
  have d : Real.exp (-(1/20 * 1)) ≤ 1 := Real.exp_le_one_iff.mpr (by norm_num)
  have d0 := Real.exp_pos (-(1/20 * 1))
  change var ≤ (Real.exp (-(1/20 * 1)) * 90) ^ 2 / (10000 : ℕ) at h'
  generalize Real.exp (-(1/20 * 1)) = D at d d0 h h'
  refine ⟨mean, var, e, h.trans ?_, h'.trans ?_⟩
  · norm_num
    linarith
  · norm_num
    nlinarith

end Verif
