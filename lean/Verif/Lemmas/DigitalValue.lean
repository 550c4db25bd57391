import Verif.Lemmas.FdmPrice
import Verif.Lemmas.ClosedForm

/-!
# Smooth bounds of digital payoffs, and their values
-/

namespace Verif.Fdm
open Spec Set MeasureTheory ProbabilityTheory

variable {σ r c K δ : ℝ}

/-- 1 up to `a`, 0 from `a + δ` on, linear in between. -/
noncomputable def plateau (δ a y : ℝ) : ℝ := max 0 (min 1 ((a - |y|) / δ + 1))

theorem continuous_plateau (δ a : ℝ) : Continuous (plateau δ a) := by unfold plateau; fun_prop

theorem plateau_mem (δ a y : ℝ) : plateau δ a y ∈ Icc 0 1 := ⟨le_max_left _ _, max_le zero_le_one (min_le_left _ _)⟩

theorem plateau_one (hδ : 0 < δ) {a y : ℝ} (hy : |y| ≤ a) : plateau δ a y = 1 := by
  have : 0 ≤ (a - |y|) / δ := div_nonneg (by linarith) hδ.le
  rw [plateau, min_eq_left (by linarith), max_eq_right zero_le_one]

theorem plateau_zero (hδ : 0 < δ) {a y : ℝ} (hy : a + δ ≤ |y|) : plateau δ a y = 0 := by
  have : (a - |y|) / δ ≤ -1 := by rw [div_le_iff₀ hδ]; linarith
  rw [plateau, max_eq_left]
  exact (min_le_right _ _).trans (by linarith)

theorem plateau_lipschitz (hδ : 0 < δ) (a x y : ℝ) : |plateau δ a x - plateau δ a y| ≤ 1 / δ * |x - y| := by
  have h1 := abs_max_sub_max_le_max 0 (min 1 ((a - |x|) / δ + 1)) 0 (min 1 ((a - |y|) / δ + 1))
  have h2 := abs_min_sub_min_le_max 1 ((a - |x|) / δ + 1) 1 ((a - |y|) / δ + 1)
  have z : ∀ u : ℝ, max |u - u| |((min 1 ((a - |x|) / δ + 1)) - (min 1 ((a - |y|) / δ + 1)))| = |((min 1 ((a - |x|) / δ + 1)) - (min 1 ((a - |y|) / δ + 1)))| :=
    fun u => by rw [sub_self, abs_zero]; exact max_eq_right (abs_nonneg _)
  have z2 : max |(1 : ℝ) - 1| |((a - |x|) / δ + 1) - ((a - |y|) / δ + 1)| = |((a - |x|) / δ + 1) - ((a - |y|) / δ + 1)| := by
    rw [sub_self, abs_zero]; exact max_eq_right (abs_nonneg _)
  rw [z 0] at h1
  rw [z2] at h2
  refine h1.trans (h2.trans ?_)
  rw [show (a - |x|) / δ + 1 - ((a - |y|) / δ + 1) = 1 / δ * (|y| - |x|) by ring, abs_mul, abs_of_pos (by positivity : 0 < 1 / δ)]
  refine mul_le_mul_of_nonneg_left ?_ (by positivity)
  rw [abs_sub_comm]
  exact abs_abs_sub_abs_le x y

/-- A smooth function that is 1 on `[-(a - 4δ), a - 4δ]` and 0 outside `[-(a + 5δ), a + 5δ]`. -/
noncomputable def softStep (δ a : ℝ) : ℝ → ℝ := Smoothing.smooth δ (plateau δ a)

/-- Averages of functions that are constant near a point. -/
theorem average_const {f : ℝ → ℝ} (hδ : 0 < δ) {y η v : ℝ} (h : ∀ s, |s - y| ≤ η + δ → f s = v) : ∀ s, |s - y| ≤ η → Smoothing.average δ f s = v := by
  intro s hs
  have : ∫ u in (s - δ)..(s + δ), f u = 2 * δ * v := by
    refine (intervalIntegral.integral_congr (g := fun _ => v) fun u hu => ?_).trans ?_
    · rw [uIcc_of_le (by linarith)] at hu
      refine h u ?_
      have t := abs_sub_le u s y
      have : |u - s| ≤ δ := abs_le.mpr ⟨by linarith [hu.1], by linarith [hu.2]⟩
      linarith
    · rw [intervalIntegral.integral_const, smul_eq_mul]; ring
  rw [Smoothing.average, this]
  field_simp

theorem smooth_const {f : ℝ → ℝ} (hδ : 0 < δ) {y v : ℝ} (h : ∀ s, |s - y| ≤ 4 * δ → f s = v) : Smoothing.smooth δ f y = v := by
  have a1 := average_const hδ (η := 3 * δ) fun s hs => h s (by linarith)
  have a2 := average_const hδ (η := 2 * δ) fun s hs => a1 s (by linarith)
  have a3 := average_const hδ (η := δ) fun s hs => a2 s (by linarith)
  exact average_const hδ (η := 0) (fun s hs => a3 s (by linarith)) y (by simp)

theorem softStep_mem (hδ : 0 < δ) (a y : ℝ) : softStep δ a y ∈ Icc 0 1 := Smoothing.smooth_mem hδ (continuous_plateau δ a) (plateau_mem δ a) y

theorem softStep_one (hδ : 0 < δ) {a y : ℝ} (hy : |y| ≤ a - 4 * δ) : softStep δ a y = 1 := by
  refine smooth_const hδ fun s hs => plateau_one hδ ?_
  have := abs_add_le (s - y) y
  rw [sub_add_cancel] at this
  linarith

theorem softStep_zero (hδ : 0 < δ) {a y : ℝ} (hy : a + 5 * δ ≤ |y|) : softStep δ a y = 0 := by
  refine smooth_const hδ fun s hs => plateau_zero hδ ?_
  have := abs_sub_le y s 0
  rw [sub_zero, sub_zero, abs_sub_comm] at this
  linarith

/-- The step is smooth. -/
noncomputable def softStepPayoff (hδ : 0 < δ) {a R : ℝ} (hR : a + δ ≤ R) :
    SmoothPayoff (softStep δ a) (R + 4 * δ) 1 (1 / δ) (1 / δ / δ) (1 / δ / δ / δ) (1 / δ / δ / δ / δ) :=
  Smoothing.smoothPayoff hδ (continuous_plateau δ a) (plateau_lipschitz hδ a)
    (fun y => by rw [abs_of_nonneg (plateau_mem δ a y).1]; exact (plateau_mem δ a y).2) (fun _ hy => plateau_zero hδ (hR.trans hy))

/-- The negative of a smooth payoff. -/
noncomputable def negPayoff {g : ℝ → ℝ} {R B0 B1 B2 B3 B4 : ℝ} (P : SmoothPayoff g R B0 B1 B2 B3 B4) : SmoothPayoff (fun y => -g y) R B0 B1 B2 B3 B4 where
  g1 y := -P.g1 y
  g2 y := -P.g2 y
  g3 y := -P.g3 y
  g4 y := -P.g4 y
  h1 y := (P.h1 y).neg
  h2 y := (P.h2 y).neg
  h3 y := (P.h3 y).neg
  h4 y := (P.h4 y).neg
  c4 := P.c4.neg
  b0 y := by rw [abs_neg]; exact P.b0 y
  b1 y := by rw [abs_neg]; exact P.b1 y
  b2 y := by rw [abs_neg]; exact P.b2 y
  b3 y := by rw [abs_neg]; exact P.b3 y
  b4 y := by rw [abs_neg]; exact P.b4 y
  s1 y hy := by rw [P.s1 y hy, neg_zero]
  s2 y hy := by rw [P.s2 y hy, neg_zero]
  s3 y hy := by rw [P.s3 y hy, neg_zero]
  s4 y hy := by rw [P.s4 y hy, neg_zero]

theorem continuous_softStep (hδ : 0 < δ) (a : ℝ) : Continuous (softStep δ a) := (softStepPayoff hδ (a := a) le_rfl).continuous.1

/-- The density of the standard normal distribution is less than 1. -/
theorem gaussian_interval {u v : ℝ} (h : u ≤ v) : (gaussianReal 0 1).real (Icc u v) ≤ v - u := by
  have hd : ∀ z, gaussianPDFReal 0 1 z ≤ 1 := fun z => by
    rw [gaussianPDFReal]
    have h1 : (1 : ℝ) ≤ Real.sqrt (2 * Real.pi * (1 : NNReal)) := by
      rw [Real.one_le_sqrt, NNReal.coe_one, mul_one]
      linarith [Real.pi_gt_three]
    have h2 : Real.exp (-(z - 0) ^ 2 / (2 * ((1 : NNReal) : ℝ))) ≤ 1 := Real.exp_le_one_iff.mpr (by
      rw [div_nonpos_iff]; right; constructor
      · nlinarith [sq_nonneg (z - 0)]
      · norm_num)
    have h3 := inv_le_one_of_one_le₀ h1
    exact mul_le_one₀ h3 (Real.exp_pos _).le h2
  rw [measureReal_def, gaussianReal_apply_eq_integral 0 one_ne_zero, ENNReal.toReal_ofReal (integral_nonneg fun z => gaussianPDFReal_nonneg 0 1 z)]
  have := setIntegral_mono_on (μ := volume) (s := Icc u v) (f := gaussianPDFReal 0 1) (g := fun _ => 1) (integrable_gaussianPDFReal 0 1).integrableOn
    (integrableOn_const (by simp)) measurableSet_Icc fun z _ => hd z
  refine this.trans (le_of_eq ?_)
  rw [setIntegral_const, smul_eq_mul, mul_one, Real.volume_real_Icc_of_le h]

/-- The probability that the price at maturity is near the strike. -/
theorem prob_near {T a b x : ℝ} (hσ : 0 < σ) (hT : 0 < T) (ha : 0 < a) (hab : a ≤ b) (hx : 0 < x) :
    (gaussianReal 0 1).real {z | terminalPrice σ r c T x z ∈ Icc a b} ≤ (b - a) / (a * (σ * Real.sqrt T)) := by
  have hs : 0 < σ * Real.sqrt T := by positivity
  have hb : 0 < b := ha.trans_le hab
  obtain ⟨μ, hμ⟩ : ∃ μ, μ = (r - c - σ ^ 2 / 2) * T := ⟨_, rfl⟩
  have sub : {z | terminalPrice σ r c T x z ∈ Icc a b} ⊆ Icc ((Real.log (a / x) - μ) / (σ * Real.sqrt T)) ((Real.log (b / x) - μ) / (σ * Real.sqrt T)) := by
    intro z hz
    obtain ⟨h1, h2⟩ := hz
    rw [terminalPrice, ← hμ] at h1 h2
    constructor
    · rw [div_le_iff₀ hs]
      have := (Real.log_le_iff_le_exp (by positivity)).mpr ((div_le_iff₀' hx).mpr h1)
      linarith
    · rw [le_div_iff₀ hs]
      have := (Real.le_log_iff_exp_le (by positivity)).mpr ((le_div_iff₀' hx).mpr h2)
      linarith
  have hle : (Real.log (a / x) - μ) / (σ * Real.sqrt T) ≤ (Real.log (b / x) - μ) / (σ * Real.sqrt T) := by
    have := Real.log_le_log (by positivity) (div_le_div_of_nonneg_right hab hx.le)
    exact div_le_div_of_nonneg_right (by linarith) hs.le
  refine (measureReal_mono sub).trans ((gaussian_interval hle).trans ?_)
  rw [← sub_div, Real.log_div ha.ne' hx.ne', Real.log_div hb.ne' hx.ne', div_le_div_iff₀ hs (by positivity)]
  have l : Real.log b - Real.log a ≤ b / a - 1 := by
    rw [← Real.log_div hb.ne' ha.ne']
    exact Real.log_le_sub_one_of_pos (by positivity)
  have l2 : a * (Real.log b - Real.log a) ≤ b - a := by
    have := mul_le_mul_of_nonneg_left l ha.le
    rwa [mul_sub a (b / a), mul_div_cancel₀ _ ha.ne', mul_one] at this
  have := mul_le_mul_of_nonneg_right l2 hs.le
  linarith

/-- Values of bounded payoffs between which there is a gap only near the strike. -/
theorem value_gap {g1 g2 : ℝ → ℝ} {T a b x : ℝ} (hσ : 0 < σ) (hT : 0 < T) (hr : 0 ≤ r) (ha : 0 < a) (hab : a ≤ b) (hx : 0 ≤ x) (m1 : Measurable g1) (m2 : Measurable g2)
    (b1 : ∀ y, |g1 y| ≤ 1) (b2 : ∀ y, |g2 y| ≤ 1) (hg : ∀ y, g2 y - g1 y ≤ 1) (ho : ∀ y, 0 ≤ y → y < a ∨ b < y → g2 y - g1 y ≤ 0) :
    optionValue g2 σ r c T x - optionValue g1 σ r c T x ≤ (b - a) / (a * (σ * Real.sqrt T)) := by
  have hs : 0 < σ * Real.sqrt T := by positivity
  have mt : Measurable (terminalPrice σ r c T x) := (continuous_terminalPrice x).measurable
  have i1 : Integrable (fun z => g1 (terminalPrice σ r c T x z)) (gaussianReal 0 1) :=
    Integrable.of_bound (m1.comp mt).aestronglyMeasurable 1 (ae_of_all _ fun z => b1 _)
  have i2 : Integrable (fun z => g2 (terminalPrice σ r c T x z)) (gaussianReal 0 1) :=
    Integrable.of_bound (m2.comp mt).aestronglyMeasurable 1 (ae_of_all _ fun z => b2 _)
  have ms : MeasurableSet {z | terminalPrice σ r c T x z ∈ Icc a b} := mt measurableSet_Icc
  have e : optionValue g2 σ r c T x - optionValue g1 σ r c T x =
      Real.exp (-r * T) * ∫ z, (g2 (terminalPrice σ r c T x z) - g1 (terminalPrice σ r c T x z)) ∂gaussianReal 0 1 := by
    rw [integral_sub i2 i1, optionValue, optionValue]; ring
  have hin : ∫ z, (g2 (terminalPrice σ r c T x z) - g1 (terminalPrice σ r c T x z)) ∂gaussianReal 0 1 ≤
      (gaussianReal 0 1).real {z | terminalPrice σ r c T x z ∈ Icc a b} := by
    rw [← integral_indicator_one ms]
    refine integral_mono (i2.sub i1) ((integrable_const (1 : ℝ)).indicator ms) fun z => ?_
    by_cases hz : terminalPrice σ r c T x z ∈ Icc a b
    · rw [indicator_of_mem (by exact hz)]
      exact hg _
    · rw [indicator_of_notMem (by exact hz)]
      refine ho _ (mul_nonneg hx (Real.exp_pos _).le) ?_
      rw [mem_Icc, not_and_or, not_le, not_le] at hz
      exact hz
  have hp : (gaussianReal 0 1).real {z | terminalPrice σ r c T x z ∈ Icc a b} ≤ (b - a) / (a * (σ * Real.sqrt T)) := by
    rcases hx.eq_or_lt with rfl | hx
    · have : {z | terminalPrice σ r c T 0 z ∈ Icc a b} = ∅ := by
        ext z
        simp only [terminalPrice, zero_mul, mem_setOf_eq, mem_Icc, mem_empty_iff_false, iff_false, not_and]
        intro h; linarith
      rw [this, measureReal_empty]
      exact div_nonneg (by linarith) (by positivity)
    · exact prob_near hσ hT ha hab hx
  rw [e]
  have e1 : Real.exp (-r * T) ≤ 1 := Real.exp_le_one_iff.mpr (by nlinarith [mul_nonneg hr hT.le])
  have e0 := Real.exp_pos (-r * T)
  have h0 : 0 ≤ (b - a) / (a * (σ * Real.sqrt T)) := div_nonneg (by linarith) (by positivity)
  have := mul_le_mul_of_nonneg_left (hin.trans hp) e0.le
  have := mul_le_mul_of_nonneg_right e1 h0
  linarith

theorem optionValue_mono {g1 g2 : ℝ → ℝ} {T x : ℝ} (hx : 0 ≤ x) (m1 : Measurable g1) (m2 : Measurable g2)
    (b1 : ∀ y, |g1 y| ≤ 1) (b2 : ∀ y, |g2 y| ≤ 1) (h : ∀ y, 0 ≤ y → g1 y ≤ g2 y) : optionValue g1 σ r c T x ≤ optionValue g2 σ r c T x := by
  have mt : Measurable (terminalPrice σ r c T x) := (continuous_terminalPrice x).measurable
  have i1 : Integrable (fun z => g1 (terminalPrice σ r c T x z)) (gaussianReal 0 1) :=
    Integrable.of_bound (m1.comp mt).aestronglyMeasurable 1 (ae_of_all _ fun z => b1 _)
  have i2 : Integrable (fun z => g2 (terminalPrice σ r c T x z)) (gaussianReal 0 1) :=
    Integrable.of_bound (m2.comp mt).aestronglyMeasurable 1 (ae_of_all _ fun z => b2 _)
  exact mul_le_mul_of_nonneg_left (integral_mono i1 i2 fun z => h _ (mul_nonneg hx (Real.exp_pos _).le)) (Real.exp_pos _).le

/-- The payoff of a digital call. -/
noncomputable def digitalCall (K x : ℝ) : ℝ := if K < x then 1 else 0
/-- The payoff of a digital put. -/
noncomputable def digitalPut (K x : ℝ) : ℝ := if x < K then 1 else 0

theorem measurable_digitalCall (K : ℝ) : Measurable (digitalCall K) := Measurable.ite measurableSet_Ioi measurable_const measurable_const
theorem measurable_digitalPut (K : ℝ) : Measurable (digitalPut K) := Measurable.ite measurableSet_Iio measurable_const measurable_const

/-- The value of a digital call. -/
theorem value_digitalCall {T S : ℝ} (hS : 0 < S) (hσ : 0 < σ) (hT : 0 < T) (hK : 0 < K) :
    optionValue (digitalCall K) σ r c T S = Real.exp (-(r * T)) * exceedance S σ r c T K := by
  have ms : MeasurableSet {z | K < terminalPrice σ r c T S z} := (continuous_terminalPrice S).measurable measurableSet_Ioi
  have e : ∫ z, digitalCall K (terminalPrice σ r c T S z) ∂gaussianReal 0 1 = (gaussianReal 0 1).real {z | K < terminalPrice σ r c T S z} := by
    rw [← integral_indicator_one ms]
    rfl
  have s : {z | K < terminalPrice σ r c T S z} = Ioi (-((Real.log (S / K) + (r - c - σ ^ 2 / 2) * T) / (σ * Real.sqrt T))) := by
    ext z
    exact exceeds_iff ⟨S, σ, some c, r⟩ hS hσ hT hK z
  rw [optionValue, e, s, gaussianReal_Ioi, add_zero, neg_mul]
  rfl

/-- The value of a digital put. -/
theorem value_digitalPut {T S : ℝ} (hS : 0 < S) (hσ : 0 < σ) (hT : 0 < T) (hK : 0 < K) :
    optionValue (digitalPut K) σ r c T S = Real.exp (-(r * T)) * (1 - exceedance S σ r c T K) := by
  have mt := (continuous_terminalPrice (σ := σ) (r := r) (c := c) (τ := T) S).measurable
  have hb : 0 < σ * Real.sqrt T := by positivity
  have hn : ∀ᵐ z ∂gaussianReal 0 1, terminalPrice σ r c T S z ≠ K := by
    haveI := nullSingletonClass_gaussianReal (μ := 0) (v := 1) one_ne_zero
    rw [ae_iff]
    refine Set.Subsingleton.measure_zero (fun z hz z' hz' => ?_) _
    simp only [ne_eq, not_not, mem_setOf_eq] at hz hz'
    have e := hz.trans hz'.symm
    unfold terminalPrice at e
    have e2 := Real.exp_injective (mul_left_cancel₀ hS.ne' e)
    have e3 : σ * Real.sqrt T * (z - z') = 0 := by linarith
    rcases mul_eq_zero.mp e3 with h | h
    · exact absurd h hb.ne'
    · linarith
  have i : Integrable (fun z => digitalCall K (terminalPrice σ r c T S z)) (gaussianReal 0 1) :=
    Integrable.of_bound ((measurable_digitalCall K).comp mt).aestronglyMeasurable 1 (ae_of_all _ fun z => by unfold digitalCall; split_ifs <;> norm_num)
  have e : ∫ z, digitalPut K (terminalPrice σ r c T S z) ∂gaussianReal 0 1 = 1 - ∫ z, digitalCall K (terminalPrice σ r c T S z) ∂gaussianReal 0 1 := by
    have : (1 : ℝ) = ∫ _, (1 : ℝ) ∂gaussianReal 0 1 := by simp
    conv_rhs => rw [this, ← integral_sub (integrable_const _) i]
    refine integral_congr_ae (hn.mono fun z hz => ?_)
    dsimp only
    unfold digitalPut digitalCall
    rcases lt_or_gt_of_ne hz with h | h
    · rw [if_pos h, if_neg h.not_gt, sub_zero]
    · rw [if_neg h.not_gt, if_pos h, sub_self]
  have h := value_digitalCall (r := r) (c := c) hS hσ hT hK
  rw [optionValue, neg_mul] at h
  rw [optionValue, e, mul_sub, neg_mul, h]
  ring

end Verif.Fdm
