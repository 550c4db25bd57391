import Verif.Spec.OptionValue
import Mathlib.MeasureTheory.Integral.DominatedConvergence

/-!
# Limits of the option value
-/

namespace Verif
open Spec MeasureTheory ProbabilityTheory Filter Topology

variable {σ r c τ K : ℝ}

/-- The value of a call payoff. -/
noncomputable def callPayoff (K x : ℝ) : ℝ := max (x - K) 0
/-- The value of a put payoff. -/
noncomputable def putPayoff (K x : ℝ) : ℝ := max (K - x) 0

theorem continuous_terminalPrice (S : ℝ) : Continuous (terminalPrice σ r c τ S) := by
  unfold terminalPrice
  fun_prop

theorem integral_terminalPrice (hτ : 0 ≤ τ) (S : ℝ) :
    Integrable (terminalPrice σ r c τ S) (gaussianReal 0 1) ∧
    ∫ z, terminalPrice σ r c τ S z ∂gaussianReal 0 1 = S * Real.exp ((r - c) * τ) := by
  have e : terminalPrice σ r c τ S = fun z => S * Real.exp ((r - c - σ ^ 2 / 2) * τ) * Real.exp (σ * Real.sqrt τ * z) := by
    funext z
    rw [terminalPrice, Real.exp_add, ← mul_assoc]
  have h2 : ∫ z, Real.exp (σ * Real.sqrt τ * z) ∂gaussianReal 0 1 = Real.exp ((σ * Real.sqrt τ) ^ 2 / 2) := by
    have := congrFun (mgf_id_gaussianReal (μ := 0) (v := 1)) (σ * Real.sqrt τ)
    simpa [mgf] using this
  rw [e]
  refine ⟨(integrable_exp_mul_gaussianReal (σ * Real.sqrt τ)).const_mul _, ?_⟩
  rw [integral_const_mul, h2, mul_assoc, ← Real.exp_add, mul_pow, Real.sq_sqrt hτ]
  congr 2
  ring

/-- Put-call parity. -/
theorem optionValue_parity (hτ : 0 ≤ τ) (S : ℝ) :
    optionValue (callPayoff K) σ r c τ S = optionValue (putPayoff K) σ r c τ S + (S * Real.exp (-c * τ) - K * Real.exp (-r * τ)) := by
  obtain ⟨hi, hv⟩ := integral_terminalPrice (σ := σ) (r := r) (c := c) hτ S
  unfold optionValue
  have hput : Integrable (fun z => putPayoff K (terminalPrice σ r c τ S z)) (gaussianReal 0 1) := by
    unfold putPayoff
    exact ((integrable_const K).sub hi).sup (integrable_const 0)
  have e : (fun z => callPayoff K (terminalPrice σ r c τ S z)) =
      fun z => putPayoff K (terminalPrice σ r c τ S z) + (terminalPrice σ r c τ S z - K) := by
    funext z
    unfold callPayoff putPayoff
    rcases le_total K (terminalPrice σ r c τ S z) with h | h
    · rw [max_eq_left (by linarith), max_eq_right (by linarith)]; ring
    · rw [max_eq_right (by linarith), max_eq_left (by linarith)]; ring
  have hsub : Integrable (fun z => terminalPrice σ r c τ S z - K) (gaussianReal 0 1) := hi.sub (integrable_const K)
  rw [e, integral_add hput hsub, integral_sub hi (integrable_const K), hv]
  simp only [integral_const, smul_eq_mul, probReal_univ, one_mul]
  have : Real.exp (-r * τ) * Real.exp ((r - c) * τ) = Real.exp (-c * τ) := by
    rw [← Real.exp_add]; congr 1; ring
  linear_combination S * this

theorem optionValue_put_tendsto {l : Filter ℝ} [l.IsCountablyGenerated] (hK : 0 ≤ K) {L : ℝ} (hpos : ∀ᶠ S in l, 0 ≤ S)
    (hlim : ∀ z, Tendsto (fun S => putPayoff K (terminalPrice σ r c τ S z)) l (𝓝 L)) :
    Tendsto (optionValue (putPayoff K) σ r c τ) l (𝓝 (Real.exp (-r * τ) * L)) := by
  unfold optionValue
  refine Tendsto.const_mul _ ?_
  have : L = ∫ _ : ℝ, L ∂gaussianReal 0 1 := by simp
  rw [this]
  refine tendsto_integral_filter_of_dominated_convergence (fun _ => K) ?_ ?_ (integrable_const K) ?_
  · refine Eventually.of_forall fun S => Continuous.aestronglyMeasurable ?_
    unfold putPayoff
    exact (continuous_const.sub (continuous_terminalPrice S)).max continuous_const
  · filter_upwards [hpos] with S hS
    refine Eventually.of_forall fun z => ?_
    have : 0 ≤ terminalPrice σ r c τ S z := mul_nonneg hS (Real.exp_pos _).le
    unfold putPayoff
    rw [Real.norm_eq_abs, abs_of_nonneg (le_max_right _ _)]
    exact max_le (by linarith) hK
  · exact Eventually.of_forall fun z => hlim z

theorem put_left (hK : 0 ≤ K) : LeftAsymptotic (putPayoff K) σ r c τ (K * Real.exp (-r * τ)) := by
  unfold LeftAsymptotic
  rw [mul_comm]
  refine optionValue_put_tendsto hK ?_ ?_
  · filter_upwards [self_mem_nhdsWithin] with S hS
    exact (show (0 : ℝ) < S from hS).le
  · intro z
    have h : Tendsto (fun S => putPayoff K (terminalPrice σ r c τ S z)) (𝓝 0) (𝓝 (putPayoff K (terminalPrice σ r c τ 0 z))) := by
      refine Continuous.tendsto ?_ 0
      unfold putPayoff terminalPrice
      fun_prop
    have e : putPayoff K (terminalPrice σ r c τ 0 z) = K := by simp [putPayoff, terminalPrice, hK]
    rw [e] at h
    exact h.mono_left nhdsWithin_le_nhds

theorem put_right (hK : 0 ≤ K) : RightAsymptotic (putPayoff K) σ r c τ fun _ => 0 := by
  unfold RightAsymptotic
  simp only [sub_zero]
  have := optionValue_put_tendsto (σ := σ) (r := r) (c := c) (τ := τ) (l := atTop) hK (L := 0) (eventually_ge_atTop 0) ?_
  · simpa using this
  · intro z
    refine tendsto_const_nhds.congr' ?_
    filter_upwards [eventually_ge_atTop (K / Real.exp ((r - c - σ ^ 2 / 2) * τ + σ * Real.sqrt τ * z))] with S hS
    rw [div_le_iff₀ (Real.exp_pos _)] at hS
    unfold putPayoff terminalPrice
    rw [max_eq_right (by linarith)]

theorem call_left (hτ : 0 ≤ τ) (hK : 0 ≤ K) : LeftAsymptotic (callPayoff K) σ r c τ 0 := by
  have h1 := put_left (σ := σ) (r := r) (c := c) (τ := τ) hK
  unfold LeftAsymptotic at h1 ⊢
  have h2 : Tendsto (fun S : ℝ => S * Real.exp (-c * τ) - K * Real.exp (-r * τ)) (𝓝[>] 0) (𝓝 (0 * Real.exp (-c * τ) - K * Real.exp (-r * τ))) :=
    (Continuous.tendsto (by fun_prop) 0).mono_left nhdsWithin_le_nhds
  have := h1.add h2
  rw [show K * Real.exp (-r * τ) + (0 * Real.exp (-c * τ) - K * Real.exp (-r * τ)) = 0 by ring] at this
  exact this.congr fun S => (optionValue_parity hτ S).symm

theorem call_right (hτ : 0 ≤ τ) (hK : 0 ≤ K) :
    RightAsymptotic (callPayoff K) σ r c τ fun x => x * Real.exp (-c * τ) - K * Real.exp (-r * τ) := by
  have h1 := put_right (σ := σ) (r := r) (c := c) (τ := τ) hK
  unfold RightAsymptotic at h1 ⊢
  refine h1.congr fun S => ?_
  rw [optionValue_parity hτ S]
  ring

end Verif
