import Verif.Spec.ClosedFormSpec
import Verif.Props.RiskNeutral

/-!
# Laws of the price at maturity and of the geometric mean in the GBM model
-/

namespace Verif
open MeasureTheory ProbabilityTheory Spec Finset

variable {Ω : Type} [MeasurableSpace Ω] {P : Measure Ω} [IsProbabilityMeasure P] {Z : ℕ → Ω → ℝ}

/-! ## Weighted sums of draws -/

theorem measurable_weightedSum (h : IidNormal P Z) (w : ℕ → ℝ) (n : ℕ) : Measurable fun ω => ∑ j ∈ range n, w j * Z j ω :=
  Finset.measurable_sum _ fun j _ => (h.measurable j).const_mul _

theorem map_weightedSum (h : IidNormal P Z) (w : ℕ → ℝ) : ∀ n : ℕ,
    P.map (fun ω => ∑ j ∈ range n, w j * Z j ω) = gaussianReal 0 (∑ j ∈ range n, NNReal.mk (w j ^ 2) (sq_nonneg _))
  | 0 => by simp [gaussianReal_zero_var]
  | n + 1 => by
    have e : (fun ω => ∑ j ∈ range (n + 1), w j * Z j ω) = (fun ω => ∑ j ∈ range n, w j * Z j ω) + fun ω => w n * Z n ω := by
      funext ω
      simp [Finset.sum_range_succ]
    have hi : iIndepFun (fun j ω => w j * Z j ω) P := h.indep.comp (fun j x => w j * x) fun j => by fun_prop
    have hi2 : IndepFun (fun ω => ∑ j ∈ range n, w j * Z j ω) (fun ω => w n * Z n ω) P := by
      have := hi.indepFun_finsetSum_of_notMem (fun j => (h.measurable j).const_mul _) (s := range n) (i := n) (by simp)
      convert this using 1
      funext ω
      simp
    have hl : P.map (fun ω => w n * Z n ω) = gaussianReal 0 (NNReal.mk (w n ^ 2) (sq_nonneg _)) := by
      have h1 : HasLaw (Z n) (gaussianReal 0 1) P := ⟨(h.measurable n).aemeasurable, h.law n⟩
      have h2 := (gaussianReal_const_mul h1 (w n)).map_eq
      simpa using h2
    rw [e, gaussianReal_add_gaussianReal_of_indepFun hi2 (map_weightedSum h w n) hl, Finset.sum_range_succ]
    simp

/-! ## The price at maturity -/

theorem exceeds_iff (v : View ℝ) (hS : 0 < v.price) (hσ : 0 < v.sigma) {T : ℝ} (hT : 0 < T) {K : ℝ} (hK : 0 < K) (z : ℝ) :
    K < blackScholesPrice v T z ↔
      -((Real.log (v.price / K) + (v.r - v.coupon.getD 0 - v.sigma ^ 2 / 2) * T) / (v.sigma * Real.sqrt T)) < z := by
  have hb : 0 < v.sigma * Real.sqrt T := by positivity
  unfold blackScholesPrice
  rw [← Real.exp_log hS, ← Real.exp_add, ← Real.log_lt_iff_lt_exp hK, Real.exp_log hS, Real.log_div hS.ne' hK.ne', neg_lt, lt_div_iff₀ hb]
  constructor <;> intro h <;> linarith

theorem prob_exceeds (h : IidNormal P Z) (v : View ℝ) (hS : 0 < v.price) (hσ : 0 < v.sigma) {T : ℝ} (hT : 0 < T) {K : ℝ} (hK : 0 < K) {n : ℕ} (hn : 0 < n) :
    P.real {ω | K < gbmPrice v T n Z 0 (n - 1) ω} = exceedance v.price v.sigma v.r (v.coupon.getD 0) T K := by
  have h1 := map_gbmPrice_last h v hT.le hn 0
  have h2 := map_measureReal_apply (μ := P) (measurable_gbmPrice h v T n 0 (n - 1)) (measurableSet_Ioi (a := K))
  rw [h1, map_measureReal_apply (measurable_blackScholesPrice v T) measurableSet_Ioi] at h2
  refine h2.symm.trans ?_
  have : blackScholesPrice v T ⁻¹' Set.Ioi K =
      Set.Ioi (-((Real.log (v.price / K) + (v.r - v.coupon.getD 0 - v.sigma ^ 2 / 2) * T) / (v.sigma * Real.sqrt T))) := by
    ext z
    exact exceeds_iff v hS hσ hT hK z
  rw [this, gaussianReal_Ioi, add_zero]
  rfl

/-- The price at maturity has no atoms. -/
theorem prob_eq (h : IidNormal P Z) (v : View ℝ) (hS : 0 < v.price) (hσ : 0 < v.sigma) {T : ℝ} (hT : 0 < T) {K : ℝ} {n : ℕ} (hn : 0 < n) :
    P {ω | gbmPrice v T n Z 0 (n - 1) ω = K} = 0 := by
  have hb : 0 < v.sigma * Real.sqrt T := by positivity
  have h1 := map_gbmPrice_last h v hT.le hn 0
  have h2 := Measure.map_apply (μ := P) (measurable_gbmPrice h v T n 0 (n - 1)) (measurableSet_singleton K)
  rw [h1, Measure.map_apply (measurable_blackScholesPrice v T) (measurableSet_singleton K)] at h2
  refine h2.symm.trans ?_
  haveI := nullSingletonClass_gaussianReal (μ := 0) (v := 1) one_ne_zero
  refine Set.Subsingleton.measure_zero (fun z hz z' hz' => ?_) _
  have e : blackScholesPrice v T z = blackScholesPrice v T z' := hz.trans hz'.symm
  unfold blackScholesPrice at e
  have e2 := Real.exp_injective (mul_left_cancel₀ hS.ne' e)
  have e3 : v.sigma * Real.sqrt T * (z - z') = 0 := by linarith
  rcases mul_eq_zero.mp e3 with h | h
  · exact absurd h hb.ne'
  · linarith

/-! ## The geometric mean -/

theorem sum_drawSum (n : ℕ) (ω : Ω) : ∑ j ∈ range n, drawSum Z 0 (j + 1) ω = ∑ j ∈ range n, ((n : ℝ) - j) * Z j ω := by
  induction n with
  | zero => simp
  | succ n ih =>
    rw [Finset.sum_range_succ, ih]
    have e : drawSum Z 0 (n + 1) ω = ∑ j ∈ range (n + 1), Z j ω := by rw [Finset.range_eq_Ico, drawSum, Nat.zero_add]
    rw [e, Finset.sum_range_succ (fun j => Z j ω), Finset.sum_range_succ (fun j => (((n + 1 : ℕ) : ℝ) - j) * Z j ω), ← add_assoc, ← Finset.sum_add_distrib]
    congr 1
    · refine Finset.sum_congr rfl fun j _ => ?_
      push_cast; ring
    · push_cast; ring

theorem sum_sq_weights (n : ℕ) : ∑ j ∈ range n, ((n : ℝ) - j) ^ 2 = (n : ℝ) * (n + 1) * (2 * n + 1) / 6 := by
  rw [← Finset.sum_range_reflect]
  have : ∀ m : ℕ, ∑ j ∈ range m, ((j : ℝ) + 1) ^ 2 = (m : ℝ) * (m + 1) * (2 * m + 1) / 6 := by
    intro m
    induction m with
    | zero => simp
    | succ m ih =>
      rw [Finset.sum_range_succ, ih]
      push_cast; ring
  rw [← this n]
  refine Finset.sum_congr rfl fun j hj => ?_
  have hj' := Finset.mem_range.mp hj
  rw [show n - 1 - j = n - (j + 1) by omega, Nat.cast_sub (by omega)]
  push_cast; ring

/-- The stock whose price at maturity has the law of the geometric mean. -/
noncomputable def meanView (v : View ℝ) (n : ℕ) : View ℝ :=
  ⟨v.price, meanSigma v.sigma n, none, meanDrift v.sigma v.r (v.coupon.getD 0) n + meanSigma v.sigma n ^ 2 / 2⟩

theorem geometricMean_eq (v : View ℝ) (hS : 0 < v.price) (T : ℝ) {n : ℕ} (hn : 0 < n) (ω : Ω) :
    (∏ j ∈ range n, gbmPrice v T n Z 0 j ω) ^ ((1 : ℝ) / n) = v.price * Real.exp (meanDrift v.sigma v.r (v.coupon.getD 0) n * T +
      v.sigma * (Real.sqrt (T / n) / n * ∑ j ∈ range n, ((n : ℝ) - j) * Z j ω)) := by
  have hn' : (n : ℝ) ≠ 0 := by exact_mod_cast hn.ne'
  have e : ∀ j, gbmPrice v T n Z 0 j ω = Real.exp (Real.log v.price + ((v.r - v.coupon.getD 0 - v.sigma ^ 2 / 2) * ((j + 1) * (T / n)) +
      v.sigma * Real.sqrt (T / n) * drawSum Z 0 (j + 1) ω)) := by
    intro j
    rw [Real.exp_add, Real.exp_log hS]
    rfl
  simp only [e]
  rw [← Real.exp_sum, ← Real.exp_mul, ← Real.exp_log hS, ← Real.exp_add, Real.exp_log hS]
  congr 1
  rw [Finset.sum_add_distrib, Finset.sum_add_distrib, ← Finset.mul_sum, ← Finset.mul_sum, ← Finset.sum_mul, sum_drawSum]
  have e2 : ∀ m : ℕ, ∑ j ∈ range m, ((j : ℝ) + 1) = (m : ℝ) * (m + 1) / 2 := by
    intro m
    induction m with
    | zero => simp
    | succ m ih =>
      rw [Finset.sum_range_succ, ih]
      push_cast; ring
  rw [e2]
  simp only [Finset.sum_const, Finset.card_range, nsmul_eq_mul, meanDrift]
  field_simp

theorem measurable_geometricMean (h : IidNormal P Z) (v : View ℝ) (T : ℝ) (n : ℕ) :
    Measurable fun ω => (∏ j ∈ range n, gbmPrice v T n Z 0 j ω) ^ ((1 : ℝ) / n) :=
  (Finset.measurable_prod _ fun j _ => measurable_gbmPrice h v T n 0 j).pow_const _

theorem map_geometricMean (h : IidNormal P Z) (v : View ℝ) (hS : 0 < v.price) {T : ℝ} (hT : 0 ≤ T) {n : ℕ} (hn : 0 < n) :
    P.map (fun ω => (∏ j ∈ range n, gbmPrice v T n Z 0 j ω) ^ ((1 : ℝ) / n)) = (gaussianReal 0 1).map (blackScholesPrice (meanView v n) T) := by
  have hn' : (0 : ℝ) < n := by exact_mod_cast hn
  let q : ℝ → ℝ := fun x => v.price * Real.exp (meanDrift v.sigma v.r (v.coupon.getD 0) n * T + v.sigma * x)
  have hq : Measurable q := by unfold q; fun_prop
  have h1 : HasLaw (fun ω => ∑ j ∈ range n, ((n : ℝ) - j) * Z j ω) (gaussianReal 0 (∑ j ∈ range n, NNReal.mk (((n : ℝ) - j) ^ 2) (sq_nonneg _))) P :=
    ⟨(measurable_weightedSum h _ n).aemeasurable, map_weightedSum h _ n⟩
  have h2 := gaussianReal_const_mul h1 (Real.sqrt (T / n) / n)
  have h3 : HasLaw id (gaussianReal 0 1) (gaussianReal 0 1) := .id
  have h4 := gaussianReal_const_mul h3 (Real.sqrt ((n + 1) * (2 * n + 1) / (6 * n ^ 2)) * Real.sqrt T)
  have e1 : (fun ω => (∏ j ∈ range n, gbmPrice v T n Z 0 j ω) ^ ((1 : ℝ) / n)) =
      q ∘ fun ω => Real.sqrt (T / n) / n * ∑ j ∈ range n, ((n : ℝ) - j) * Z j ω := by
    funext ω
    exact geometricMean_eq v hS T hn ω
  have e2 : blackScholesPrice (meanView v n) T = q ∘ fun z => Real.sqrt ((n + 1) * (2 * n + 1) / (6 * n ^ 2)) * Real.sqrt T * id z := by
    funext z
    simp only [blackScholesPrice, meanView, q, Function.comp, id, Option.getD_none, meanSigma]
    congr 2
    ring
  rw [e1, e2, ← Measure.map_map hq ((measurable_weightedSum h _ n).const_mul _), ← Measure.map_map hq (measurable_id.const_mul _), h2.map_eq, h4.map_eq]
  congr 2
  · simp
  · ext
    simp only [NNReal.coe_mul, NNReal.coe_mk, NNReal.coe_sum, NNReal.coe_one, mul_one]
    rw [sum_sq_weights, mul_pow, div_pow, Real.sq_sqrt (by positivity), Real.sq_sqrt hT, Real.sq_sqrt (by positivity)]
    field_simp

end Verif
