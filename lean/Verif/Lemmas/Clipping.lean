import Verif.Lemmas.Convolution
import Verif.Spec.RandomSource

/-!
# Clipped Poisson counts and exact Poisson counts
-/

namespace Verif
open MeasureTheory ProbabilityTheory Spec
open scoped NNReal ENNReal

/-- Two laws that give bounded functions nearly the same expectation. -/
def LawNear (ε : ℝ≥0∞) {α : Type} [MeasurableSpace α] (A B : Measure α) : Prop :=
  ∀ (M : ℝ≥0∞) (φ : α → ℝ≥0∞), Measurable φ → (∀ x, φ x ≤ M) → ∫⁻ x, φ x ∂A ≤ ∫⁻ x, φ x ∂B + M * ε ∧ ∫⁻ x, φ x ∂B ≤ ∫⁻ x, φ x ∂A + M * ε

variable {α β : Type} [MeasurableSpace α] [MeasurableSpace β]

theorem LawNear.conv {M : Type} [MeasurableSpace M] [AddCommMonoid M] [MeasurableAdd₂ M] {A B A' B' : Measure M} [IsProbabilityMeasure A] [IsProbabilityMeasure B] [IsProbabilityMeasure A'] [IsProbabilityMeasure B'] {ε ε' : ℝ≥0∞} (h : LawNear ε A B) (h' : LawNear ε' A' B') : LawNear (ε + ε') (A ∗ A') (B ∗ B') := by
  intro K φ hφ hK
  have m1 : Measurable fun p : M × M => φ (p.1 + p.2) := by fun_prop
  have hb : ∀ (C : Measure M) [IsProbabilityMeasure C] x, ∫⁻ y, φ (x + y) ∂C ≤ K := by
    intro C _ x
    calc ∫⁻ y, φ (x + y) ∂C ≤ ∫⁻ _, K ∂C := lintegral_mono fun y => hK _
      _ = K := by simp
  rw [Measure.lintegral_conv hφ, Measure.lintegral_conv hφ]
  have q : ∀ x, ∫⁻ y, φ (x + y) ∂A' ≤ ∫⁻ y, φ (x + y) ∂B' + K * ε' ∧ ∫⁻ y, φ (x + y) ∂B' ≤ ∫⁻ y, φ (x + y) ∂A' + K * ε' :=
    fun x => h' K (fun y => φ (x + y)) (by fun_prop) fun y => hK _
  have qB := h K (fun x => ∫⁻ y, φ (x + y) ∂B') m1.lintegral_prod_right' (hb B')
  have qA := h K (fun x => ∫⁻ y, φ (x + y) ∂A') m1.lintegral_prod_right' (hb A')
  constructor
  · calc ∫⁻ x, ∫⁻ y, φ (x + y) ∂A' ∂A ≤ ∫⁻ x, (∫⁻ y, φ (x + y) ∂B' + K * ε') ∂A := lintegral_mono fun x => (q x).1
      _ = ∫⁻ x, ∫⁻ y, φ (x + y) ∂B' ∂A + K * ε' := by
        rw [lintegral_add_right _ measurable_const]
        simp
      _ ≤ _ := by
        rw [mul_add, ← add_assoc]
        gcongr
        exact qB.1
  · calc ∫⁻ x, ∫⁻ y, φ (x + y) ∂B' ∂B ≤ ∫⁻ x, (∫⁻ y, φ (x + y) ∂A' + K * ε') ∂B := lintegral_mono fun x => (q x).2
      _ = ∫⁻ x, ∫⁻ y, φ (x + y) ∂A' ∂B + K * ε' := by
        rw [lintegral_add_right _ measurable_const]
        simp
      _ ≤ _ := by
        rw [mul_add, ← add_assoc]
        gcongr
        exact qA.2

theorem LawNear.refl (A : Measure α) : LawNear 0 A A := fun _ _ _ _ => by simp

theorem LawNear.sumLaw {M : Type} [MeasurableSpace M] [AddCommMonoid M] [MeasurableAdd₂ M] {A B : Measure M} [IsProbabilityMeasure A] [IsProbabilityMeasure B] {ε : ℝ≥0∞}
    (h : LawNear ε A B) (n : ℕ) : LawNear (n * ε) (Spec.sumLaw A n) (Spec.sumLaw B n) := by
  induction n with
  | zero => simpa [Spec.sumLaw] using LawNear.refl (Measure.dirac (0 : M))
  | succ n ih =>
    have := h.conv ih
    rw [show ((n + 1 : ℕ) : ℝ≥0∞) * ε = ε + n * ε by push_cast; ring]
    exact this

theorem LawNear.bind {A B : Measure α} {ε : ℝ≥0∞} (h : LawNear ε A B) {K : α → Measure β} (hK : Measurable K) (hp : ∀ a, IsProbabilityMeasure (K a)) :
    LawNear ε (A.bind K) (B.bind K) := by
  intro M φ hφ hM
  rw [Measure.lintegral_bind hK.aemeasurable hφ.aemeasurable, Measure.lintegral_bind hK.aemeasurable hφ.aemeasurable]
  refine h M (fun a => ∫⁻ x, φ x ∂K a) ((Measure.measurable_lintegral hφ).comp hK) fun a => ?_
  calc ∫⁻ x, φ x ∂K a ≤ ∫⁻ _, M ∂K a := lintegral_mono fun x => hM x
    _ = M := by simp

theorem LawNear.map {A B : Measure α} {ε : ℝ≥0∞} (h : LawNear ε A B) {f : α → β} (hf : Measurable f) : LawNear ε (A.map f) (B.map f) := by
  intro M φ hφ hM
  rw [lintegral_map hφ hf, lintegral_map hφ hf]
  exact h M _ (hφ.comp hf) fun a => hM _

/-- The expectations of bounded functions, as real numbers. -/
theorem LawNear.integral {A B : Measure ℝ} [IsProbabilityMeasure A] [IsProbabilityMeasure B] {ε : ℝ} (hε : 0 ≤ ε) (h : LawNear (ENNReal.ofReal ε) A B) {f : ℝ → ℝ} (hf : Measurable f) {M : ℝ}
    (h0 : ∀ x, 0 ≤ f x) (hM : ∀ x, f x ≤ M) : |∫ x, f x ∂A - ∫ x, f x ∂B| ≤ M * ε := by
  have hM0 : 0 ≤ M := (h0 0).trans (hM 0)
  have hfin : ∀ (C : Measure ℝ) [IsProbabilityMeasure C], ∫⁻ x, ENNReal.ofReal (f x) ∂C ≠ ⊤ := by
    intro C _
    have : ∫⁻ x, ENNReal.ofReal (f x) ∂C ≤ ENNReal.ofReal M := by
      calc ∫⁻ x, ENNReal.ofReal (f x) ∂C ≤ ∫⁻ _, ENNReal.ofReal M ∂C := lintegral_mono fun x => ENNReal.ofReal_le_ofReal (hM x)
        _ = ENNReal.ofReal M := by simp
    exact ne_top_of_le_ne_top ENNReal.ofReal_ne_top this
  obtain ⟨h1, h2⟩ := h (ENNReal.ofReal M) (fun x => ENNReal.ofReal (f x)) (by fun_prop) fun x => ENNReal.ofReal_le_ofReal (hM x)
  have e : ∀ C : Measure ℝ, ∫ x, f x ∂C = (∫⁻ x, ENNReal.ofReal (f x) ∂C).toReal := fun C =>
    integral_eq_lintegral_of_nonneg_ae (.of_forall h0) hf.aestronglyMeasurable
  rw [← ENNReal.ofReal_mul hM0] at h1 h2
  have t : ∀ x y : ℝ≥0∞, y ≠ ⊤ → x ≤ y + ENNReal.ofReal (M * ε) → x.toReal ≤ y.toReal + M * ε := by
    intro x y hy hxy
    have := ENNReal.toReal_mono (by simp [hy]) hxy
    rwa [ENNReal.toReal_add hy ENNReal.ofReal_ne_top, ENNReal.toReal_ofReal (by positivity)] at this
  rw [e A, e B, abs_le]
  constructor
  · linarith [t _ _ (hfin A) h2]
  · linarith [t _ _ (hfin B) h1]

/-- Probability that a Poisson number exceeds `INT_MAX`. -/
noncomputable def poissonTail (m : ℝ) : ℝ := (poissonMeasure m.toNNReal).real {n | INT_MAX < n}

instance clippedPoisson_probability (m : ℝ) : IsProbabilityMeasure (clippedPoisson m) :=
  Measure.isProbabilityMeasure_map measurable_from_nat.aemeasurable

theorem near_clippedPoisson (m : ℝ) : LawNear (ENNReal.ofReal (poissonTail m)) (clippedPoisson m) (poissonMeasure m.toNNReal) := by
  intro M φ hφ hM
  have hset : MeasurableSet {n | INT_MAX < n} := (Set.to_countable _).measurableSet
  have ht : ∫⁻ n, ({n | INT_MAX < n}.indicator (fun _ => M) n) ∂poissonMeasure m.toNNReal = M * ENNReal.ofReal (poissonTail m) := by
    rw [lintegral_indicator_const hset, poissonTail, ofReal_measureReal]
  unfold clippedPoisson
  rw [lintegral_map hφ measurable_from_nat, ← ht, ← lintegral_add_left measurable_from_nat, ← lintegral_add_left (measurable_from_nat (f := fun n => φ (min n INT_MAX)))]
  constructor <;> refine lintegral_mono fun n => ?_
  · by_cases h : INT_MAX < n
    · simp only [Set.indicator, Set.mem_setOf_eq, h, if_true]
      exact (hM _).trans le_add_self
    · rw [min_eq_left (not_lt.mp h)]
      exact le_self_add
  · by_cases h : INT_MAX < n
    · simp only [Set.indicator, Set.mem_setOf_eq, h, if_true]
      exact (hM _).trans le_add_self
    · rw [min_eq_left (not_lt.mp h)]
      exact le_self_add

/-- The tail of the Poisson law. -/
theorem poissonTail_le {m : ℝ} (hm : 0 ≤ m) : poissonTail m ≤ m / 2 ^ 31 := by
  have hm' : (m.toNNReal : ℝ) = m := Real.coe_toNNReal m hm
  have hset : MeasurableSet {n | INT_MAX < n} := (Set.to_countable _).measurableSet
  have hi : HasSum (fun n : ℕ => Real.exp (-m) * m ^ n / n.factorial * n) m := by
    have h1 : HasSum (fun n : ℕ => m ^ n / n.factorial) (Real.exp m) := by
      rw [Real.exp_eq_exp_ℝ]
      exact NormedSpace.expSeries_div_hasSum_exp m
    have h2 : HasSum (fun n : ℕ => Real.exp (-m) * m * (m ^ n / n.factorial)) (Real.exp (-m) * m * Real.exp m) := h1.mul_left _
    have h3 : Real.exp (-m) * m * Real.exp m = m := by
      rw [mul_right_comm, ← Real.exp_add]
      simp
    rw [h3] at h2
    rw [← hasSum_nat_add_iff' 1]
    simp only [Finset.range_one, Finset.sum_singleton, Nat.cast_zero, mul_zero, sub_zero]
    refine h2.congr_fun fun n => ?_
    rw [Nat.factorial_succ]
    push_cast
    have : (n.factorial : ℝ) ≠ 0 := by positivity
    field_simp
    ring
  have hint : Integrable (fun n : ℕ => (n : ℝ)) (poissonMeasure m.toNNReal) := by
    rw [integrable_poissonMeasure_iff]
    simp only [hm']
    refine hi.summable.congr fun n => ?_
    simp
  have hE : ∫ n, (n : ℝ) ∂poissonMeasure m.toNNReal = m := by
    have := (hasSum_integral_poissonMeasure hint).tsum_eq
    simp only [hm', smul_eq_mul] at this
    rw [← this, hi.tsum_eq]
  have hmk := mul_meas_ge_le_integral_of_nonneg (μ := poissonMeasure m.toNNReal) (f := fun n : ℕ => (n : ℝ)) (.of_forall fun n => by positivity) hint (2 ^ 31)
  rw [hE] at hmk
  have : poissonTail m ≤ (poissonMeasure m.toNNReal).real {n : ℕ | (2 : ℝ) ^ 31 ≤ n} := by
    refine measureReal_mono fun n hn => ?_
    simp only [Set.mem_setOf_eq] at hn ⊢
    have : 2 ^ 31 ≤ n := by unfold INT_MAX at hn; omega
    exact_mod_cast this
  rw [le_div_iff₀ (by positivity)]
  nlinarith

end Verif
