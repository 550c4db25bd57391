import Verif.Spec.LevySpec

/-!
# Sums of independent draws
-/

namespace Verif
open MeasureTheory ProbabilityTheory Spec
open scoped NNReal ENNReal

section
variable {M : Type} [MeasurableSpace M] [AddCommMonoid M] [MeasurableAdd₂ M]

instance sumLaw_probability (ν : Measure M) [IsProbabilityMeasure ν] : ∀ n, IsProbabilityMeasure (sumLaw ν n)
  | 0 => by unfold sumLaw; infer_instance
  | n + 1 => by
    haveI := sumLaw_probability ν n
    unfold sumLaw
    infer_instance

theorem sumLaw_one (ν : Measure M) [IsProbabilityMeasure ν] : sumLaw ν 1 = ν := by
  simp [sumLaw]

theorem sumLaw_add (ν : Measure M) [IsProbabilityMeasure ν] (m n : ℕ) : sumLaw ν (m + n) = sumLaw ν m ∗ sumLaw ν n := by
  induction m with
  | zero => simp [sumLaw]
  | succ m ih =>
    rw [show m + 1 + n = (m + n) + 1 by omega, sumLaw, ih, sumLaw, Measure.conv_assoc]

theorem sumLaw_conv (A B : Measure M) [IsProbabilityMeasure A] [IsProbabilityMeasure B] (n : ℕ) : sumLaw (A ∗ B) n = sumLaw A n ∗ sumLaw B n := by
  induction n with
  | zero => simp [sumLaw]
  | succ n ih =>
    rw [sumLaw, ih, sumLaw, sumLaw, Measure.conv_assoc, Measure.conv_assoc]
    congr 1
    rw [← Measure.conv_assoc, ← Measure.conv_assoc, Measure.conv_comm B]

end

theorem sumLaw_gaussian (m : ℝ) (v : ℝ≥0) (n : ℕ) : sumLaw (gaussianReal m v) n = gaussianReal (n * m) (n * v) := by
  induction n with
  | zero => simp [sumLaw]
  | succ n ih =>
    rw [sumLaw, ih, gaussianReal_conv_gaussianReal]
    congr 1 <;> push_cast <;> ring

theorem sumLaw_brownian (b σ : ℝ) {h : ℝ} (hh : 0 ≤ h) (n : ℕ) : sumLaw (brownianLaw b σ h) n = brownianLaw b σ (n * h) := by
  unfold brownianLaw
  rw [sumLaw_gaussian]
  congr 1
  · ring
  · apply NNReal.coe_injective
    push_cast
    rw [Real.coe_toNNReal _ (by positivity), Real.coe_toNNReal _ (by positivity)]
    ring

theorem sumLaw_poisson (m : ℝ≥0) (n : ℕ) : sumLaw (poissonMeasure m) n = poissonMeasure (n * m) := by
  induction n with
  | zero =>
    simp only [sumLaw, Nat.cast_zero, zero_mul]
    refine Measure.ext_of_singleton fun k => ?_
    rw [poissonMeasure_singleton]
    cases k with
    | zero => simp
    | succ k => simp
  | succ n ih =>
    rw [sumLaw, ih, poissonMeasure_conv_poissonMeasure]
    congr 1
    push_cast
    ring

/-! ## Random times -/

section
variable {M : Type} [MeasurableSpace M] [AddCommMonoid M] [MeasurableAdd₂ M]

theorem bind_probability {α β : Type} [MeasurableSpace α] [MeasurableSpace β] (c : Measure α) [IsProbabilityMeasure c] {K : α → Measure β} (hK : Measurable K)
    (hp : ∀ a, IsProbabilityMeasure (K a)) : IsProbabilityMeasure (c.bind K) := by
  constructor
  rw [Measure.bind_apply .univ hK.aemeasurable]
  simp

/-- Running a process with independent increments for two independent times. -/
theorem bind_conv_bind (c₁ c₂ : Measure M) [IsProbabilityMeasure c₁] [IsProbabilityMeasure c₂] {K : M → Measure ℝ} (hK : Measurable K)
    (hp : ∀ a, IsProbabilityMeasure (K a)) {P : M → Prop} (h1 : ∀ᵐ a ∂c₁, P a) (h2 : ∀ᵐ a ∂c₂, P a)
    (hadd : ∀ a b, P a → P b → K (a + b) = K a ∗ K b) : c₁.bind K ∗ c₂.bind K = (c₁ ∗ c₂).bind K := by
  haveI := bind_probability c₁ hK hp
  haveI := bind_probability c₂ hK hp
  refine Measure.ext_of_lintegral _ fun φ hφ => ?_
  have mφ : Measurable fun p : ℝ × ℝ => φ (p.1 + p.2) := by fun_prop
  have m1 : Measurable fun x => ∫⁻ y, φ (x + y) ∂(c₂.bind K) := mφ.lintegral_prod_right'
  rw [Measure.lintegral_conv hφ, Measure.lintegral_bind hK.aemeasurable hφ.aemeasurable, Measure.lintegral_bind hK.aemeasurable m1.aemeasurable,
    Measure.lintegral_conv (by exact (Measure.measurable_lintegral hφ).comp hK)]
  refine lintegral_congr_ae ?_
  filter_upwards [h1] with a ha
  have e : ∀ x, ∫⁻ y, φ (x + y) ∂(c₂.bind K) = ∫⁻ b, ∫⁻ y, φ (x + y) ∂(K b) ∂c₂ := fun x =>
    Measure.lintegral_bind hK.aemeasurable (by fun_prop)
  simp only [e]
  let κ : Kernel (ℝ × M) ℝ := ⟨fun p => K p.2, hK.comp measurable_snd⟩
  haveI : IsMarkovKernel κ := ⟨fun p => hp p.2⟩
  have m2 : Measurable fun p : ℝ × M => ∫⁻ y, φ (p.1 + y) ∂(K p.2) := by
    have : Measurable fun p : ℝ × M => ∫⁻ y, φ (p.1 + y) ∂(κ p) := by
      refine Measurable.lintegral_kernel_prod_right (f := fun (p : ℝ × M) y => φ (p.1 + y)) ?_
      simp only [Function.uncurry_def]
      fun_prop
    exact this
  rw [lintegral_lintegral_swap m2.aemeasurable]
  refine lintegral_congr_ae ?_
  filter_upwards [h2] with b hb
  rw [hadd a b ha hb, Measure.lintegral_conv hφ]

theorem sumLaw_bind (c : Measure M) [IsProbabilityMeasure c] {K : M → Measure ℝ} (hK : Measurable K)
    (hp : ∀ a, IsProbabilityMeasure (K a)) {P : M → Prop} (hP : MeasurableSet {a | P a}) (h0 : P 0) (hPadd : ∀ a b, P a → P b → P (a + b)) (h1 : ∀ᵐ a ∂c, P a)
    (hK0 : K 0 = .dirac 0) (hadd : ∀ a b, P a → P b → K (a + b) = K a ∗ K b) (n : ℕ) :
    sumLaw (c.bind K) n = (sumLaw c n).bind K ∧ ∀ᵐ a ∂(sumLaw c n), P a := by
  induction n with
  | zero =>
    refine ⟨?_, ?_⟩
    · simp only [sumLaw]
      rw [Measure.dirac_bind hK, hK0]
    · simp only [sumLaw]
      exact (ae_dirac_iff hP).mpr h0
  | succ n ih =>
    have hae : ∀ᵐ a ∂(c ∗ sumLaw c n), P a := by
      rw [Measure.conv]
      refine (ae_map_iff (by fun_prop) hP).mpr ?_
      have q1 : ∀ᵐ p ∂(c.prod (sumLaw c n)), P p.1 := Measure.quasiMeasurePreserving_fst.ae h1
      have q2 : ∀ᵐ p ∂(c.prod (sumLaw c n)), P p.2 := Measure.quasiMeasurePreserving_snd.ae ih.2
      filter_upwards [q1, q2] with p h1 h2 using hPadd _ _ h1 h2
    refine ⟨?_, hae⟩
    rw [sumLaw, ih.1, sumLaw, bind_conv_bind c _ hK hp h1 ih.2 hadd]

end

/-! ## Compound laws -/

theorem compound_probability (c : Measure ℕ) [IsProbabilityMeasure c] (ν : Measure ℝ) [IsProbabilityMeasure ν] : IsProbabilityMeasure (compound c ν) :=
  bind_probability c measurable_from_nat fun _ => inferInstance

theorem sumLaw_compound (c : Measure ℕ) [IsProbabilityMeasure c] (ν : Measure ℝ) [IsProbabilityMeasure ν] (n : ℕ) :
    sumLaw (compound c ν) n = compound (sumLaw c n) ν :=
  (sumLaw_bind c (K := sumLaw ν) measurable_from_nat (fun _ => inferInstance) (P := fun _ => True) (by simp) trivial (fun _ _ _ _ => trivial)
    (.of_forall fun _ => trivial) rfl (fun a b _ _ => sumLaw_add ν a b) n).1

end Verif
