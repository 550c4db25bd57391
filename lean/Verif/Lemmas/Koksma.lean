import Verif.Lemmas.NormalCdf
import Mathlib.MeasureTheory.Integral.Layercake
import Mathlib.MeasureTheory.Integral.Bochner.Set
import Mathlib.MeasureTheory.Measure.Count

/-!
# Averages and expectations

For a function whose level sets are half-lines, the mean over finitely many numbers differs from the expectation by no more than the
range of the function times the largest difference of the distribution functions (the one-dimensional inequality of Koksma).
-/

namespace Verif
open MeasureTheory ProbabilityTheory Set

theorem antitone_level {α : Type} [MeasurableSpace α] (μ : Measure α) [IsFiniteMeasure μ] (f : α → ℝ) : Antitone fun t : ℝ => μ.real {a | t ≤ f a} :=
  fun _ _ h => measureReal_mono fun _ ha => le_trans h ha

/-- The integral of a bounded function as the integral of the measures of its level sets. -/
theorem integral_levels {α : Type} [MeasurableSpace α] (μ : Measure α) [IsFiniteMeasure μ] {f : α → ℝ} (hf : Measurable f) {K : ℝ} (h0 : ∀ a, 0 ≤ f a) (h1 : ∀ a, f a < K) :
    ∫ a, f a ∂μ = ∫ t in Ioo 0 K, μ.real {a | t ≤ f a} := by
  have hi : Integrable f μ := by
    refine Integrable.of_bound hf.aestronglyMeasurable K (.of_forall fun a => ?_)
    rw [Real.norm_eq_abs, abs_of_nonneg (h0 a)]
    exact (h1 a).le
  rw [hi.integral_eq_integral_meas_le (.of_forall h0)]
  refine (setIntegral_eq_of_subset_of_forall_diff_eq_zero measurableSet_Ioi (fun x hx => hx.1) fun t ht => ?_)
  have : {a | t ≤ f a} = ∅ := by
    ext a
    simp only [mem_setOf_eq, mem_empty_iff_false, iff_false, not_le]
    refine (h1 a).trans_le ?_
    by_contra hc
    exact ht.2 ⟨ht.1, not_le.mp hc⟩
  rw [this, measureReal_empty]

theorem integrableOn_level {α : Type} [MeasurableSpace α] (μ : Measure α) [IsFiniteMeasure μ] (f : α → ℝ) (K : ℝ) : IntegrableOn (fun t : ℝ => μ.real {a | t ≤ f a}) (Ioo 0 K) :=
  ((antitone_level μ f).locallyIntegrable.integrableOn_isCompact (isCompact_Icc (a := 0) (b := K))).mono_set Ioo_subset_Icc_self

/-- Koksma's inequality in one dimension. -/
theorem koksma {N : ℕ} {z : Fin N → ℝ} {γ : Measure ℝ} [IsProbabilityMeasure γ] {κ : ℝ}
    (hκ : ∀ x, |((Finset.univ.filter fun i => z i ≤ x).card : ℝ) - N * γ.real (Iic x)| ≤ N * κ) {f : ℝ → ℝ} (hf : Measurable f) {K : ℝ} (hK : 0 ≤ K)
    (h0 : ∀ a, 0 ≤ f a) (h1 : ∀ a, f a < K) (hl : ∀ t ∈ Ioo 0 K, ∃ x, ∀ a, t ≤ f a ↔ a ≤ x) :
    |∑ i, f (z i) - N * ∫ a, f a ∂γ| ≤ N * κ * K := by
  have e1 : ∑ i, f (z i) = ∫ t in Ioo 0 K, (Measure.count : Measure (Fin N)).real {i | t ≤ f (z i)} := by
    rw [← integral_levels Measure.count (f := fun i => f (z i)) (measurable_of_countable _) (fun i => h0 _) fun i => h1 _]
    simp [integral_fintype]
  rw [e1, integral_levels γ hf h0 h1, ← integral_const_mul, ← integral_sub (integrableOn_level _ _ K) ((integrableOn_level γ f K).const_mul _), ← Real.norm_eq_abs]
  have := norm_setIntegral_le_of_norm_le_const (μ := volume) (s := Ioo 0 K) (C := N * κ)
    (f := fun t => (Measure.count : Measure (Fin N)).real {i | t ≤ f (z i)} - N * γ.real {a | t ≤ f a}) (by simp) (fun t ht => by
      obtain ⟨x, hx⟩ := hl t ht
      have a1 : {a | t ≤ f a} = Iic x := by
        ext a
        exact hx a
      have a2 : (Measure.count : Measure (Fin N)).real {i | t ≤ f (z i)} = ((Finset.univ.filter fun i => z i ≤ x).card : ℝ) := by
        have : {i : Fin N | t ≤ f (z i)} = ((Finset.univ.filter fun i => z i ≤ x : Finset (Fin N)) : Set (Fin N)) := by
          ext i
          simp [hx]
        rw [this, Measure.real, Measure.count_apply_finset]
        simp
      rw [a1, a2, Real.norm_eq_abs]
      exact hκ x)
  refine this.trans (le_of_eq ?_)
  rw [Measure.real, Real.volume_Ioo, sub_zero, ENNReal.toReal_ofReal hK]

end Verif
