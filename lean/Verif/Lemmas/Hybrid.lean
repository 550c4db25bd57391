import Mathlib.MeasureTheory.Constructions.Pi
import Mathlib.MeasureTheory.Integral.Layercake
import Mathlib.MeasureTheory.Integral.Prod
import Mathlib.Order.UpperLower.Basic
import Mathlib.MeasureTheory.Measure.Typeclasses.Probability

/-!
# Replacing the factors of a product of laws one by one

Two laws on the line that differ by at most `ε` on every half line give products that differ by at most
`d ε` on every set that is downward closed in each of its `d` coordinates, and so expectations of bounded
decreasing functions that differ by at most `d ε` times the bound.
-/

namespace Verif
open MeasureTheory

theorem prod_real {α β : Type} [MeasurableSpace α] [MeasurableSpace β] (μ : Measure α) (ρ : Measure β) [IsProbabilityMeasure μ]
    [IsProbabilityMeasure ρ] {s : Set (α × β)} (hs : MeasurableSet s) : (μ.prod ρ).real s = ∫ x, ρ.real (Prod.mk x ⁻¹' s) ∂μ := by
  rw [measureReal_def, Measure.prod_apply hs,
    ← integral_toReal (measurable_measure_prodMk_left hs).aemeasurable (.of_forall fun x => measure_lt_top _ _)]
  rfl

theorem prod_real_symm {α β : Type} [MeasurableSpace α] [MeasurableSpace β] (μ : Measure α) (ρ : Measure β) [IsProbabilityMeasure μ]
    [IsProbabilityMeasure ρ] {s : Set (α × β)} (hs : MeasurableSet s) :
    (μ.prod ρ).real s = ∫ y, μ.real ((fun x => (x, y)) ⁻¹' s) ∂ρ := by
  rw [measureReal_def, Measure.prod_apply_symm hs,
    ← integral_toReal (measurable_measure_prodMk_right hs).aemeasurable (.of_forall fun x => measure_lt_top _ _)]
  rfl

theorem abs_integral_sub_le {α : Type} [MeasurableSpace α] {μ : Measure α} [IsProbabilityMeasure μ] {f g : α → ℝ} {C : ℝ}
    (hf : Integrable f μ) (hg : Integrable g μ) (h : ∀ x, |f x - g x| ≤ C) : |∫ x, f x ∂μ - ∫ x, g x ∂μ| ≤ C := by
  rw [← integral_sub hf hg]
  have := norm_integral_le_of_norm_le_const (μ := μ) (f := fun x => f x - g x) (C := C) (.of_forall h)
  simpa using this

section
variable {ν γ : Measure ℝ} [IsProbabilityMeasure ν] [IsProbabilityMeasure γ] {ε : ℝ}

theorem hybrid (hε : ∀ L : Set ℝ, MeasurableSet L → IsLowerSet L → |ν.real L - γ.real L| ≤ ε) :
    ∀ (d : ℕ) (A : Set (Fin d → ℝ)), MeasurableSet A → IsLowerSet A →
      |(Measure.pi fun _ : Fin d => ν).real A - (Measure.pi fun _ : Fin d => γ).real A| ≤ d * ε
  | 0, A, _, _ => by
    have e : (Measure.pi fun _ : Fin 0 => ν) = Measure.pi fun _ : Fin 0 => γ := by
      rw [Measure.pi_of_empty, Measure.pi_of_empty]
    rw [e]; simp
  | n + 1, A, hA, hl => by
    let e := MeasurableEquiv.piFinSuccAbove (fun _ : Fin (n + 1) => ℝ) 0
    let B : Set (ℝ × (Fin n → ℝ)) := e.symm ⁻¹' A
    have hB : MeasurableSet B := e.symm.measurable hA
    have key : ∀ ρ : Measure ℝ, IsProbabilityMeasure ρ → (Measure.pi fun _ : Fin (n + 1) => ρ).real A =
        (ρ.prod (Measure.pi fun _ : Fin n => ρ)).real B := fun ρ _ => by
      have h := (measurePreserving_piFinSuccAbove (fun _ : Fin (n + 1) => ρ) 0).symm
      rw [measureReal_def, measureReal_def, h.measure_preimage hA.nullMeasurableSet]
    have mono : ∀ x y : ℝ, ∀ p q : Fin n → ℝ, x ≤ y → p ≤ q → (y, q) ∈ B → (x, p) ∈ B := by
      intro x y p q hxy hpq h
      refine hl (fun j => ?_) h
      refine Fin.cases ?_ (fun j => ?_) j
      · simpa [e, MeasurableEquiv.piFinSuccAbove] using hxy
      · simpa [e, MeasurableEquiv.piFinSuccAbove] using hpq j
    have s1 : |(ν.prod (Measure.pi fun _ : Fin n => ν)).real B - (ν.prod (Measure.pi fun _ : Fin n => γ)).real B| ≤ n * ε := by
      rw [prod_real _ _ hB, prod_real _ _ hB]
      refine abs_integral_sub_le ?_ ?_ fun x => hybrid hε n _ (measurable_prodMk_left hB) fun p q hqp hp => mono x x q p le_rfl hqp hp
      · exact Integrable.of_bound (measurable_measure_prodMk_left hB).ennreal_toReal.aestronglyMeasurable 1
          (.of_forall fun x => by rw [Real.norm_eq_abs, abs_of_nonneg measureReal_nonneg]; exact measureReal_le_one)
      · exact Integrable.of_bound (measurable_measure_prodMk_left hB).ennreal_toReal.aestronglyMeasurable 1
          (.of_forall fun x => by rw [Real.norm_eq_abs, abs_of_nonneg measureReal_nonneg]; exact measureReal_le_one)
    have s2 : |(ν.prod (Measure.pi fun _ : Fin n => γ)).real B - (γ.prod (Measure.pi fun _ : Fin n => γ)).real B| ≤ ε := by
      rw [prod_real_symm _ _ hB, prod_real_symm _ _ hB]
      refine abs_integral_sub_le ?_ ?_ fun y => hε _ (measurable_prodMk_right hB) fun p q hqp hp => mono q p y y hqp le_rfl hp
      · exact Integrable.of_bound (measurable_measure_prodMk_right hB).ennreal_toReal.aestronglyMeasurable 1
          (.of_forall fun x => by rw [Real.norm_eq_abs, abs_of_nonneg measureReal_nonneg]; exact measureReal_le_one)
      · exact Integrable.of_bound (measurable_measure_prodMk_right hB).ennreal_toReal.aestronglyMeasurable 1
          (.of_forall fun x => by rw [Real.norm_eq_abs, abs_of_nonneg measureReal_nonneg]; exact measureReal_le_one)
    rw [key ν inferInstance, key γ inferInstance]
    have := abs_sub_le ((ν.prod (Measure.pi fun _ : Fin n => ν)).real B) ((ν.prod (Measure.pi fun _ : Fin n => γ)).real B)
      ((γ.prod (Measure.pi fun _ : Fin n => γ)).real B)
    push_cast
    linarith

/-- Expectations of a bounded decreasing function. -/
theorem hybrid_integral (hε : ∀ L : Set ℝ, MeasurableSet L → IsLowerSet L → |ν.real L - γ.real L| ≤ ε) {d : ℕ} {h : (Fin d → ℝ) → ℝ}
    (hm : Measurable h) (ha : Antitone h) {B : ℝ} (hb : ∀ z, 0 ≤ h z ∧ h z ≤ B) :
    |∫ z, h z ∂(Measure.pi fun _ : Fin d => ν) - ∫ z, h z ∂(Measure.pi fun _ : Fin d => γ)| ≤ B * (d * ε) := by
  have hB : 0 ≤ B := (hb fun _ => 0).1.trans (hb fun _ => 0).2
  have hi : ∀ ρ : Measure (Fin d → ℝ), IsProbabilityMeasure ρ → Integrable h ρ := fun ρ _ =>
    Integrable.of_bound hm.aestronglyMeasurable B (.of_forall fun z => by rw [Real.norm_eq_abs, abs_of_nonneg (hb z).1]; exact (hb z).2)
  have lc : ∀ ρ : Measure (Fin d → ℝ), IsProbabilityMeasure ρ → ∫ z, h z ∂ρ = ∫ t in Set.Ioc 0 B, ρ.real {z | t ≤ h z} := fun ρ hρ =>
    (hi ρ hρ).integral_eq_integral_Ioc_meas_le (.of_forall fun z => (hb z).1) (.of_forall fun z => (hb z).2)
  have im : ∀ ρ : Measure (Fin d → ℝ), IsProbabilityMeasure ρ → IntegrableOn (fun t => ρ.real {z | t ≤ h z}) (Set.Ioc 0 B) := fun ρ _ => by
    have anti : Antitone fun t => ρ.real {z | t ≤ h z} := fun s t hst => measureReal_mono fun z hz => le_trans hst hz
    refine Measure.integrableOn_of_bounded (M := 1) (by simp) anti.measurable.aestronglyMeasurable (.of_forall fun t => ?_)
    rw [Real.norm_eq_abs, abs_of_nonneg measureReal_nonneg]
    exact measureReal_le_one
  rw [lc _ inferInstance, lc _ inferInstance, ← integral_sub (im _ inferInstance) (im _ inferInstance)]
  have := norm_setIntegral_le_of_norm_le_const (μ := volume) (s := Set.Ioc 0 B) (C := d * ε)
    (f := fun t => (Measure.pi fun _ : Fin d => ν).real {z | t ≤ h z} - (Measure.pi fun _ : Fin d => γ).real {z | t ≤ h z}) (by simp)
    fun t _ => hybrid hε d _ (measurableSet_le measurable_const hm) fun p q hqp hp => le_trans hp (ha hqp)
  rw [Real.norm_eq_abs] at this
  refine this.trans (le_of_eq ?_)
  simp [hB]
  ring

end

end Verif
