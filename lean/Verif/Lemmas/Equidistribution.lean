import Verif.Spec.QuasiSpec
import Mathlib.MeasureTheory.Measure.Portmanteau
import Mathlib.MeasureTheory.Measure.Lebesgue.Basic
import Mathlib.MeasureTheory.Integral.Bochner.Basic
import Mathlib.MeasureTheory.Integral.Pi
import Mathlib.MeasureTheory.Measure.Dirac
import Mathlib.Probability.StrongLaw
import Mathlib.Probability.Independence.InfinitePi

/-!
# Averages over uniformly distributed points
-/

namespace Verif.Spec
open MeasureTheory Filter Topology

/-! ## Functions continuous almost everywhere -/

section
variable {Ω : Type*} [MeasurableSpace Ω] [PseudoMetricSpace Ω] [OpensMeasurableSpace Ω]

/-- Weak convergence carries over to images under maps continuous almost everywhere. -/
theorem tendsto_map_of_ae_continuousAt {μs : ℕ → ProbabilityMeasure Ω} {μ : ProbabilityMeasure Ω} (h : Tendsto μs atTop (𝓝 μ))
    {f : Ω → ℝ} (hf : Measurable f) (hc : ∀ᵐ x ∂(μ : Measure Ω), ContinuousAt f x) :
    Tendsto (fun n => (μs n).map hf.aemeasurable) atTop (𝓝 (μ.map hf.aemeasurable)) := by
  refine tendsto_of_forall_isClosed_limsup_le' fun F hF => ?_
  have e : ∀ ν : ProbabilityMeasure Ω, ((ν.map hf.aemeasurable : ProbabilityMeasure ℝ) : Measure ℝ) F = (ν : Measure Ω) (f ⁻¹' F) :=
    fun ν => by rw [ProbabilityMeasure.toMeasure_map, Measure.map_apply hf hF.measurableSet]
  simp only [e]
  calc limsup (fun n => (μs n : Measure Ω) (f ⁻¹' F)) atTop
      ≤ limsup (fun n => (μs n : Measure Ω) (closure (f ⁻¹' F))) atTop :=
        limsup_le_limsup (.of_forall fun n => measure_mono subset_closure)
    _ ≤ (μ : Measure Ω) (closure (f ⁻¹' F)) :=
        ProbabilityMeasure.limsup_measure_closed_le_of_tendsto h isClosed_closure
    _ ≤ (μ : Measure Ω) (f ⁻¹' F) := by
        refine measure_mono_ae ?_
        filter_upwards [hc] with x hx hmem
        by_contra hn
        have hn' : f x ∈ Fᶜ := hn
        have h1 : f ⁻¹' Fᶜ ∈ 𝓝 x := hx (hF.isOpen_compl.mem_nhds hn')
        obtain ⟨y, hy1, hy2⟩ := mem_closure_iff_nhds.mp hmem _ h1
        exact hy1 hy2

theorem tendsto_integral_of_ae_continuousAt {μs : ℕ → ProbabilityMeasure Ω} {μ : ProbabilityMeasure Ω} (h : Tendsto μs atTop (𝓝 μ))
    {f : Ω → ℝ} (hf : Measurable f) (hc : ∀ᵐ x ∂(μ : Measure Ω), ContinuousAt f x) {C : ℝ} (hC : ∀ x, |f x| ≤ C) :
    Tendsto (fun n => ∫ x, f x ∂(μs n : Measure Ω)) atTop (𝓝 (∫ x, f x ∂(μ : Measure Ω))) := by
  let g : BoundedContinuousFunction ℝ ℝ := BoundedContinuousFunction.ofNormedAddCommGroup (fun y => max (-C) (min y C)) (by fun_prop) |C| (by
    intro y
    rw [Real.norm_eq_abs, abs_le]
    constructor
    · exact (neg_le_neg (le_abs_self C)).trans (le_max_left _ _)
    · exact max_le (neg_le_abs C) ((min_le_right _ _).trans (le_abs_self C)))
  have hg : ∀ x, g (f x) = f x := by
    intro x
    have := abs_le.mp (hC x)
    change max (-C) (min (f x) C) = f x
    rw [min_eq_left this.2, max_eq_right this.1]
  have h1 := ProbabilityMeasure.tendsto_iff_forall_integral_tendsto.mp (tendsto_map_of_ae_continuousAt h hf hc) g
  have e : ∀ ν : ProbabilityMeasure Ω, ∫ y, g y ∂((ν.map hf.aemeasurable : ProbabilityMeasure ℝ) : Measure ℝ) = ∫ x, f x ∂(ν : Measure Ω) := by
    intro ν
    rw [ProbabilityMeasure.toMeasure_map, integral_map hf.aemeasurable g.continuous.aestronglyMeasurable]
    exact integral_congr_ae (.of_forall hg)
  simpa only [e] using h1

end

/-! ## Empirical measures -/

variable {d : ℕ}

/-- The measure that gives the first `N + 1` points equal weights. -/
noncomputable def empirical (x : ℕ → Fin d → ℝ) (N : ℕ) : Measure (Fin d → ℝ) :=
  ((N + 1 : ℕ) : ENNReal)⁻¹ • ∑ n ∈ Finset.range (N + 1), Measure.dirac (x n)

instance (x : ℕ → Fin d → ℝ) (N : ℕ) : IsProbabilityMeasure (empirical x N) := by
  constructor
  simp only [empirical, Measure.smul_apply, Measure.finsetSum_apply, measure_univ, Finset.sum_const, Finset.card_range, nsmul_eq_mul, mul_one,
    smul_eq_mul]
  exact ENNReal.inv_mul_cancel (by simp) (by simp)

theorem integral_empirical (x : ℕ → Fin d → ℝ) (N : ℕ) (f : (Fin d → ℝ) → ℝ) :
    ∫ u, f u ∂(empirical x N) = (∑ n ∈ Finset.range (N + 1), f (x n)) / ((N + 1 : ℕ) : ℝ) := by
  rw [empirical, integral_smul_measure, integral_finsetSum_measure fun n _ => ?_]
  · simp only [integral_dirac, ENNReal.toReal_inv, ENNReal.toReal_natCast, smul_eq_mul, div_eq_inv_mul]
  · exact integrable_dirac (by simp)

open Classical in
theorem empirical_real (x : ℕ → Fin d → ℝ) (N : ℕ) {A : Set (Fin d → ℝ)} (hA : MeasurableSet A) :
    (empirical x N).real A = ((Finset.range (N + 1)).filter fun n => x n ∈ A).card / ((N + 1 : ℕ) : ℝ) := by
  rw [← integral_indicator_one hA, integral_empirical]
  congr 1
  simp [Set.indicator_apply, Finset.sum_ite]

theorem cube_eq : cube d = Set.univ.pi fun _ => Set.Ioo (0 : ℝ) 1 := by
  ext u; simp [cube]

instance : IsProbabilityMeasure ((volume : Measure (Fin d → ℝ)).restrict (cube d)) := by
  constructor
  rw [Measure.restrict_apply_univ, cube_eq, Real.volume_pi_Ioo]
  simp

theorem restrict_cube : (volume : Measure (Fin d → ℝ)).restrict (cube d) = volume.restrict (Set.univ.pi fun _ => Set.Ico (0 : ℝ) 1) := by
  rw [cube_eq]
  refine Measure.restrict_congr_set ?_
  exact (Measure.univ_pi_Ioo_ae_eq_Icc (f := fun _ => 0) (g := fun _ => 1)).trans
    (Measure.univ_pi_Ico_ae_eq_Icc (f := fun _ => 0) (g := fun _ => 1)).symm

/-- The empirical measures of uniformly distributed points converge weakly to Lebesgue measure. -/
theorem Equidistributed.tendsto_empirical {x : ℕ → Fin d → ℝ} (hx : Equidistributed x) (hc : ∀ n, x n ∈ cube d) :
    Tendsto (β := ProbabilityMeasure (Fin d → ℝ)) (fun N => ⟨empirical x N, inferInstance⟩) atTop
      (𝓝 ⟨volume.restrict (cube d), inferInstance⟩) := by
  classical
  refine IsPiSystem.tendsto_probabilityMeasure_of_tendsto_of_mem
    (S := {s | ∃ a b : Fin d → ℝ, s = Set.univ.pi fun j => Set.Ico (a j) (b j)}) ?_ ?_ ?_ ?_
  · rintro _ ⟨a, b, rfl⟩ _ ⟨a', b', rfl⟩ -
    refine ⟨fun j => max (a j) (a' j), fun j => min (b j) (b' j), ?_⟩
    rw [← Set.pi_inter_distrib]
    simp [Set.Ico_inter_Ico]
  · rintro _ ⟨a, b, rfl⟩
    exact MeasurableSet.univ_pi fun j => measurableSet_Ico
  · intro u hu y hy
    obtain ⟨ε, hε, hb⟩ := Metric.isOpen_iff.mp hu y hy
    refine ⟨_, ⟨fun j => y j - ε / 2, fun j => y j + ε / 2, rfl⟩, ?_, fun z hz => hb ?_⟩
    · exact set_pi_mem_nhds Set.finite_univ fun j _ => Ico_mem_nhds (by linarith) (by linarith)
    · rw [Metric.mem_ball, dist_pi_lt_iff hε]
      intro j
      have := hz j (Set.mem_univ _)
      rw [Real.dist_eq, abs_lt]
      constructor <;> linarith [this.1, this.2]
  · rintro _ ⟨a, b, rfl⟩
    let a' : Fin d → ℝ := fun j => max 0 (min (a j) 1)
    let b' : Fin d → ℝ := fun j => max (a' j) (max 0 (min (b j) 1))
    have hab : ∀ j, 0 ≤ a' j ∧ a' j ≤ b' j ∧ b' j ≤ 1 := fun j =>
      ⟨le_max_left _ _, le_max_left _ _, max_le (max_le zero_le_one (min_le_right _ _)) (max_le zero_le_one (min_le_right _ _))⟩
    have key : ∀ (t : ℝ) (j : Fin d), 0 ≤ t → t < 1 → (a j ≤ t ∧ t < b j ↔ a' j ≤ t ∧ t < b' j) := by
      intro t j h0 h1
      have e1 : a' j ≤ t ↔ a j ≤ t := by
        simp only [a', max_le_iff, min_le_iff]
        constructor
        · rintro ⟨-, h | h⟩
          · exact h
          · exact absurd h1 (not_lt.mpr h)
        · exact fun h => ⟨h0, .inl h⟩
      have e2 : t < max 0 (min (b j) 1) ↔ t < b j := by
        simp only [lt_max_iff, lt_min_iff]
        constructor
        · rintro (h | h)
          · exact absurd h0 (not_le.mpr h)
          · exact h.1
        · exact fun h => .inr ⟨h, h1⟩
      simp only [b', lt_max_iff, e2]
      rw [← e1]
      constructor
      · exact fun h => ⟨h.1, .inr h.2⟩
      · rintro ⟨h, h' | h'⟩
        · exact absurd h (not_le.mpr h')
        · exact ⟨h, h'⟩
    have hlim := (hx a' b' hab).comp (tendsto_add_atTop_nat 1)
    have e1 : ∀ N, (empirical x N).real (Set.univ.pi fun j => Set.Ico (a j) (b j)) =
        ((Finset.range (N + 1)).filter fun n => ∀ j, a' j ≤ x n j ∧ x n j < b' j).card / ((N + 1 : ℕ) : ℝ) := by
      intro N
      rw [empirical_real x N (MeasurableSet.univ_pi fun j => measurableSet_Ico)]
      congr 3
      refine Finset.filter_congr fun n _ => ?_
      simp only [Set.mem_pi, Set.mem_univ, forall_const, Set.mem_Ico]
      exact forall_congr' fun j => key _ j (hc n j).1.le (hc n j).2
    have e2 : ((volume : Measure (Fin d → ℝ)).restrict (cube d)).real (Set.univ.pi fun j => Set.Ico (a j) (b j)) = ∏ j, (b' j - a' j) := by
      rw [restrict_cube, measureReal_restrict_apply (MeasurableSet.univ_pi fun j => measurableSet_Ico)]
      have : (Set.univ.pi fun j => Set.Ico (a j) (b j)) ∩ (Set.univ.pi fun _ => Set.Ico (0 : ℝ) 1) = Set.univ.pi fun j => Set.Ico (a' j) (b' j) := by
        ext u
        simp only [Set.mem_inter_iff, Set.mem_pi, Set.mem_univ, forall_const, Set.mem_Ico]
        constructor
        · rintro ⟨h1, h2⟩ j
          exact (key _ j (h2 j).1 (h2 j).2).mp (h1 j)
        · intro h
          have h2 : ∀ j, 0 ≤ u j ∧ u j < 1 := fun j => ⟨(hab j).1.trans (h j).1, (h j).2.trans_le (hab j).2.2⟩
          exact ⟨fun j => (key _ j (h2 j).1 (h2 j).2).mpr (h j), h2⟩
      rw [this, measureReal_def, Real.volume_pi_Ico_toReal fun j => (hab j).2.1]
    rw [← NNReal.tendsto_coe]
    change Tendsto (fun N => (empirical x N).real _) atTop (𝓝 (((volume : Measure (Fin d → ℝ)).restrict (cube d)).real _))
    rw [e2]
    simp only [e1]
    exact hlim

/-- **Weyl's theorem**: averages over uniformly distributed points of a bounded function that is continuous almost everywhere
tend to its integral over the unit cube. -/
theorem Equidistributed.tendsto_average {x : ℕ → Fin d → ℝ} (hx : Equidistributed x) (hc : ∀ n, x n ∈ cube d)
    {f : (Fin d → ℝ) → ℝ} (hf : Measurable f) (hcont : ∀ᵐ u ∂(volume.restrict (cube d)), ContinuousAt f u) {C : ℝ}
    (hC : ∀ u, |f u| ≤ C) :
    Tendsto (fun N : ℕ => (∑ n ∈ Finset.range N, f (x n)) / (N : ℝ)) atTop (𝓝 (∫ u in cube d, f u)) := by
  rw [← tendsto_add_atTop_iff_nat 1]
  have h := tendsto_integral_of_ae_continuousAt (hx.tendsto_empirical hc) hf hcont hC
  refine h.congr fun N => ?_
  exact integral_empirical x N f

/-! ## Level sets -/

/-- A function that determines one coordinate from the others has level sets without volume. -/
theorem ae_ne_of_determines {n : ℕ} (i : Fin (n + 1)) {h : (Fin (n + 1) → ℝ) → ℝ} (hh : Measurable h)
    (hd : ∀ u ∈ cube (n + 1), ∀ w ∈ cube (n + 1), (∀ j, j ≠ i → u j = w j) → h u = h w → u i = w i) (c : ℝ) :
    ∀ᵐ u ∂((volume : Measure (Fin (n + 1) → ℝ)).restrict (cube (n + 1))), h u ≠ c := by
  have hcube : MeasurableSet (cube (n + 1)) := by
    rw [cube_eq]; exact MeasurableSet.univ_pi fun _ => measurableSet_Ioo
  have hA : MeasurableSet {u ∈ cube (n + 1) | h u = c} := hcube.inter (hh (measurableSet_singleton c))
  rw [ae_restrict_iff' hcube, ae_iff]
  have e : {u | ¬ (u ∈ cube (n + 1) → h u ≠ c)} = {u ∈ cube (n + 1) | h u = c} := by ext u; simp
  rw [e]
  have hp := (volume_preserving_piFinSuccAbove (fun _ : Fin (n + 1) => ℝ) i).symm
  have hs : MeasurePreserving (Prod.swap : (Fin n → ℝ) × ℝ → ℝ × (Fin n → ℝ)) (volume.prod volume) (volume.prod volume) :=
    Measure.measurePreserving_swap
  have hps := hp.comp hs
  rw [← hps.measure_preimage hA.nullMeasurableSet, Measure.measure_prod_null (hps.measurable hA)]
  refine .of_forall fun y => ?_
  refine Set.Subsingleton.measure_zero (fun s hs' t ht' => ?_) _
  have hs2 : i.insertNth s y ∈ {u ∈ cube (n + 1) | h u = c} := hs'
  have ht2 : i.insertNth t y ∈ {u ∈ cube (n + 1) | h u = c} := ht'
  have := hd _ hs2.1 _ ht2.1 (fun j hj => by
    obtain ⟨j, rfl⟩ := Fin.exists_succAbove_eq hj
    simp) (hs2.2.trans ht2.2.symm)
  simpa using this

/-- A monotone function is continuous at almost every coordinate of a point of the unit cube. -/
theorem ae_continuousAt_of_strictMonoOn {Z : ℝ → ℝ} (hZ : StrictMonoOn Z (Set.Ioo 0 1)) :
    ∀ᵐ u ∂((volume : Measure (Fin d → ℝ)).restrict (cube d)), ∀ j, ContinuousAt Z (u j) := by
  have hcube : MeasurableSet (cube d) := by
    rw [cube_eq]; exact MeasurableSet.univ_pi fun _ => measurableSet_Ioo
  rw [ae_restrict_iff' hcube]
  have hcount := hZ.monotoneOn.countable_not_continuousWithinAt
  have h1 : ∀ᵐ u : Fin d → ℝ, ∀ j, ∀ y ∈ {x | x ∈ Set.Ioo (0 : ℝ) 1 ∧ ¬ ContinuousWithinAt Z (Set.Ioo 0 1) x}, u j ≠ y := by
    rw [ae_all_iff]
    intro j
    rw [ae_ball_iff hcount]
    intro y _
    exact Measure.ae_eval_ne (α := fun _ : Fin d => ℝ) (fun _ => volume) j y
  filter_upwards [h1] with u hu hc j
  by_contra hn
  exact hu j (u j) ⟨hc j, fun hw => hn (hw.continuousAt (isOpen_Ioo.mem_nhds (hc j)))⟩ rfl

/-! ## There are uniformly distributed sequences -/

theorem tendsto_empirical_of_rational {x : ℕ → Fin d → ℝ}
    (h : ∀ a b : Fin d → ℚ, Tendsto (fun N => (empirical x N).real (Set.univ.pi fun j => Set.Ico (a j : ℝ) (b j))) atTop
      (𝓝 (((volume : Measure (Fin d → ℝ)).restrict (cube d)).real (Set.univ.pi fun j => Set.Ico (a j : ℝ) (b j))))) :
    Tendsto (β := ProbabilityMeasure (Fin d → ℝ)) (fun N => ⟨empirical x N, inferInstance⟩) atTop
      (𝓝 ⟨volume.restrict (cube d), inferInstance⟩) := by
  refine IsPiSystem.tendsto_probabilityMeasure_of_tendsto_of_mem
    (S := {s | ∃ a b : Fin d → ℚ, s = Set.univ.pi fun j => Set.Ico (a j : ℝ) (b j)}) ?_ ?_ ?_ ?_
  · rintro _ ⟨a, b, rfl⟩ _ ⟨a', b', rfl⟩ -
    refine ⟨fun j => max (a j) (a' j), fun j => min (b j) (b' j), ?_⟩
    rw [← Set.pi_inter_distrib]
    simp [Set.Ico_inter_Ico]
  · rintro _ ⟨a, b, rfl⟩
    exact MeasurableSet.univ_pi fun j => measurableSet_Ico
  · intro u hu y hy
    obtain ⟨ε, hε, hb⟩ := Metric.isOpen_iff.mp hu y hy
    choose a ha using fun j => exists_rat_btwn (show y j - ε < y j by linarith)
    choose b hb' using fun j => exists_rat_btwn (show y j < y j + ε by linarith)
    refine ⟨_, ⟨a, b, rfl⟩, ?_, fun z hz => hb ?_⟩
    · exact set_pi_mem_nhds Set.finite_univ fun j _ => Ico_mem_nhds (ha j).2 (hb' j).1
    · rw [Metric.mem_ball, dist_pi_lt_iff hε]
      intro j
      have := hz j (Set.mem_univ _)
      rw [Real.dist_eq, abs_lt]
      constructor <;> linarith [this.1, this.2, (ha j).1, (hb' j).2]
  · rintro _ ⟨a, b, rfl⟩
    rw [← NNReal.tendsto_coe]
    exact h a b

theorem null_frontier_box (a b : Fin d → ℝ) : (volume : Measure (Fin d → ℝ)) (frontier (Set.univ.pi fun j => Set.Ico (a j) (b j))) = 0 := by
  refine measure_mono_null (t := ⋃ j, ({u | u j = a j} ∪ {u | u j = b j})) (fun u hu => ?_) ?_
  · by_contra hn
    simp only [Set.mem_iUnion, Set.mem_union, Set.mem_setOf_eq, not_exists, not_or] at hn
    rw [frontier_eq_closure_inter_closure] at hu
    by_cases hin : ∀ j, a j < u j ∧ u j < b j
    · have : (Set.univ.pi fun j => Set.Ico (a j) (b j)) ∈ 𝓝 u := set_pi_mem_nhds Set.finite_univ fun j _ => Ico_mem_nhds (hin j).1 (hin j).2
      obtain ⟨w, hw1, hw2⟩ := mem_closure_iff_nhds.mp hu.2 _ this
      exact hw2 hw1
    · push Not at hin
      obtain ⟨j, hj⟩ := hin
      have hout : u j < a j ∨ b j < u j := by
        rcases lt_or_gt_of_ne (hn j).1 with h | h
        · exact .inl h
        · exact .inr (lt_of_le_of_ne (hj h) (Ne.symm (hn j).2))
      rcases hout with h | h
      · have : {w : Fin d → ℝ | w j < a j} ∈ 𝓝 u := (isOpen_lt (continuous_apply j) continuous_const).mem_nhds h
        obtain ⟨w, hw1, hw2⟩ := mem_closure_iff_nhds.mp hu.1 _ this
        exact absurd (hw2 j (Set.mem_univ _)).1 (not_le.mpr hw1)
      · have : {w : Fin d → ℝ | b j < w j} ∈ 𝓝 u := (isOpen_lt continuous_const (continuous_apply j)).mem_nhds h
        obtain ⟨w, hw1, hw2⟩ := mem_closure_iff_nhds.mp hu.1 _ this
        exact absurd (hw2 j (Set.mem_univ _)).2 (not_lt.mpr (le_of_lt hw1))
  · rw [measure_iUnion_null_iff]
    intro j
    rw [measure_union_null_iff]
    exact ⟨Measure.pi_hyperplane (α := fun _ : Fin d => ℝ) (fun _ => volume) j (a j),
      Measure.pi_hyperplane (α := fun _ : Fin d => ℝ) (fun _ => volume) j (b j)⟩

theorem equidistributed_of_rational {x : ℕ → Fin d → ℝ}
    (h : ∀ a b : Fin d → ℚ, Tendsto (fun N => (empirical x N).real (Set.univ.pi fun j => Set.Ico (a j : ℝ) (b j))) atTop
      (𝓝 (((volume : Measure (Fin d → ℝ)).restrict (cube d)).real (Set.univ.pi fun j => Set.Ico (a j : ℝ) (b j))))) :
    Equidistributed x := by
  classical
  intro a b hab
  have hw := tendsto_empirical_of_rational h
  have hn : (volume.restrict (cube d)) (frontier (Set.univ.pi fun j => Set.Ico (a j) (b j))) = 0 :=
    Measure.restrict_le_self.absolutelyContinuous (null_frontier_box a b)
  have h1 := ProbabilityMeasure.tendsto_measure_of_null_frontier_of_tendsto' hw hn
  have hne : ((volume : Measure (Fin d → ℝ)).restrict (cube d)) (Set.univ.pi fun j => Set.Ico (a j) (b j)) ≠ ⊤ := measure_ne_top _ _
  have h2 : Tendsto (fun N => (empirical x N).real (Set.univ.pi fun j => Set.Ico (a j) (b j))) atTop
      (𝓝 (((volume : Measure (Fin d → ℝ)).restrict (cube d)).real (Set.univ.pi fun j => Set.Ico (a j) (b j)))) :=
    (ENNReal.tendsto_toReal hne).comp h1
  have e2 : ((volume : Measure (Fin d → ℝ)).restrict (cube d)).real (Set.univ.pi fun j => Set.Ico (a j) (b j)) = ∏ j, (b j - a j) := by
    rw [restrict_cube, measureReal_restrict_apply (MeasurableSet.univ_pi fun j => measurableSet_Ico), Set.inter_eq_left.mpr, measureReal_def,
      Real.volume_pi_Ico_toReal fun j => (hab j).2.1]
    intro u hu j hj
    exact ⟨(hab j).1.trans (hu j hj).1, (hu j hj).2.trans_le (hab j).2.2⟩
  rw [e2] at h2
  rw [← tendsto_add_atTop_iff_nat 1]
  refine h2.congr fun N => ?_
  rw [empirical_real x N (MeasurableSet.univ_pi fun j => measurableSet_Ico)]
  congr 3
  refine Finset.filter_congr fun n _ => ?_
  simp

/-- Almost every sequence of independent uniform points is uniformly distributed, so there are such sequences. -/
theorem exists_equidistributed (d : ℕ) : ∃ x : ℕ → Fin d → ℝ, Equidistributed x ∧ ∀ n, x n ∈ cube d := by
  let ν : Measure (Fin d → ℝ) := volume.restrict (cube d)
  let μ : Measure (ℕ → Fin d → ℝ) := Measure.infinitePi fun _ => ν
  have hcube : MeasurableSet (cube d) := by
    rw [cube_eq]; exact MeasurableSet.univ_pi fun _ => measurableSet_Ioo
  have hmap : ∀ n, μ.map (fun x => x n) = ν := fun n => Measure.infinitePi_map_eval _ n
  have hind : ProbabilityTheory.iIndepFun (fun n (x : ℕ → Fin d → ℝ) => x n) μ := by
    exact ProbabilityTheory.iIndepFun_infinitePi (X := fun _ u => u) fun _ => measurable_id
  have h1 : ∀ᵐ x ∂μ, ∀ n, x n ∈ cube d := by
    rw [ae_all_iff]
    intro n
    have : ∀ᵐ u ∂(μ.map fun x => x n), u ∈ cube d := by rw [hmap]; exact ae_restrict_mem hcube
    exact ae_of_ae_map (measurable_pi_apply n).aemeasurable this
  have h2 : ∀ᵐ x ∂μ, ∀ a b : Fin d → ℚ, Tendsto (fun N => (empirical x N).real (Set.univ.pi fun j => Set.Ico (a j : ℝ) (b j))) atTop
      (𝓝 (ν.real (Set.univ.pi fun j => Set.Ico (a j : ℝ) (b j)))) := by
    rw [ae_all_iff]; intro a
    rw [ae_all_iff]; intro b
    have hA : MeasurableSet (Set.univ.pi fun j => Set.Ico (a j : ℝ) (b j)) := MeasurableSet.univ_pi fun j => measurableSet_Ico
    have hg : Measurable (Set.indicator (Set.univ.pi fun j => Set.Ico (a j : ℝ) (b j)) (1 : (Fin d → ℝ) → ℝ)) := measurable_one.indicator hA
    have hid : ∀ n, ProbabilityTheory.IdentDistrib (fun x : ℕ → Fin d → ℝ => x n) (fun x => x 0) μ μ := fun n =>
      ⟨(measurable_pi_apply n).aemeasurable, (measurable_pi_apply 0).aemeasurable, by rw [hmap, hmap]⟩
    have hint : Integrable (fun x : ℕ → Fin d → ℝ => Set.indicator (Set.univ.pi fun j => Set.Ico (a j : ℝ) (b j)) (1 : (Fin d → ℝ) → ℝ) (x 0)) μ := by
      refine Integrable.of_bound (hg.comp (measurable_pi_apply 0)).aestronglyMeasurable 1 (.of_forall fun x => ?_)
      by_cases hx : x 0 ∈ (Set.univ.pi fun j => Set.Ico (a j : ℝ) (b j))
      · simp only [Set.indicator_of_mem hx]; simp
      · simp only [Set.indicator_of_notMem hx]; simp
    have h4 := ProbabilityTheory.strong_law_ae_real
      (fun n (x : ℕ → Fin d → ℝ) => Set.indicator (Set.univ.pi fun j => Set.Ico (a j : ℝ) (b j)) (1 : (Fin d → ℝ) → ℝ) (x n)) hint
      (fun i j hij => (hind.indepFun hij).comp hg hg) (fun i => (hid i).comp hg)
    filter_upwards [h4] with x hx
    have e : ∫ x, Set.indicator (Set.univ.pi fun j => Set.Ico (a j : ℝ) (b j)) (1 : (Fin d → ℝ) → ℝ) (x 0) ∂μ =
        ν.real (Set.univ.pi fun j => Set.Ico (a j : ℝ) (b j)) := by
      rw [← integral_indicator_one hA, ← hmap 0, integral_map (measurable_pi_apply 0).aemeasurable hg.aestronglyMeasurable]
    rw [e, ← tendsto_add_atTop_iff_nat 1] at hx
    refine hx.congr fun N => ?_
    rw [← integral_indicator_one hA, integral_empirical]
  obtain ⟨x, hx1, hx2⟩ := (h1.and h2).exists
  exact ⟨x, equidistributed_of_rational hx2, hx1⟩

/-- Changing the points whose number is a square does not change the uniform distribution. -/
theorem Equidistributed.change_squares {x y : ℕ → Fin d → ℝ} (hx : Equidistributed x) (h : ∀ n, ¬ IsSquare n → y n = x n) : Equidistributed y := by
  classical
  intro a b hab
  have hl := hx a b hab
  have hbound : ∀ N : ℕ, ((Finset.range N).filter IsSquare).card ≤ N.sqrt + 1 := by
    intro N
    have hsub : (Finset.range N).filter IsSquare ⊆ (Finset.range (N.sqrt + 1)).image fun k => k * k := by
      intro n hn
      obtain ⟨hn1, k, rfl⟩ := Finset.mem_filter.mp hn
      refine Finset.mem_image.mpr ⟨k, ?_, rfl⟩
      rw [Finset.mem_range, Nat.lt_succ_iff, Nat.le_sqrt]
      exact (Finset.mem_range.mp hn1).le
    calc _ ≤ _ := Finset.card_le_card hsub
      _ ≤ _ := Finset.card_image_le
      _ = _ := Finset.card_range _
  have key : ∀ (u w : ℕ → Fin d → ℝ), (∀ n, ¬ IsSquare n → u n = w n) → ∀ N : ℕ,
      ((Finset.range N).filter fun n => ∀ j, a j ≤ u n j ∧ u n j < b j).card ≤
        ((Finset.range N).filter fun n => ∀ j, a j ≤ w n j ∧ w n j < b j).card + (N.sqrt + 1) := by
    intro u w huw N
    have hsub : ((Finset.range N).filter fun n => ∀ j, a j ≤ u n j ∧ u n j < b j) ⊆
        ((Finset.range N).filter fun n => ∀ j, a j ≤ w n j ∧ w n j < b j) ∪ (Finset.range N).filter IsSquare := by
      intro n hn
      obtain ⟨hn1, hn2⟩ := Finset.mem_filter.mp hn
      rw [Finset.mem_union, Finset.mem_filter, Finset.mem_filter]
      by_cases hs : IsSquare n
      · exact .inr ⟨hn1, hs⟩
      · exact .inl ⟨hn1, by rw [← huw n hs]; exact hn2⟩
    exact (Finset.card_le_card hsub).trans ((Finset.card_union_le _ _).trans (Nat.add_le_add_left (hbound N) _))
  have hzero : Tendsto (fun N : ℕ => ((N.sqrt + 1 : ℕ) : ℝ) / N) atTop (𝓝 0) := by
    have h1 : Tendsto (fun N : ℕ => 2 / Real.sqrt N) atTop (𝓝 0) :=
      (tendsto_const_nhds (x := (2 : ℝ))).div_atTop (Real.tendsto_sqrt_atTop.comp tendsto_natCast_atTop_atTop)
    refine squeeze_zero' (.of_forall fun N => by positivity) ?_ h1
    filter_upwards [eventually_gt_atTop 0] with N hN
    have hN' : (1 : ℝ) ≤ N := by exact_mod_cast hN
    have hs1 : 1 ≤ Real.sqrt N := by rw [Real.one_le_sqrt]; exact hN'
    have hs2 : (N.sqrt : ℝ) ≤ Real.sqrt N := by
      refine Real.le_sqrt_of_sq_le ?_
      exact_mod_cast Nat.sqrt_le' N
    rw [div_le_div_iff₀ (by linarith) (by linarith)]
    have hs3 : Real.sqrt N * Real.sqrt N = N := Real.mul_self_sqrt (by linarith)
    push_cast
    nlinarith
  have hdiff : Tendsto (fun N : ℕ => (((Finset.range N).filter fun n => ∀ j, a j ≤ y n j ∧ y n j < b j).card : ℝ) / N -
      (((Finset.range N).filter fun n => ∀ j, a j ≤ x n j ∧ x n j < b j).card : ℝ) / N) atTop (𝓝 0) := by
    refine squeeze_zero_norm (fun N => ?_) hzero
    have k1 := key y x h N
    have k2 := key x y (fun n hn => (h n hn).symm) N
    rw [Real.norm_eq_abs, ← sub_div, abs_div, abs_of_nonneg (show (0 : ℝ) ≤ N by positivity)]
    refine div_le_div_of_nonneg_right ?_ (by positivity)
    rw [abs_le]
    have k1' : (((Finset.range N).filter fun n => ∀ j, a j ≤ y n j ∧ y n j < b j).card : ℝ) ≤
        (((Finset.range N).filter fun n => ∀ j, a j ≤ x n j ∧ x n j < b j).card : ℝ) + ((N.sqrt + 1 : ℕ) : ℝ) := by exact_mod_cast k1
    have k2' : (((Finset.range N).filter fun n => ∀ j, a j ≤ x n j ∧ x n j < b j).card : ℝ) ≤
        (((Finset.range N).filter fun n => ∀ j, a j ≤ y n j ∧ y n j < b j).card : ℝ) + ((N.sqrt + 1 : ℕ) : ℝ) := by exact_mod_cast k2
    constructor <;> linarith
  have := hl.add hdiff
  simpa using this

end Verif.Spec
