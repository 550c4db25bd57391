import Verif.Spec.RandomSource
import Mathlib.Probability.ProductMeasure
import Mathlib.MeasureTheory.Function.Floor

/-!
# Perfect generators exist

An infinite sequence of independent draws, for every distribution.
-/

namespace Verif
open MeasureTheory ProbabilityTheory Spec

section
variable {X : Type} [MeasurableSpace X]

/-- Put an element in front of a sequence. -/
def consSeq (p : X × (ℕ → X)) : ℕ → X
  | 0 => p.1
  | n + 1 => p.2 n

theorem measurable_consSeq : Measurable (consSeq (X := X)) := by
  refine measurable_pi_lambda _ fun n => ?_
  cases n with
  | zero => exact measurable_fst
  | succ n => exact (measurable_pi_apply n).comp measurable_snd

theorem map_consSeq (ν : Measure X) [IsProbabilityMeasure ν] :
    (ν.prod (Measure.infinitePi fun _ : ℕ => ν)).map consSeq = Measure.infinitePi fun _ : ℕ => ν := by
  classical
  refine Measure.eq_infinitePi _ fun S t ht => ?_
  obtain ⟨N, hN⟩ : ∃ N, ∀ i ∈ S, i < N + 1 := ⟨S.sup id, fun i hi => Nat.lt_succ_of_le (Finset.le_sup (f := id) hi)⟩
  let t' : ℕ → Set X := fun i => if i ∈ S then t i else Set.univ
  have ht' : ∀ i, MeasurableSet (t' i) := fun i => by
    by_cases h : i ∈ S
    · simp only [t', h, if_true]; exact ht i
    · simp only [t', h, if_false]; exact .univ
  have e1 : Set.pi (S : Set ℕ) t = Set.pi (Finset.range (N + 1) : Set ℕ) t' := by
    ext s
    simp only [Set.mem_pi, Finset.mem_coe, Finset.mem_range, t']
    constructor
    · intro h i _
      by_cases hi : i ∈ S
      · simpa [hi] using h i hi
      · simp [hi]
    · intro h i hi
      simpa [hi] using h i (hN i hi)
  have e2 : ∏ i ∈ S, ν (t i) = ∏ i ∈ Finset.range (N + 1), ν (t' i) := by
    rw [← Finset.prod_subset (s₁ := S) (fun i hi => Finset.mem_range.mpr (hN i hi))]
    · exact Finset.prod_congr rfl fun i hi => by simp [t', hi]
    · intro i _ hi
      simp [t', hi]
  rw [e1, e2, Measure.map_apply measurable_consSeq (MeasurableSet.pi (Finset.countable_toSet _) fun i _ => ht' i)]
  have e3 : consSeq ⁻¹' Set.pi (Finset.range (N + 1) : Set ℕ) t' = t' 0 ×ˢ Set.pi (Finset.range N : Set ℕ) (fun i => t' (i + 1)) := by
    ext p
    simp only [Set.mem_preimage, Set.mem_pi, Finset.mem_coe, Finset.mem_range, Set.mem_prod]
    constructor
    · exact fun h => ⟨h 0 (by omega), fun i hi => h (i + 1) (by omega)⟩
    · rintro ⟨h0, h⟩ i hi
      cases i with
      | zero => exact h0
      | succ i => exact h i (by omega)
  rw [e3, Measure.prod_prod, Measure.infinitePi_pi _ (fun i _ => ht' (i + 1)), Finset.prod_range_succ', mul_comm]

/-- The first element of an independent sequence is independent of the others. -/
theorem map_head_tail (ν : Measure X) [IsProbabilityMeasure ν] :
    (Measure.infinitePi fun _ : ℕ => ν).map (fun s => (s 0, fun n => s (n + 1))) = ν.prod (Measure.infinitePi fun _ : ℕ => ν) := by
  have hm : Measurable fun s : ℕ → X => (s 0, fun n => s (n + 1)) :=
    (measurable_pi_apply 0).prodMk (measurable_pi_lambda _ fun n => measurable_pi_apply (n + 1))
  conv_lhs => rw [← map_consSeq ν]
  rw [Measure.map_map hm measurable_consSeq]
  have : (fun s : ℕ → X => (s 0, fun n => s (n + 1))) ∘ consSeq = id := by
    funext p; rfl
  rw [this, Measure.map_id]

end

/-- The law of the draws, and an arbitrary law for invalid parameters. -/
noncomputable def drawLaw (l : Dist.StdLaw ℝ) : Measure ℝ :=
  open Classical in if ValidLaw l then stdMeasure clippedPoisson l else Measure.dirac 0

instance (mean : ℝ) : IsProbabilityMeasure (clippedPoisson mean) :=
  Measure.isProbabilityMeasure_map measurable_from_nat.aemeasurable

theorem isProbabilityMeasure_stdMeasure {count : ℝ → Measure ℕ} (hc : ∀ m, 0 < m → IsProbabilityMeasure (count m)) :
    ∀ {l : Dist.StdLaw ℝ}, ValidLaw l → IsProbabilityMeasure (stdMeasure count l)
  | .normal m s, _ => instIsProbabilityMeasureGaussianReal m _
  | .poisson m, h => by
    haveI := hc m h
    exact Measure.isProbabilityMeasure_map measurable_from_nat.aemeasurable
  | .uniform a b, h => by
    have h : a < b := h
    refine cond_isProbabilityMeasure_of_finite ?_ ?_
    · simp [h]
    · simp
  | .exponential r, h => isProbabilityMeasure_expMeasure h
  | .gamma a b, h => isProbabilityMeasure_gammaMeasure h.1 (one_div_pos.mpr h.2)

instance (l : Dist.StdLaw ℝ) : IsProbabilityMeasure (drawLaw l) := by
  unfold drawLaw
  split
  · rename_i h
    exact isProbabilityMeasure_stdMeasure (fun _ _ => inferInstance) h
  · infer_instance

/-- The state of the perfect generator: all future draws, for all distributions. -/
abbrev PerfectState := ℕ → Dist.StdLaw ℝ → ℝ

/-- Its law: everything independent. -/
noncomputable def perfectMeasure : Measure PerfectState := Measure.infinitePi fun _ : ℕ => Measure.infinitePi drawLaw

instance : IsProbabilityMeasure perfectMeasure := by unfold perfectMeasure; infer_instance

/-- Round to a number of events (a no-op almost surely). -/
noncomputable def clipCount (l : Dist.StdLaw ℝ) (x : ℝ) : ℝ :=
  match l with
  | .poisson _ => ((min ⌊x⌋₊ INT_MAX : ℕ) : ℝ)
  | _ => x

theorem measurable_clipCount (l : Dist.StdLaw ℝ) : Measurable (clipCount l) := by
  cases l with
  | poisson m =>
    have : Measurable fun n : ℕ => ((min n INT_MAX : ℕ) : ℝ) := measurable_from_nat
    exact this.comp Nat.measurable_floor
  | _ => exact measurable_id

theorem map_clipCount {l : Dist.StdLaw ℝ} (h : ValidLaw l) : (drawLaw l).map (clipCount l) = stdMeasure clippedPoisson l := by
  have e : drawLaw l = stdMeasure clippedPoisson l := by simp [drawLaw, h]
  rw [e]
  cases l with
  | poisson m =>
    have m1 : Measurable fun n : ℕ => (n : ℝ) := measurable_from_nat
    have m2 : Measurable fun n : ℕ => min n INT_MAX := measurable_from_nat
    show ((((poissonMeasure m.toNNReal).map fun n => min n INT_MAX)).map fun n : ℕ => (n : ℝ)).map _ =
      ((poissonMeasure m.toNNReal).map fun n => min n INT_MAX).map fun n : ℕ => (n : ℝ)
    rw [Measure.map_map m1 m2, Measure.map_map (measurable_clipCount _) (m1.comp m2)]
    congr 1
    funext n
    show ((min ⌊((min n INT_MAX : ℕ) : ℝ)⌋₊ INT_MAX : ℕ) : ℝ) = ((min n INT_MAX : ℕ) : ℝ)
    rw [Nat.floor_natCast, min_assoc, min_self]
  | _ => exact Measure.map_id

/-- The perfect generator: use up the draws of one time step. -/
noncomputable def perfectGen : Gen PerfectState ℝ where
  draw d s := (.ok (clipCount d.law (s 0 d.law)), fun n => s (n + 1))
  newDist _ s := s

theorem measurable_perfect (l : Dist.StdLaw ℝ) : Measurable fun s : PerfectState => (clipCount l (s 0 l), fun n => s (n + 1)) :=
  ((measurable_clipCount _).comp ((measurable_pi_apply l).comp (measurable_pi_apply 0))).prodMk
    (measurable_pi_lambda _ fun n => measurable_pi_apply (n + 1))

theorem map_perfect {l : Dist.StdLaw ℝ} (hl : ValidLaw l) : perfectMeasure.map (fun s : PerfectState => (clipCount l (s 0 l), fun n => s (n + 1))) =
    (stdMeasure clippedPoisson l).prod perfectMeasure := by
  have m1 : Measurable fun (s : PerfectState) (n : ℕ) => s (n + 1) := measurable_pi_lambda _ fun n => measurable_pi_apply (n + 1)
  have hv : Measurable fun w : Dist.StdLaw ℝ → ℝ => clipCount l (w l) := (measurable_clipCount _).comp (measurable_pi_apply l)
  have e : perfectMeasure.map (fun s : PerfectState => (clipCount l (s 0 l), fun n => s (n + 1))) =
      (perfectMeasure.map fun s : PerfectState => (s 0, fun n => s (n + 1))).map (Prod.map (fun w => clipCount l (w l)) id) := by
    rw [Measure.map_map (hv.prodMap measurable_id) ((measurable_pi_apply 0).prodMk m1)]
    rfl
  have ht : perfectMeasure.map (fun s : PerfectState => (s 0, fun n => s (n + 1))) = (Measure.infinitePi drawLaw).prod perfectMeasure :=
    map_head_tail _
  rw [e, ht, ← Measure.map_prod_map _ _ hv measurable_id, Measure.map_id]
  congr 1
  have h2 : (Measure.infinitePi drawLaw).map (fun w => clipCount l (w l)) = ((Measure.infinitePi drawLaw).map (fun w => w l)).map (clipCount l) := by
    rw [Measure.map_map (measurable_clipCount _) (measurable_pi_apply _)]
    rfl
  rw [h2, Measure.infinitePi_map_eval, map_clipCount hl]

theorem randomSource_perfectGen : RandomSource perfectGen perfectMeasure clippedPoisson where
  draw d hd := ⟨fun s => clipCount d.law (s 0 d.law), fun s n => s (n + 1), (measurable_perfect d.law).fst, (measurable_perfect d.law).snd,
    fun _ => rfl, map_perfect hd⟩
  integer mean s s' x _ h := by
    have : clipCount (.poisson mean) (s 0 (.poisson mean)) = x := by
      have := congrArg Prod.fst h
      exact Res.ok.inj this
    exact ⟨min ⌊s 0 (.poisson mean)⌋₊ INT_MAX, min_le_right _ _, this.symm⟩
  newDist _ := .id _

end Verif
