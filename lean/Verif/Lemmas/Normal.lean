import Verif.Spec.Randomness
import Verif.Lemmas.StockModel
import Verif.Spec.MonteCarloSpec

/-!
# Sums of independent normal draws
-/

namespace Verif
open MeasureTheory ProbabilityTheory Spec Finset

variable {Ω : Type} [MeasurableSpace Ω] {P : Measure Ω} [IsProbabilityMeasure P] {Z : ℕ → Ω → ℝ}

/-- The sum of the draws number `i, ..., i + n - 1`. -/
noncomputable def drawSum (Z : ℕ → Ω → ℝ) (i n : ℕ) (ω : Ω) : ℝ := ∑ j ∈ Ico i (i + n), Z j ω

theorem drawSum_zero (i : ℕ) (ω : Ω) : drawSum Z i 0 ω = 0 := by simp [drawSum]

theorem drawSum_succ (i n : ℕ) (ω : Ω) : drawSum Z i (n + 1) ω = drawSum Z i n ω + Z (i + n) ω := by
  unfold drawSum
  rw [← add_assoc, Finset.sum_Ico_succ_top (by omega)]

theorem Spec.IidNormal.measurable_drawSum (h : IidNormal P Z) (i n : ℕ) : Measurable (drawSum Z i n) :=
  Finset.measurable_sum _ fun j _ => h.measurable j

theorem Spec.IidNormal.map_drawSum (h : IidNormal P Z) (i : ℕ) :
    ∀ n : ℕ, P.map (drawSum Z i n) = gaussianReal 0 n
  | 0 => by
    have : drawSum Z i 0 = fun _ => 0 := funext (drawSum_zero i)
    rw [this, Measure.map_const]
    simp [gaussianReal_zero_var]
  | n + 1 => by
    have e : drawSum Z i (n + 1) = drawSum Z i n + Z (i + n) := funext (drawSum_succ i n)
    have hi : IndepFun (drawSum Z i n) (Z (i + n)) P := by
      have := h.indep.indepFun_finsetSum_of_notMem h.measurable (s := Ico i (i + n)) (i := i + n) (by simp)
      convert this using 1
      funext ω
      simp [drawSum]
    rw [e, gaussianReal_add_gaussianReal_of_indepFun hi (Spec.IidNormal.map_drawSum h i n) (h.law _)]
    simp

theorem Spec.IidNormal.integrable_exp (h : IidNormal P Z) (i n : ℕ) (a : ℝ) :
    Integrable (fun ω => Real.exp (a * drawSum Z i n ω)) P := by
  have := integrable_exp_mul_gaussianReal (μ := 0) (v := n) a
  rw [← h.map_drawSum i n] at this
  exact (integrable_map_measure (by fun_prop) (h.measurable_drawSum i n).aemeasurable).mp this

theorem Spec.IidNormal.integral_exp (h : IidNormal P Z) (i n : ℕ) (a : ℝ) :
    ∫ ω, Real.exp (a * drawSum Z i n ω) ∂P = Real.exp (n * a ^ 2 / 2) := by
  have := mgf_gaussianReal (h.map_drawSum i n) a
  simpa [mgf] using this

/-- The draws of the scripted generator. -/
theorem scriptGen_draws (f : ℕ → ℝ) (d : Dist ℝ) : ∀ (n i : ℕ),
    Draws ((scriptGen f).draw d) i ((List.range n).map fun j => f (i + j)) (i + n)
  | 0, i => .nil _
  | n + 1, i => by
    rw [List.range_succ_eq_map, List.map_cons, List.map_map]
    refine .cons (s₁ := i + 1) rfl ?_
    have := scriptGen_draws f d n (i + 1)
    rw [show i + (n + 1) = i + 1 + n by omega]
    convert this using 2
    funext j
    simp only [Function.comp]
    congr 1
    omega

theorem sum_take_range (f : ℕ → ℝ) (i : ℕ) {k n : ℕ} (h : k ≤ n) :
    (((List.range n).map fun j => f (i + j)).take k).sum = ∑ j ∈ Ico i (i + k), f j := by
  rw [← List.map_take, List.take_range, min_eq_left h, Finset.sum_Ico_eq_sum_range]
  rw [← List.sum_toFinset _ List.nodup_range, List.toFinset_range, Nat.add_sub_cancel_left]

end Verif
