import Verif.Lemmas.Normal
import Mathlib.Probability.Distributions.Gaussian.HasGaussianLaw.Independence
import Mathlib.Probability.Moments.Covariance

/-!
# Linear combinations of independent standard normal draws
-/

namespace Verif
open MeasureTheory ProbabilityTheory Spec Finset

variable {Ω : Type} [MeasurableSpace Ω] {P : Measure Ω} [IsProbabilityMeasure P] {Z : ℕ → Ω → ℝ}

/-- `∑ c_j Z_j` over the first `M` draws. -/
noncomputable def lin (Z : ℕ → Ω → ℝ) (M : ℕ) (c : ℕ → ℝ) (ω : Ω) : ℝ := ∑ j ∈ range M, c j * Z j ω

/-- The product of two vectors of coefficients. -/
noncomputable def ip (M : ℕ) (c d : ℕ → ℝ) : ℝ := ∑ j ∈ range M, c j * d j

theorem ip_comm (M : ℕ) (c d : ℕ → ℝ) : ip M c d = ip M d c :=
  Finset.sum_congr rfl fun _ _ => mul_comm _ _

theorem ip_sub_left (M : ℕ) (c d e : ℕ → ℝ) : ip M (c - d) e = ip M c e - ip M d e := by
  simp [ip, sub_mul]

theorem ip_sub_right (M : ℕ) (c d e : ℕ → ℝ) : ip M e (c - d) = ip M e c - ip M e d := by
  simp [ip, mul_sub]

theorem ip_lin_left (M : ℕ) (a b : ℝ) (c d e : ℕ → ℝ) :
    ip M (fun p => a * c p + b * d p) e = a * ip M c e + b * ip M d e := by
  simp only [ip, Finset.mul_sum]
  rw [← Finset.sum_add_distrib]
  exact Finset.sum_congr rfl fun _ _ => by ring

/-- The vector with a one at `k`. -/
def unit (k : ℕ) : ℕ → ℝ := fun p => if p = k then 1 else 0

theorem ip_unit_left {M k : ℕ} (h : k < M) (c : ℕ → ℝ) : ip M (unit k) c = c k := by
  simp [ip, unit, Finset.sum_ite_eq', h]

theorem lin_unit {M k : ℕ} (h : k < M) (ω : Ω) : lin Z M (unit k) ω = Z k ω := by
  simp [lin, unit, h]

theorem lin_lin (M : ℕ) (a b : ℝ) (c d : ℕ → ℝ) (ω : Ω) :
    lin Z M (fun p => a * c p + b * d p) ω = a * lin Z M c ω + b * lin Z M d ω := by
  simp only [lin, Finset.mul_sum]
  rw [← Finset.sum_add_distrib]
  exact Finset.sum_congr rfl fun _ _ => by ring

theorem lin_sub (M : ℕ) (c d : ℕ → ℝ) (ω : Ω) : lin Z M (c - d) ω = lin Z M c ω - lin Z M d ω := by
  simp [lin, sub_mul]

theorem lin_zero (M : ℕ) (ω : Ω) : lin Z M 0 ω = 0 := by simp [lin]

theorem lin_const_mul (M : ℕ) (a : ℝ) (c : ℕ → ℝ) (ω : Ω) :
    lin Z M (fun p => a * c p) ω = a * lin Z M c ω := by
  simp [lin, Finset.mul_sum, mul_assoc]

theorem Spec.IidNormal.memLp (h : IidNormal P Z) (j : ℕ) : MemLp (Z j) 2 P := by
  have : MemLp id 2 (P.map (Z j)) := by
    rw [h.law]
    exact memLp_id_gaussianReal 2
  exact (memLp_map_measure_iff aestronglyMeasurable_id (h.measurable j).aemeasurable).mp this

theorem Spec.IidNormal.gaussian (h : IidNormal P Z) (j : ℕ) : HasGaussianLaw (Z j) P :=
  ⟨by rw [h.law]; infer_instance⟩

theorem Spec.IidNormal.cov (h : IidNormal P Z) (j k : ℕ) : cov[Z j, Z k; P] = if j = k then 1 else 0 := by
  split_ifs with e
  · subst e
    rw [covariance_self (h.measurable j).aemeasurable]
    have := variance_map (X := id) (μ := P) (Y := Z j) aemeasurable_id (h.measurable j).aemeasurable
    rw [h.law, variance_id_gaussianReal] at this
    simpa using this.symm
  · exact (h.indep.indepFun e).covariance_eq_zero (h.memLp j) (h.memLp k)

theorem Spec.IidNormal.mean (h : IidNormal P Z) (j : ℕ) : ∫ ω, Z j ω ∂P = 0 := by
  have := integral_map (μ := P) (φ := Z j) (f := id) (h.measurable j).aemeasurable aestronglyMeasurable_id
  rw [h.law] at this
  simpa using this.symm

theorem Spec.IidNormal.measurable_lin (h : IidNormal P Z) (M : ℕ) (c : ℕ → ℝ) :
    Measurable (lin Z M c) :=
  Finset.measurable_sum _ fun j _ => (h.measurable j).const_mul _

theorem Spec.IidNormal.cov_lin (h : IidNormal P Z) (M : ℕ) (c d : ℕ → ℝ) :
    cov[lin Z M c, lin Z M d; P] = ip M c d := by
  have e : ∀ c, lin Z M c = fun ω => ∑ j ∈ range M, c j * Z j ω := fun _ => rfl
  rw [e, e, covariance_fun_sum_fun_sum' (fun j _ => (h.memLp j).const_mul _)
    (fun j _ => (h.memLp j).const_mul _)]
  simp only [covariance_const_mul_left, covariance_const_mul_right, h.cov]
  unfold ip
  refine Finset.sum_congr rfl fun j hj => ?_
  rw [Finset.sum_eq_single j]
  · simp [mul_comm]
  · intro k _ hk; simp [hk.symm]
  · exact fun hn => absurd hj hn

theorem Spec.IidNormal.mean_lin (h : IidNormal P Z) (M : ℕ) (c : ℕ → ℝ) : ∫ ω, lin Z M c ω ∂P = 0 := by
  unfold lin
  rw [integral_finsetSum _ fun j _ => ((h.memLp j).integrable (by norm_num)).const_mul _]
  simp [integral_const_mul, h.mean]

theorem Spec.IidNormal.gaussian_lin (h : IidNormal P Z) (M : ℕ) {ι : Type} [Fintype ι]
    (c : ι → ℕ → ℝ) : HasGaussianLaw (fun ω a => lin Z M (c a) ω) P := by
  have h1 : iIndepFun (fun j : Fin M => Z j) P := h.indep.precomp Fin.val_injective
  have h2 := iIndepFun.hasGaussianLaw (X := fun (j : Fin M) => Z j) (fun j : Fin M => h.gaussian j) h1
  let L : (Fin M → ℝ) →L[ℝ] (ι → ℝ) :=
    ContinuousLinearMap.pi fun a => ∑ j : Fin M, c a j • ContinuousLinearMap.proj (R := ℝ) (φ := fun _ : Fin M => ℝ) j
  have h3 := h2.map_fun L
  have e : (fun ω => L fun x => Z x ω) = fun ω a => lin Z M (c a) ω := by
    funext ω a
    simp [L, lin, Finset.sum_range]
  rw [e] at h3
  exact h3

/-- Combinations with orthogonal coefficients are independent, and normal. -/
theorem Spec.IidNormal.indep_lin (h : IidNormal P Z) (M : ℕ) {ι : Type} [Fintype ι]
    (c : ι → ℕ → ℝ) (ho : ∀ a b, a ≠ b → ip M (c a) (c b) = 0) : iIndepFun (fun a => lin Z M (c a)) P :=
  (h.gaussian_lin M c).iIndepFun_of_covariance_eq_zero fun a b hab => by rw [h.cov_lin, ho a b hab]

theorem Spec.IidNormal.map_lin (h : IidNormal P Z) (M : ℕ) (c : ℕ → ℝ) :
    P.map (lin Z M c) = gaussianReal 0 (Real.toNNReal (ip M c c)) := by
  have h1 := (h.gaussian_lin M (fun _ : Unit => c)).eval ()
  have := h1.map_eq_gaussianReal
  have e : (fun ω => lin Z M c ω) = lin Z M c := rfl
  simp only [e] at this
  rw [this, ← covariance_self (h.measurable_lin M c).aemeasurable, h.cov_lin, h.mean_lin]

end Verif
