import Verif.Model.Regression
import Verif.Spec.RegressionSpec
import Mathlib.Analysis.InnerProductSpace.PiL2
import Mathlib.Analysis.InnerProductSpace.Projection.Minimal
import Mathlib.LinearAlgebra.Matrix.ToLin
import Mathlib.Tactic.Linarith
import Mathlib.Tactic.LinearCombination

/-!
# Least squares: normal equations, existence and uniqueness
-/

namespace Verif
open Finset Spec

theorem fitted_add (A : Mat ℝ) (x v : ℕ → ℝ) (t : ℝ) (i : ℕ) :
    fitted A (fun j => x j + t * v j) i = fitted A x i + t * fitted A v i := by
  simp only [fitted, mul_sum, ← sum_add_distrib]
  exact sum_congr rfl fun j _ => by ring

theorem fitted_congr (A : Mat ℝ) (x z : ℕ → ℝ) (i : ℕ) (h : ∀ j < A.cols, x j = z j) :
    fitted A x i = fitted A z i :=
  sum_congr rfl fun j hj => by rw [h j (mem_range.1 hj)]

theorem residual_congr (A : Mat ℝ) (y : List ℝ) (x z : ℕ → ℝ) (h : ∀ j < A.cols, x j = z j) :
    squaredError A y x = squaredError A y z :=
  sum_congr rfl fun i _ => by rw [fitted_congr A x z i h]

theorem residual_add (A : Mat ℝ) (y : List ℝ) (x v : ℕ → ℝ) (t : ℝ) :
    squaredError A y (fun j => x j + t * v j) = squaredError A y x
      + 2 * t * (∑ i ∈ range A.rows, (fitted A x i - entry y i) * fitted A v i)
      + t ^ 2 * ∑ i ∈ range A.rows, fitted A v i ^ 2 := by
  simp only [squaredError, mul_sum, ← sum_add_distrib, fitted_add]
  exact sum_congr rfl fun i _ => by ring

/-- A quadratic that is never negative has no linear term. -/
theorem linear_term_zero (s q : ℝ) (h : ∀ t : ℝ, 0 ≤ 2 * t * s + t ^ 2 * q) : s = 0 := by
  by_contra hs
  have hs2 : 0 < s ^ 2 := by positivity
  have h1 := h (-s / (|q| + 1))
  have hq : (0 : ℝ) < |q| + 1 := by positivity
  have e : 2 * (-s / (|q| + 1)) * s + (-s / (|q| + 1)) ^ 2 * q = s ^ 2 / (|q| + 1) ^ 2 * (q - 2 * (|q| + 1)) := by
    field_simp
    ring
  rw [e] at h1
  have : q - 2 * (|q| + 1) < 0 := by have := le_abs_self q; linarith [abs_nonneg q]
  have h2 : 0 < s ^ 2 / (|q| + 1) ^ 2 := by positivity
  nlinarith

theorem normal_equations (A : Mat ℝ) (y : List ℝ) (x : ℕ → ℝ) (h : ∀ z, squaredError A y x ≤ squaredError A y z)
    (v : ℕ → ℝ) : ∑ i ∈ range A.rows, (fitted A x i - entry y i) * fitted A v i = 0 := by
  refine linear_term_zero _ (∑ i ∈ range A.rows, fitted A v i ^ 2) fun t => ?_
  have := h (fun j => x j + t * v j)
  rw [residual_add] at this
  linarith

theorem residual_split (A : Mat ℝ) (y : List ℝ) (x : ℕ → ℝ) (h : ∀ z, squaredError A y x ≤ squaredError A y z)
    (z : ℕ → ℝ) : squaredError A y z = squaredError A y x + ∑ i ∈ range A.rows, fitted A (fun j => z j - x j) i ^ 2 := by
  have e : squaredError A y z = squaredError A y (fun j => x j + 1 * (z j - x j)) :=
    residual_congr A y _ _ fun j _ => by ring
  rw [e, residual_add, normal_equations A y x h (fun j => z j - x j)]
  ring

/-- Best fits from the same set of fits are equal. -/
theorem bestFit_unique (A B : Mat ℝ) (y : List ℝ) (hr : A.rows = B.rows) (x w : ℕ → ℝ)
    (hx : ∀ z, squaredError A y x ≤ squaredError A y z) (hw : ∀ z, squaredError B y w ≤ squaredError B y z)
    (hAB : ∀ z, ∃ u, ∀ i < A.rows, fitted A z i = fitted B u i)
    (hBA : ∀ z, ∃ u, ∀ i < A.rows, fitted B z i = fitted A u i) :
    ∀ i < A.rows, fitted A x i = fitted B w i := by
  obtain ⟨u, hu⟩ := hAB x
  obtain ⟨u', hu'⟩ := hBA w
  have h1 := normal_equations A y x hx (fun j => x j + (-1) * u' j)
  have h2 := normal_equations B y w hw (fun j => u j + (-1) * w j)
  rw [← hr] at h2
  have h3 : ∑ i ∈ range A.rows, (fitted A x i - fitted B w i) ^ 2 = 0 := by
    rw [← sub_self (0 : ℝ)]
    nth_rewrite 1 [← h1]
    rw [← h2, ← sum_sub_distrib]
    refine sum_congr rfl fun i hi => ?_
    rw [fitted_add, fitted_add, ← hu' i (mem_range.1 hi), ← hu i (mem_range.1 hi)]
    ring
  intro i hi
  have := (sum_eq_zero_iff_of_nonneg (fun i _ => sq_nonneg _)).1 h3 i (mem_range.2 hi)
  exact sub_eq_zero.1 (pow_eq_zero_iff (by norm_num) |>.1 this)

/-! ## Existence: the contracts can be met -/

/-- The vector with entries `f`. -/
def tabulate (n : ℕ) (f : ℕ → ℝ) : List ℝ := (List.range n).map f

theorem entry_tabulate {n : ℕ} (f : ℕ → ℝ) {i : ℕ} (h : i < n) : entry (tabulate n f) i = f i := by
  simp [entry, tabulate, List.getD, h]

theorem exists_bestFit (A : Mat ℝ) (y : List ℝ) : ∃ x : List ℝ, x.length = A.cols ∧
    ∀ z, squaredError A y (entry x) ≤ squaredError A y z := by
  let L : (Fin A.cols → ℝ) →ₗ[ℝ] EuclideanSpace ℝ (Fin A.rows) :=
    (WithLp.linearEquiv 2 ℝ (Fin A.rows → ℝ)).symm.toLinearMap ∘ₗ
      Matrix.mulVecLin (Matrix.of fun (i : Fin A.rows) (j : Fin A.cols) => A.coeff i j)
  have hL : ∀ z i, L z i = ∑ j : Fin A.cols, A.coeff i j * z j := fun z i => by
    simp [L, Matrix.mulVec, dotProduct]
  let K := LinearMap.range L
  let Y : EuclideanSpace ℝ (Fin A.rows) := WithLp.toLp 2 fun i => entry y i
  obtain ⟨v, ⟨x, hx⟩, hv⟩ := K.exists_norm_eq_iInf_of_complete_subspace K.complete_of_finiteDimensional Y
  have key : ∀ z : Fin A.cols → ℝ, ‖Y - L x‖ ≤ ‖Y - L z‖ := fun z => by
    rw [hx, hv]
    exact ciInf_le ⟨0, by rintro _ ⟨w, rfl⟩; exact norm_nonneg _⟩ (⟨L z, z, rfl⟩ : K)
  have hres : ∀ f : ℕ → ℝ, squaredError A y f = ‖Y - L (fun j => f j)‖ ^ 2 := fun f => by
    rw [EuclideanSpace.real_norm_sq_eq, squaredError, sum_range]
    refine sum_congr rfl fun i _ => ?_
    rw [PiLp.sub_apply, hL, fitted, sum_range]
    show _ = (entry y i - _) ^ 2
    ring
  refine ⟨List.ofFn x, by simp, fun z => ?_⟩
  rw [hres, hres]
  have e : (fun j : Fin A.cols => entry (List.ofFn x) j) = x := by
    funext j
    simp [entry, List.getD]
  rw [e]
  exact pow_le_pow_left₀ (norm_nonneg _) (key _) 2

theorem leastSquares_exists : ∃ f, LeastSquaresSolver f := by
  choose g hg hg' using exists_bestFit
  exact ⟨fun A y => .ok (g A y), fun A y _ => ⟨g A y, rfl, hg A y, hg' A y⟩⟩

theorem exists_definite (M : Mat ℝ) (r : List ℝ) (hM : PositiveDefinite M) (hr : r.length = M.rows) :
    ∃ x, Solves M r x := by
  obtain ⟨n, m, c⟩ := M
  obtain rfl : n = m := hM.square
  let L : (Fin n → ℝ) →ₗ[ℝ] (Fin n → ℝ) := Matrix.mulVecLin (Matrix.of fun (i j : Fin n) => c i j)
  have hL : ∀ z i, L z i = ∑ j : Fin n, c i j * z j := fun z i => by simp [L, Matrix.mulVec, dotProduct]
  have hinj : Function.Injective L := by
    rw [← LinearMap.ker_eq_bot, LinearMap.ker_eq_bot']
    intro v hv
    by_contra hne
    obtain ⟨i, hi⟩ := Function.ne_iff.1 hne
    let w : ℕ → ℝ := fun j => if h : j < n then v ⟨j, h⟩ else 0
    have := hM.pos w ⟨i, i.2, by simpa [w] using hi⟩
    have hz : ∑ i ∈ range n, w i * fitted ⟨n, n, c⟩ w i = 0 := by
      refine sum_eq_zero fun i hi => ?_
      have h0 : L v ⟨i, mem_range.1 hi⟩ = 0 := by rw [hv]; rfl
      rw [hL] at h0
      have : fitted ⟨n, n, c⟩ w i = 0 := by
        rw [fitted, sum_range]
        simpa [w] using h0
      rw [this, mul_zero]
    simp only at this
    linarith
  obtain ⟨x, hx⟩ := (LinearMap.injective_iff_surjective.1 hinj) (fun i => entry r i)
  refine ⟨List.ofFn x, by simp, hr, fun i hi => ?_⟩
  have := congrFun hx ⟨i, hi⟩
  rw [hL] at this
  rw [sum_range, ← this]
  refine sum_congr rfl fun j _ => ?_
  simp [entry, List.getD]

theorem definite_exists : ∃ f, DefiniteSolver f := by
  classical
  refine ⟨fun M r => if h : PositiveDefinite M ∧ r.length = M.rows then
    .ok (exists_definite M r h.1 h.2).choose else .ub, fun M r hM hr => ?_⟩
  refine ⟨_, dif_pos ⟨hM, hr⟩, ?_⟩
  exact (exists_definite M r hM hr).choose_spec

end Verif
