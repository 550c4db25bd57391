import Verif.Model.LinearAlgebra
import Mathlib.Data.Real.Basic
import Mathlib.Algebra.BigOperators.Group.Finset.Basic

/-!
# Linear systems

From the model only the types `Mat` and `List` are used.
-/

namespace Verif.Spec
open Finset

/-- Entry number `i` of a vector. -/
def entry (v : List ℝ) (i : ℕ) : ℝ := v.getD i 0

/-- `A x = b`. -/
def Solves (A : Mat ℝ) (b x : List ℝ) : Prop :=
  x.length = A.cols ∧ b.length = A.rows ∧
    ∀ i < A.rows, ∑ j ∈ range A.cols, A.coeff i j * entry x j = entry b i

/-- Only the diagonal and its neighbours are nonzero; the matrix is square. -/
structure Tridiagonal (A : Mat ℝ) : Prop where
  square : A.rows = A.cols
  zero : ∀ i j, i < A.rows → j < A.cols → (i + 1 < j ∨ j + 1 < i) → A.coeff i j = 0

/-- The pivots of Gaussian elimination without row exchanges on a tridiagonal matrix. -/
noncomputable def pivot (A : Mat ℝ) : ℕ → ℝ
  | 0 => A.coeff 0 0
  | i + 1 => A.coeff (i + 1) (i + 1) - A.coeff (i + 1) i / pivot A i * A.coeff i (i + 1)

/-- The diagonal strictly dominates every row. -/
def StrictlyDominant (A : Mat ℝ) : Prop :=
  ∀ i < A.rows, ∑ j ∈ (range A.cols).erase i, |A.coeff i j| < |A.coeff i i|

end Verif.Spec
