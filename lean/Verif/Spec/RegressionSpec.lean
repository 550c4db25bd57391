import Verif.Spec.LinearSystem
import Mathlib.RingTheory.Polynomial.Chebyshev
import Mathlib.MeasureTheory.Integral.IntervalIntegral.Basic
import Mathlib.Data.Nat.Choose.Basic
import Mathlib.Data.Nat.Factorial.Basic

/-!
# Polynomials and penalised least squares

From the model only the types `Mat`, `List` and `Res` are used.
-/

namespace Verif.Spec
open Finset Polynomial

/-- The Legendre polynomials: `P n` has degree `n`, value 1 at 1, and they are orthogonal on [-1,1]. -/
structure IsLegendre (P : ℕ → ℝ[X]) : Prop where
  degree : ∀ n, (P n).natDegree = n
  one : ∀ n, (P n).eval 1 = 1
  orthogonal : ∀ m n, m ≠ n → ∫ x in (-1 : ℝ)..1, (P m).eval x * (P n).eval x = 0

/-- The Laguerre polynomials, by their closed form. -/
noncomputable def laguerre (n : ℕ) (x : ℝ) : ℝ :=
  ∑ k ∈ range (n + 1), (n.choose k : ℝ) * (-1) ^ k / (k.factorial : ℝ) * x ^ k

/-- Entry `i` of `A z`; only the first `A.cols` entries of `z` matter. -/
def fitted (A : Mat ℝ) (z : ℕ → ℝ) (i : ℕ) : ℝ := ∑ j ∈ range A.cols, A.coeff i j * z j

/-- The squared distance of `A z` and `y`. -/
def squaredError (A : Mat ℝ) (y : List ℝ) (z : ℕ → ℝ) : ℝ :=
  ∑ i ∈ range A.rows, (fitted A z i - entry y i) ^ 2

/-- The squared error of a polynomial on a sample. -/
noncomputable def polyError (q : ℝ[X]) (xs ys : List ℝ) : ℝ :=
  ∑ i ∈ range xs.length, (q.eval (entry xs i) - entry ys i) ^ 2

/-- `q` is a polynomial of degree below `N` that fits the sample best. -/
def BestPolynomial (N : ℕ) (xs ys : List ℝ) (q : ℝ[X]) : Prop :=
  q.degree < N ∧ ∀ q' : ℝ[X], q'.degree < N → polyError q xs ys ≤ polyError q' xs ys

/-- The least squares solver does what its name says: whenever the sizes agree it returns, and no
other coefficients come closer. -/
def LeastSquaresSolver (f : Mat ℝ → List ℝ → Res (List ℝ)) : Prop :=
  ∀ A y, y.length = A.rows → ∃ x, f A y = .ok x ∧ x.length = A.cols ∧
    ∀ z, squaredError A y (entry x) ≤ squaredError A y z

/-- The matrix is symmetric and positive definite. -/
structure PositiveDefinite (M : Mat ℝ) : Prop where
  square : M.rows = M.cols
  symm : ∀ i j, M.coeff i j = M.coeff j i
  pos : ∀ v : ℕ → ℝ, (∃ i < M.rows, v i ≠ 0) → 0 < ∑ i ∈ range M.rows, v i * fitted M v i

/-- The solver solves every positive definite system. -/
def DefiniteSolver (f : Mat ℝ → List ℝ → Res (List ℝ)) : Prop :=
  ∀ M r, PositiveDefinite M → r.length = M.rows → ∃ x, f M r = .ok x ∧ Solves M r x

/-- The lasso objective. -/
noncomputable def lassoObjective (lambda : ℝ) (A : Mat ℝ) (y : List ℝ) (z : ℕ → ℝ) : ℝ :=
  1 / 2 * squaredError A y z + lambda * ∑ j ∈ range A.cols, |z j|

/-- The ridge objective. -/
def ridgeObjective (lambda : ℝ) (A : Mat ℝ) (y : List ℝ) (z : ℕ → ℝ) : ℝ :=
  squaredError A y z + lambda * ∑ j ∈ range A.cols, z j ^ 2

/-- The columns of `A` are orthonormal. -/
def OrthonormalColumns (A : Mat ℝ) : Prop :=
  ∀ p < A.cols, ∀ q < A.cols, ∑ i ∈ range A.rows, A.coeff i p * A.coeff i q = if p = q then 1 else 0

end Verif.Spec
