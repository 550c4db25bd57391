import Verif.Model.Fdm
import Verif.Spec.LinearSystem

/-!
# Finite difference schemes

From the model only the types `Pde`, `OptObj` and `Market` are used.
-/

namespace Verif.Spec

/-- The problem `V_t = D V_xx + C V_x + R V - f` on `0 < x < L`, with boundary and initial values. -/
structure Problem where
  D : ℝ → ℝ → ℝ
  C : ℝ → ℝ → ℝ
  R : ℝ → ℝ → ℝ
  f : ℝ → ℝ → ℝ
  left : ℝ → ℝ → ℝ
  right : ℝ → ℝ → ℝ
  initial : ℝ → ℝ

/-- The PDE object `p` describes the problem `q`: its functions return the values of `q`. -/
structure Describes (p : Pde ℝ) (q : Problem) : Prop where
  diffusion : ∀ t x, p.diffusion t x = .ok (q.D t x)
  convection : ∀ t x, p.convection t x = .ok (q.C t x)
  reaction : ∀ t x, p.reaction t x = .ok (q.R t x)
  rightHandSide : ∀ t x, p.rightHandSide t x = .ok (q.f t x)
  boundaryLeft : ∀ t x, p.boundaryLeft t x = .ok (q.left t x)
  boundaryRight : ∀ t x, p.boundaryRight t x = .ok (q.right t x)
  initialCondition : ∀ x, p.initialCondition x = .ok (q.initial x)

/-- The right-hand side of the equation at time `t` and node `j` of the grid with spacing `h`, with central
differences for the derivatives of the grid function `u`. -/
noncomputable def central (q : Problem) (h t : ℝ) (u : ℕ → ℝ) (j : ℕ) : ℝ :=
  q.D t (j * h) * ((u (j + 1) - 2 * u j + u (j - 1)) / h ^ 2) +
    q.C t (j * h) * ((u (j + 1) - u (j - 1)) / (2 * h)) + q.R t (j * h) * u j - q.f t (j * h)

/-- The forward-time central-space scheme at the inner nodes, from time `t` to `t + k`. -/
def ForwardEuler (q : Problem) (J : ℕ) (h k t : ℝ) (old new : ℕ → ℝ) : Prop :=
  ∀ j, 1 ≤ j → j + 1 < J → (new j - old j) / k = central q h t old j

/-- The backward-time central-space scheme at the inner nodes, from time `t` to `t + k`. -/
def BackwardEuler (q : Problem) (J : ℕ) (h k t : ℝ) (old new : ℕ → ℝ) : Prop :=
  ∀ j, 1 ≤ j → j + 1 < J → (new j - old j) / k = central q h (t + k) new j

/-- The average of both, at the inner nodes. -/
def CrankNicolson (q : Problem) (J : ℕ) (h k t : ℝ) (old new : ℕ → ℝ) : Prop :=
  ∀ j, 1 ≤ j → j + 1 < J →
    (new j - old j) / k = 1 / 2 * central q h t old j + 1 / 2 * central q h (t + k) new j

/-- The boundary values prescribed for time `t`. -/
def BoundaryAt (q : Problem) (J : ℕ) (xDom t : ℝ) (u : ℕ → ℝ) : Prop :=
  u 0 = q.left t 0 ∧ u (J - 1) = q.right t xDom

/-- A solver that never returns anything but a solution. -/
def SoundSolver (solver : MatrixSolver ℝ) : Prop := ∀ A b x, solver A b = .ok x → Solves A b x

/-- A weaker demand: what the solver returns has the right size, and it is a solution when the system is
tridiagonal and strictly diagonally dominant. -/
structure DominantSolver (solver : MatrixSolver ℝ) : Prop where
  size : ∀ A b x, A.rows = A.cols → b.length = A.rows → solver A b = .ok x → x.length = b.length
  solves : ∀ A b x, Tridiagonal A → StrictlyDominant A → b.length = A.rows → solver A b = .ok x → Solves A b x

/-- The contract of the sparse LU decomposition of Eigen used here: `info()` reports an error, so that
`LUDecompositionSolver::solve` throws `runtime_error` (lu_decomposition.cpp:6-20), when a row of the
matrix is zero; and what it returns has the right size. -/
structure RejectsZeroRows (solver : MatrixSolver ℝ) : Prop where
  size : ∀ A b x, A.rows = A.cols → b.length = A.rows → solver A b = .ok x → x.length = b.length
  rejects : ∀ A b i, i < A.rows → (∀ j < A.cols, A.coeff i j = 0) → (solver A b).Throws .runtimeError

/-- The coefficients on the grid with spacing `h`: the diffusion dominates the convection, and the reaction is
not positive. -/
def DiffusionDominates (q : Problem) (J : ℕ) (h : ℝ) : Prop :=
  ∀ t j, 1 ≤ j → j + 1 < J → h * |q.C t (j * h)| ≤ 2 * q.D t (j * h) ∧ q.R t (j * h) ≤ 0

/-- A grid function with both boundary values replaced by 0. -/
def withoutEnds (J : ℕ) (u : ℕ → ℝ) (j : ℕ) : ℝ := if 1 ≤ j ∧ j + 1 < J then u j else 0

end Verif.Spec
