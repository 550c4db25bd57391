import Verif.Model.Control

/-!
# Matrices and linear solvers (`/repo/src/numerical_analysis/linear_algebra`)

Eigen itself is not part of /repo.  A matrix is its size and its coefficients; a vector is a list.
-/

namespace Verif

/-- `Eigen::SparseMatrix<double>` and `Eigen::MatrixXd`: sizes and coefficients.  `coeff` outside the
sizes has no meaning; `thomas` checks the sizes. -/
structure Mat (F : Type) where
  rows : Nat
  cols : Nat
  coeff : Nat → Nat → F

namespace Mat
variable {F : Type} [Fl F] [Add F]

/-- The value at `(i, j)` of a list of triplets: duplicates are summed in order, no triplet means 0. -/
def tripletValue (ts : List (Nat × Nat × F)) (i j : Nat) : F :=
  match (ts.filter fun t => t.1 == i && t.2.1 == j).map (·.2.2) with
  | [] => lit 0
  | v :: vs => vs.foldl (· + ·) v

/-- `A.setFromTriplets(...)` on a matrix of the given size (Eigen): an index out of range is undefined
behaviour. -/
def ofTriplets (rows cols : Nat) (ts : List (Nat × Nat × F)) : Res (Mat F) :=
  if ts.all fun t => decide (t.1 < rows) && decide (t.2.1 < cols) then .ok ⟨rows, cols, tripletValue ts⟩ else .ub

end Mat

/-- A `MatrixSolver` object (base_matrix_solver.h): `solve(A, b)`.  `LUDecompositionSolver` and
`PartialPivotingLUSolver` only call Eigen, so they are arbitrary functions of this type (with
contracts where a theorem needs them); the Thomas algorithm is `thomas` below. -/
abbrev MatrixSolver (F : Type) := Mat F → List F → Res (List F)

namespace Thomas
variable {F : Type} [Add F] [Sub F] [Mul F] [Div F]

/-- `cStar[i]` and `dStar[i]` of the forward sweep (thomas_algorithm.cpp:21-29) for `i < n-1`; `sub i`
is `a[i]`, `diag i` is `bDiag[i]`, `sup i` is `c[i]` (lines 11-18).  The arrays are functions of the
index here. -/
def sweep (sub diag sup b : Nat → F) : Nat → F × F
  | 0 => (sup 0 / diag 0, b 0 / diag 0)
  | i + 1 =>
    let m := diag (i + 1) - sub i * (sweep sub diag sup b i).1
    (sup (i + 1) / m, (b (i + 1) - sub i * (sweep sub diag sup b i).2) / m)

/-- `dStar[n-1]` (thomas_algorithm.cpp:30-31) for `n = l + 2`. -/
def last (sub diag sup b : Nat → F) (l : Nat) : F :=
  (b (l + 1) - sub l * (sweep sub diag sup b l).2) / (diag (l + 1) - sub l * (sweep sub diag sup b l).1)

/-- Back substitution (thomas_algorithm.cpp:34-38) for `n = l + 2`: `back k` is `x[n-1-k]`. -/
def back (sub diag sup b : Nat → F) (l : Nat) : Nat → F
  | 0 => last sub diag sup b l
  | k + 1 => (sweep sub diag sup b (l - k)).2 - (sweep sub diag sup b (l - k)).1 * back sub diag sup b l k

end Thomas

/-- `ThomasAlgorithm::solve` (thomas_algorithm.cpp:5-41).  Undefined behaviour: a matrix with fewer columns
than rows or a `b` that is too short (reads out of range); more than 2^31 + 1 rows (the `int` index of
line 36 does not hold `n-2`, part of `x` stays uninitialised). -/
def thomas {F : Type} [Fl F] [Add F] [Sub F] [Mul F] [Div F] : MatrixSolver F := fun A b =>
  if A.rows < 2 then invalidArg "Matrix size must be at least 2x2 for Thomas Algorithm."
  else if A.cols < A.rows ∨ b.length < A.rows ∨ INT_MAX < A.rows - 2 then .ub
  else
    let x := Thomas.back (fun i => A.coeff (i + 1) i) (fun i => A.coeff i i) (fun i => A.coeff i (i + 1))
      (fun i => b.getD i (lit 0)) (A.rows - 2)
    .ok ((List.range A.rows).map fun i => x (A.rows - 1 - i))

end Verif
