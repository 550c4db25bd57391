import Verif.Model.LinearAlgebra
import Verif.Model.American

/-!
# Basis functions and regression (`/repo/src/numerical_analysis/basis_function`, `.../regression`)
-/

namespace Verif

/-- `std::pow(x, n)` with an integer exponent `n >= 0`; used by the monomial basis only. -/
class FlPow (F : Type) where
  powi : F → Nat → F

noncomputable instance : FlPow ℝ where
  powi x n := x ^ n

/-- The `BasisFunction` classes (include/numerical_analysis/basis_function/*.h). -/
inductive BasisKind
  | monomial
  | chebyshev
  | legendre
  | laguerre
  deriving DecidableEq, Repr

namespace BasisKind

/-- `BasisFunction::BasisFunction` (base_basis_function.cpp:5-8); the object is its class and
`numberBasis_`. -/
def construct (k : BasisKind) (numberBasis : Nat) : Res (BasisKind × Nat) :=
  if numberBasis = 0 then invalidArg "Number of basis functions must be positive" else .ok (k, numberBasis)

variable {F : Type} [Fl F] [Add F] [Sub F] [Mul F] [Div F] [FlPow F]

/-- Chebyshev columns at one point (chebyshev.cpp:9-17). -/
def chebyshevCol (x : F) : Nat → F
  | 0 => lit 1
  | 1 => x
  | n + 2 => lit 2 * x * chebyshevCol x (n + 1) - chebyshevCol x n

/-- Legendre columns at one point (legendre.cpp:9-17): column `n` from `n-1` and `n-2`, with integer
factors `2*(n-1)+1`, `n-1` and `n`. -/
def legendreCol (x : F) : Nat → F
  | 0 => lit 1
  | 1 => x
  | n + 2 => (lit (2 * (n + 1 : ℕ) + 1 : ℕ) * x * legendreCol x (n + 1) - lit (n + 1 : ℕ) * legendreCol x n) / lit (n + 2 : ℕ)

/-- Laguerre columns at one point (laguerre.cpp:9-17); column 1 is `x`. -/
def laguerreCol (x : F) : Nat → F
  | 0 => lit 1
  | 1 => x
  | n + 2 => ((lit (2 * (n + 1 : ℕ) + 1 : ℕ) - x) * laguerreCol x (n + 1) - lit (n + 1 : ℕ) * laguerreCol x n) / lit (n + 2 : ℕ)

/-- The entry of column `n` for the point `x`; monomial.cpp:9-11 for the monomials. -/
def col : BasisKind → F → Nat → F
  | monomial, x, n => FlPow.powi x n
  | chebyshev, x, n => chebyshevCol x n
  | legendre, x, n => legendreCol x n
  | laguerre, x, n => laguerreCol x n

/-- The largest `numberBasis_` for which the `int` loop counter, and `2*(n-1)+1` for Legendre and
Laguerre, do not overflow. -/
def maxBasis : BasisKind → Nat
  | monomial => INT_MAX
  | chebyshev => INT_MAX
  | legendre => 1073741825
  | laguerre => 1073741825

/-- `generate(x)` (monomial.cpp:7-13, chebyshev.cpp:7-20, legendre.cpp:7-20, laguerre.cpp:7-20), as a
list of rows.  Eigen evaluates the array expressions element by element. -/
def generate (k : BasisKind) (numberBasis : Nat) (xs : List F) : Res (List (List F)) :=
  if k.maxBasis < numberBasis then .ub
  else .ok (xs.map fun x => (List.range numberBasis).map fun n => k.col x n)

end BasisKind

/-- The Eigen solvers used by the regressions (not part of /repo, hence arbitrary):
`A.jacobiSvd(ComputeThinU | ComputeThinV).solve(y)` and `M.ldlt().solve(r)`. -/
structure EigenSolvers (F : Type) where
  svdSolve : Mat F → List F → Res (List F)
  ldltSolve : Mat F → List F → Res (List F)

/-- The `Regression` classes and their members (include/numerical_analysis/regression/*.h). -/
inductive Regression (F : Type)
  | leastSquares
  | lasso (lambda : F)
  | ridge (lambda : F)
  deriving DecidableEq, Repr

namespace Regression
variable {F : Type} [Fl F] [Add F] [Sub F] [Mul F] [Neg F]

/-- `LassoRegression::LassoRegression` (lasso.cpp:5-8). -/
def mkLasso (lambda : F) : Res (Regression F) :=
  if Fl.lt lambda (lit 0) then invalidArg "Regularization parameter lambda must be non-negative" else .ok (lasso lambda)

/-- `RidgeRegression::RidgeRegression` (ridge.cpp:5-8). -/
def mkRidge (lambda : F) : Res (Regression F) :=
  if Fl.lt lambda (lit 0) then invalidArg "Regularization parameter lambda must be non-negative" else .ok (ridge lambda)

/-- The soft threshold (lasso.cpp:16). -/
def softThreshold (lambda beta : F) : F :=
  Fl.max (lit 0) (beta - lambda) - Fl.max (lit 0) (-beta - lambda)

/-- A sum of `n` terms, from the left (simplification: Eigen may add in another order). -/
def sumN (n : Nat) (f : Nat → F) : F := (List.range n).foldl (fun acc i => acc + f i) (lit 0)

/-- `A.transpose() * A + lambda_ * I` (ridge.cpp:14-15). -/
def gram (lambda : F) (A : Mat F) : Mat F :=
  ⟨A.cols, A.cols, fun p q => sumN A.rows (fun i => A.coeff i p * A.coeff i q) + lambda * (if p = q then lit 1 else lit 0)⟩

/-- `A.transpose() * vY` (ridge.cpp:15). -/
def moment (A : Mat F) (y : List F) : List F :=
  (List.range A.cols).map fun p => sumN A.rows fun i => A.coeff i p * y.getD i (lit 0)

/-- `Regression::solve` (least_squares.cpp:7-9, lasso.cpp:12-18, ridge.cpp:12-16).  A `vY` of another size
than `A` is undefined behaviour. -/
def solve (e : EigenSolvers F) : Regression F → Mat F → List F → Res (List F)
  | leastSquares, A, y => if y.length = A.rows then e.svdSolve A y else .ub
  | lasso lambda, A, y => if y.length = A.rows then do
      let betaLS ← e.svdSolve A y
      return betaLS.map (softThreshold lambda)
    else .ub
  | ridge lambda, A, y => if y.length = A.rows then e.ldltSolve (gram lambda A) (moment A y) else .ub

end Regression

section
variable {F : Type} [Fl F] [Add F] [Sub F] [Mul F] [Div F] [Neg F] [FlPow F]

/-- The matrix with the given rows (at least one). -/
def Mat.ofRows (rows : List (List F)) : Mat F :=
  ⟨rows.length, (rows.headD []).length, fun i j => (rows.getD i []).getD j (lit 0)⟩

/-- The strategies of the American pricer (mc_american.h) with the classes of /repo. -/
def lsmcOf (e : EigenSolvers F) (k : BasisKind) (numberBasis : Nat) (r : Regression F) : Lsmc F where
  generate := k.generate numberBasis
  solve rows y := r.solve e (Mat.ofRows rows) y

end
end Verif
