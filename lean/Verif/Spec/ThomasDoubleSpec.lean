import Verif.Spec.LinearSystem
import Verif.Num.Binary64

/-!
# Linear systems in double precision

From the model only the types `Mat`, `List` and the doubles are used.
-/

namespace Verif.Spec
open Finset

/-- By how much the diagonal entry of row `i` exceeds the rest of the row. -/
noncomputable def slack (A : Mat ℝ) (i : ℕ) : ℝ := |A.coeff i i| - ∑ j ∈ (range A.cols).erase i, |A.coeff i j|

/-- The sizes of a system: the diagonal is at most `U` and exceeds the rest of its row by at least `L`; the right hand side of row `i` is at most `W` times the
excess of row `i`, so that the solution is at most `W`.  The ratio `U / L` may be as large as `2⁴³`, and nothing is so large or so small that a double overflows or
loses its precision. -/
structure Scaled (A : Mat ℝ) (b : List ℝ) (U L W : ℝ) : Prop where
  diagonal : ∀ i < A.rows, |A.coeff i i| ≤ U
  dominant : ∀ i < A.rows, L ≤ slack A i
  rhs : ∀ i < A.rows, |entry b i| ≤ W * slack A i
  ratio : U ≤ 2 ^ 43 * L
  largeU : U ≤ 2 ^ 500
  smallL : 1 / 2 ^ 500 ≤ L
  largeW : W ≤ 2 ^ 500
  smallW : 1 / 2 ^ 500 ≤ W

/-- The numbers as doubles. -/
def asDoubles (b : List ℝ) : List (Dbl .binary64) := b.map fun z : ℝ => .num (z : EReal)

/-- `A'` and `b'` hold the numbers of `A` and `b`. -/
structure InDoubles (A : Mat ℝ) (b : List ℝ) (A' : Mat (Dbl .binary64)) (b' : List (Dbl .binary64)) : Prop where
  rows : A'.rows = A.rows
  cols : A'.cols = A.cols
  coeff : ∀ i j, i < A.rows → j < A.cols → A'.coeff i j = .num (A.coeff i j : EReal)
  rhs : b' = asDoubles b

/-- How far the entries of `x` are from satisfying row `i`. -/
noncomputable def defect (A : Mat ℝ) (b x : List ℝ) (i : ℕ) : ℝ := |∑ j ∈ range A.cols, A.coeff i j * entry x j - entry b i|

end Verif.Spec
