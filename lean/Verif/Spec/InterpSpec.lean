import Mathlib.Data.Real.Basic

/-!
# Interpolation on a grid
-/

namespace Verif.Spec

/-- `n` nodes with strictly increasing abscissae `xs` and values `ys`. -/
structure Nodes (xs ys : List ℝ) : Prop where
  nonempty : xs ≠ []
  increasing : ∀ (i j : ℕ) (a b : ℝ), i < j → xs[i]? = some a → xs[j]? = some b → a < b
  sameLength : ys.length = xs.length

/-- `(x, y)` is node number `i`. -/
def NodeAt (xs ys : List ℝ) (i : ℕ) (x y : ℝ) : Prop := xs[i]? = some x ∧ ys[i]? = some y

/-- `f` is constant to the left of the first and to the right of the last node. -/
structure Clamped (xs ys : List ℝ) (f : ℝ → ℝ) : Prop where
  left : ∀ x₀ y₀, NodeAt xs ys 0 x₀ y₀ → ∀ x, x ≤ x₀ → f x = y₀
  right : ∀ x₁ y₁, NodeAt xs ys (xs.length - 1) x₁ y₁ → ∀ x, x₁ ≤ x → f x = y₁

/-- `f` runs along the straight line between node `i` and the next one. -/
def LinearOn (xs ys : List ℝ) (i : ℕ) (f : ℝ → ℝ) : Prop :=
  ∀ x₁ y₁ x₂ y₂, NodeAt xs ys i x₁ y₁ → NodeAt xs ys (i + 1) x₂ y₂ →
    ∀ t, 0 ≤ t → t ≤ 1 → f (x₁ + t * (x₂ - x₁)) = y₁ + t * (y₂ - y₁)

/-- `f` is the piecewise linear interpolant of the nodes. -/
structure PiecewiseLinear (xs ys : List ℝ) (f : ℝ → ℝ) : Prop extends Clamped xs ys f where
  between : ∀ i, LinearOn xs ys i f

/-- Between node `i + 1` and the next one, `f` coincides with a parabola through these two nodes and
the one before. -/
def ParabolaOn (xs ys : List ℝ) (i : ℕ) (f : ℝ → ℝ) : Prop :=
  ∀ x₀ y₀ x₁ y₁ x₂ y₂, NodeAt xs ys i x₀ y₀ → NodeAt xs ys (i + 1) x₁ y₁ → NodeAt xs ys (i + 2) x₂ y₂ →
    ∃ a b c : ℝ, a * x₀ ^ 2 + b * x₀ + c = y₀ ∧ a * x₁ ^ 2 + b * x₁ + c = y₁ ∧ a * x₂ ^ 2 + b * x₂ + c = y₂ ∧
      ∀ x, x₁ ≤ x → x ≤ x₂ → f x = a * x ^ 2 + b * x + c

end Verif.Spec
