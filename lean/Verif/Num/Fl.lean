import Mathlib.Analysis.SpecialFunctions.Log.Basic
import Mathlib.Analysis.SpecialFunctions.Sqrt
import Mathlib.Analysis.SpecialFunctions.Exp

/-!
# The interface to `double`

The model of the numeric code is generic in a type `F` with `+ - * / -` and the class `Fl`.
Instances: `ℝ` (exact arithmetic, this file), `Dbl R` (NaN, infinities, arbitrary rounding,
`Verif/Num/Dbl.lean`) and Lean's `Float` (binary64, executable, this file).
-/

namespace Verif

/-- The operations on `double` used by `/repo` other than the four arithmetic operations.
`lt`, `le`, `eqb` are the C++ operators `<`, `<=`, `==`; `lit q` is the literal or converted integer
`q`; the others are the `<cmath>` functions. -/
class Fl (F : Type) where
  lit : ℚ → F
  exp : F → F
  log : F → F
  sqrt : F → F
  fabs : F → F
  lt : F → F → Bool
  le : F → F → Bool
  eqb : F → F → Bool

export Fl (lit)

/-- Positive infinity (`std::numeric_limits<double>::infinity()`); `ℝ` has no instance. -/
class FlInf (F : Type) where
  inf : F

section
variable {F : Type} [Fl F]

/-- `a > b` -/
def Fl.gt (a b : F) : Bool := Fl.lt b a
/-- `a >= b` -/
def Fl.ge (a b : F) : Bool := Fl.le b a
/-- `std::max(a, b)`: `(a < b) ? b : a` (so a NaN first argument is returned). -/
def Fl.max (a b : F) : F := if Fl.lt a b then b else a
/-- `std::min(a, b)`: `(b < a) ? b : a`. -/
def Fl.min (a b : F) : F := if Fl.lt b a then b else a
end

noncomputable instance : Fl ℝ where
  lit q := (q : ℝ)
  exp := Real.exp
  log := Real.log
  sqrt := Real.sqrt
  fabs x := |x|
  lt a b := decide (a < b)
  le a b := decide (a ≤ b)
  eqb a b := decide (a = b)

namespace Fl
@[simp] theorem lit_real (q : ℚ) : (lit q : ℝ) = (q : ℝ) := rfl
@[simp] theorem exp_real (x : ℝ) : Fl.exp x = Real.exp x := rfl
@[simp] theorem log_real (x : ℝ) : Fl.log x = Real.log x := rfl
@[simp] theorem sqrt_real (x : ℝ) : Fl.sqrt x = Real.sqrt x := rfl
@[simp] theorem fabs_real (x : ℝ) : Fl.fabs x = |x| := rfl
@[simp] theorem lt_real (a b : ℝ) : (Fl.lt a b = true) ↔ a < b := by simp [Fl.lt]
@[simp] theorem le_real (a b : ℝ) : (Fl.le a b = true) ↔ a ≤ b := by simp [Fl.le]
@[simp] theorem eqb_real (a b : ℝ) : (Fl.eqb a b = true) ↔ a = b := by simp [Fl.eqb]
@[simp] theorem gt_real (a b : ℝ) : (Fl.gt a b = true) ↔ b < a := by simp [Fl.gt]
@[simp] theorem ge_real (a b : ℝ) : (Fl.ge a b = true) ↔ b ≤ a := by simp [Fl.ge]
@[simp] theorem lt_real_false (a b : ℝ) : (Fl.lt a b = false) ↔ b ≤ a := by simp [Fl.lt]
@[simp] theorem le_real_false (a b : ℝ) : (Fl.le a b = false) ↔ b < a := by simp [Fl.le]
@[simp] theorem eqb_real_false (a b : ℝ) : (Fl.eqb a b = false) ↔ a ≠ b := by simp [Fl.eqb]
@[simp] theorem gt_real_false (a b : ℝ) : (Fl.gt a b = false) ↔ a ≤ b := by simp [Fl.gt]
@[simp] theorem ge_real_false (a b : ℝ) : (Fl.ge a b = false) ↔ a < b := by simp [Fl.ge]
@[simp] theorem max_real (a b : ℝ) : Fl.max a b = Max.max a b := by
  unfold Fl.max; split <;> rename_i h
  · rw [lt_real] at h; exact (max_eq_right h.le).symm
  · rw [lt_real] at h; exact (max_eq_left (not_lt.mp h)).symm
@[simp] theorem min_real (a b : ℝ) : Fl.min a b = Min.min a b := by
  unfold Fl.min; split <;> rename_i h
  · rw [lt_real] at h; exact (min_eq_right h.le).symm
  · rw [lt_real] at h; exact (min_eq_left (not_lt.mp h)).symm
end Fl

/-- The executable instance: binary64 as implemented by Lean's `Float`.  No theorem uses it. -/
instance : Fl Float where
  lit q := Float.ofInt q.num / Float.ofNat q.den
  exp := Float.exp
  log := Float.log
  sqrt := Float.sqrt
  fabs := Float.abs
  lt a b := a < b
  le a b := a ≤ b
  eqb a b := a == b

instance : FlInf Float where
  inf := 1.0 / 0.0

end Verif
