import Mathlib.Data.EReal.Operations
import Mathlib.Data.EReal.Inv
import Verif.Num.Fl

/-!
# Doubles with NaN, infinities and an arbitrary rounding

`Dbl R` is NaN or an extended real.  Each arithmetic operation computes the exact extended-real
result and rounds it with `R`; invalid operations give NaN; comparisons follow IEEE 754.

Simplifications: a single zero (so `x / 0` takes the sign of `x`), no NaN payloads, no flags.
-/

namespace Verif

/-- A rounding of the reals to a floating-point format, and a math library.  Only facts that hold
for round-to-nearest binary64 and usual math libraries are required: the rounding is monotone, odd,
exact at 0 and 1 and may overflow to `⊤`/`⊥`; `exp` is never negative nor NaN, `exp 0 = 1` and
`exp x ≤ 1` for `x ≤ 0`; `log` is never NaN on positive numbers and `log 1 = 0`. -/
structure Rounding where
  rnd : ℝ → EReal
  mono : Monotone rnd
  zero : rnd 0 = 0
  one : rnd 1 = 1
  neg : ∀ x, rnd (-x) = - rnd x
  expF : ℝ → EReal
  exp_nonneg : ∀ x, 0 ≤ expF x
  exp_zero : expF 0 = 1
  exp_le_one : ∀ x, x ≤ 0 → expF x ≤ 1
  logF : ℝ → EReal
  log_one : logF 1 = 0

namespace Rounding

/-- Exact arithmetic is a `Rounding`. -/
noncomputable def exact : Rounding where
  rnd x := (x : EReal)
  mono := fun _ _ h => EReal.coe_le_coe_iff.mpr h
  zero := rfl
  one := rfl
  neg x := by simp
  expF x := (Real.exp x : EReal)
  exp_nonneg x := by exact_mod_cast (Real.exp_pos x).le
  exp_zero := by simp
  exp_le_one x hx := by exact_mod_cast Real.exp_le_one_iff.mpr hx
  logF x := (Real.log x : EReal)
  log_one := by simp

/-- The rounding extended to infinite values, which are kept. -/
noncomputable def rndE (R : Rounding) : EReal → EReal
  | ⊥ => ⊥
  | ⊤ => ⊤
  | (x : ℝ) => R.rnd x

variable (R : Rounding)
@[simp] theorem rndE_top : R.rndE ⊤ = ⊤ := rfl
@[simp] theorem rndE_bot : R.rndE ⊥ = ⊥ := rfl
@[simp] theorem rndE_coe (x : ℝ) : R.rndE (x : EReal) = R.rnd x := rfl
@[simp] theorem rndE_zero : R.rndE 0 = 0 := R.zero
@[simp] theorem rndE_one : R.rndE 1 = 1 := R.one

theorem rndE_mono : Monotone R.rndE := by
  intro a b h
  induction a with
  | bot => exact bot_le
  | top => rw [top_le_iff.mp h]
  | coe x =>
    induction b with
    | bot => simp at h
    | top => exact le_top
    | coe y => exact R.mono (EReal.coe_le_coe_iff.mp h)

theorem rndE_nonneg {e : EReal} (h : 0 ≤ e) : 0 ≤ R.rndE e := by
  have := R.rndE_mono h; rwa [rndE_zero] at this

theorem rndE_nonpos {e : EReal} (h : e ≤ 0) : R.rndE e ≤ 0 := by
  have := R.rndE_mono h; rwa [rndE_zero] at this

@[simp] theorem rndE_neg (e : EReal) : R.rndE (-e) = - R.rndE e := by
  induction e with
  | bot => simp
  | top => simp
  | coe x =>
    rw [← EReal.coe_neg, rndE_coe, rndE_coe, R.neg]

@[simp] theorem rnd_exact (x : ℝ) : exact.rnd x = (x : EReal) := rfl
@[simp] theorem rndE_exact (e : EReal) : exact.rndE e = e := by
  induction e <;> rfl
end Rounding

/-- A double: NaN or an extended real. -/
inductive Dbl (R : Rounding)
  | nan
  | num (e : EReal)

namespace Dbl
open Classical
variable {R : Rounding}

/-- A finite value. -/
def ofReal (R : Rounding) (x : ℝ) : Dbl R := num (x : EReal)

noncomputable instance : Neg (Dbl R) where
  neg | nan => nan
      | num a => num (-a)

noncomputable instance : Add (Dbl R) where
  add
    | num a, num b =>
      if (a = ⊤ ∧ b = ⊥) ∨ (a = ⊥ ∧ b = ⊤) then nan else num (R.rndE (a + b))
    | _, _ => nan

noncomputable instance : Sub (Dbl R) where
  sub a b := a + (-b)

noncomputable instance : Mul (Dbl R) where
  mul
    | num a, num b =>
      if (a = 0 ∧ (b = ⊤ ∨ b = ⊥)) ∨ (b = 0 ∧ (a = ⊤ ∨ a = ⊥)) then nan
      else num (R.rndE (a * b))
    | _, _ => nan

noncomputable instance : Div (Dbl R) where
  div
    | num a, num b =>
      if b = 0 then (if a = 0 then nan else if 0 < a then num ⊤ else num ⊥)
      else if (a = ⊤ ∨ a = ⊥) ∧ (b = ⊤ ∨ b = ⊥) then nan
      else num (R.rndE (a / b))
    | _, _ => nan

/-- `exp` of a double: limits at the infinities. -/
noncomputable def exp : Dbl R → Dbl R
  | nan => nan
  | num ⊥ => num 0
  | num ⊤ => num ⊤
  | num (x : ℝ) => num (R.expF x)

/-- `log` of a double: NaN below 0, `-∞` at 0. -/
noncomputable def log : Dbl R → Dbl R
  | nan => nan
  | num ⊥ => nan
  | num ⊤ => num ⊤
  | num (x : ℝ) => if x < 0 then nan else if x = 0 then num ⊥ else num (R.logF x)

/-- `sqrt` of a double: NaN below 0, correctly rounded otherwise. -/
noncomputable def sqrt : Dbl R → Dbl R
  | nan => nan
  | num ⊥ => nan
  | num ⊤ => num ⊤
  | num (x : ℝ) => if x < 0 then nan else num (R.rnd (Real.sqrt x))

/-- `fabs` of a double. -/
noncomputable def fabs : Dbl R → Dbl R
  | nan => nan
  | num e => num (Max.max e (-e))

/-- C++ `<`: false if an operand is NaN. -/
noncomputable def ltb : Dbl R → Dbl R → Bool
  | num a, num b => decide (a < b)
  | _, _ => false

/-- C++ `<=`: false if an operand is NaN. -/
noncomputable def leb : Dbl R → Dbl R → Bool
  | num a, num b => decide (a ≤ b)
  | _, _ => false

/-- C++ `==`: false if an operand is NaN. -/
noncomputable def eqb : Dbl R → Dbl R → Bool
  | num a, num b => decide (a = b)
  | _, _ => false

noncomputable instance : Fl (Dbl R) where
  lit q := num (R.rnd (q : ℝ))
  exp := exp
  log := log
  sqrt := sqrt
  fabs := fabs
  lt := ltb
  le := leb
  eqb := eqb

noncomputable instance : FlInf (Dbl R) where
  inf := num ⊤

/-- The value is an extended real `≥ 0` (in particular not NaN). -/
def Nonneg : Dbl R → Prop
  | nan => False
  | num e => 0 ≤ e

@[simp] theorem nonneg_num (e : EReal) : Nonneg (num e : Dbl R) ↔ 0 ≤ e := Iff.rfl
@[simp] theorem nonneg_nan : ¬ Nonneg (nan : Dbl R) := id

@[simp] theorem neg_num (a : EReal) : -(num a : Dbl R) = num (-a) := rfl
@[simp] theorem neg_nan : -(nan : Dbl R) = nan := rfl
theorem add_num (a b : EReal) : (num a + num b : Dbl R) =
  if (a = ⊤ ∧ b = ⊥) ∨ (a = ⊥ ∧ b = ⊤) then nan else num (R.rndE (a + b)) := rfl
theorem sub_def (a b : Dbl R) : a - b = a + (-b) := rfl
theorem mul_num (a b : EReal) : (num a * num b : Dbl R) =
  if (a = 0 ∧ (b = ⊤ ∨ b = ⊥)) ∨ (b = 0 ∧ (a = ⊤ ∨ a = ⊥)) then nan
      else num (R.rndE (a * b)) := rfl
theorem div_num (a b : EReal) : (num a / num b : Dbl R) =
  if b = 0 then (if a = 0 then nan else if 0 < a then num ⊤ else num ⊥)
      else if (a = ⊤ ∨ a = ⊥) ∧ (b = ⊤ ∨ b = ⊥) then nan
      else num (R.rndE (a / b)) := rfl
@[simp] theorem nan_add (a : Dbl R) : nan + a = nan := by cases a <;> rfl
@[simp] theorem add_nan (a : Dbl R) : a + nan = nan := by cases a <;> rfl
@[simp] theorem nan_sub (a : Dbl R) : nan - a = nan := by cases a <;> rfl
@[simp] theorem sub_nan (a : Dbl R) : a - nan = nan := by cases a <;> rfl
@[simp] theorem nan_mul (a : Dbl R) : nan * a = nan := by cases a <;> rfl
@[simp] theorem mul_nan (a : Dbl R) : a * nan = nan := by cases a <;> rfl
@[simp] theorem nan_div (a : Dbl R) : nan / a = nan := by cases a <;> rfl
@[simp] theorem div_nan (a : Dbl R) : a / nan = nan := by cases a <;> rfl

theorem lit_def (q : ℚ) : (lit q : Dbl R) = num (R.rnd (q : ℝ)) := rfl
@[simp] theorem lit_zero : (lit 0 : Dbl R) = num 0 := by simp [lit_def, R.zero]
@[simp] theorem lit_one : (lit 1 : Dbl R) = num 1 := by simp [lit_def, R.one]

@[simp] theorem lt_num (a b : EReal) : (Fl.lt (num a : Dbl R) (num b) = true) ↔ a < b := by
  simp [Fl.lt, ltb]
@[simp] theorem le_num (a b : EReal) : (Fl.le (num a : Dbl R) (num b) = true) ↔ a ≤ b := by
  simp [Fl.le, leb]
@[simp] theorem eqb_num (a b : EReal) : (Fl.eqb (num a : Dbl R) (num b) = true) ↔ a = b := by
  simp [Fl.eqb, eqb]
@[simp] theorem lt_num_false (a b : EReal) : (Fl.lt (num a : Dbl R) (num b) = false) ↔ b ≤ a := by
  simp [Fl.lt, ltb]
@[simp] theorem le_num_false (a b : EReal) : (Fl.le (num a : Dbl R) (num b) = false) ↔ b < a := by
  simp [Fl.le, leb]
@[simp] theorem eqb_num_false (a b : EReal) :
    (Fl.eqb (num a : Dbl R) (num b) = false) ↔ a ≠ b := by
  simp [Fl.eqb, eqb]
@[simp] theorem gt_num (a b : EReal) : (Fl.gt (num a : Dbl R) (num b) = true) ↔ b < a := lt_num b a
@[simp] theorem ge_num (a b : EReal) : (Fl.ge (num a : Dbl R) (num b) = true) ↔ b ≤ a := le_num b a
@[simp] theorem nan_lt (a : Dbl R) : Fl.lt nan a = false := by cases a <;> rfl
@[simp] theorem lt_nan (a : Dbl R) : Fl.lt a nan = false := by cases a <;> rfl
@[simp] theorem nan_le (a : Dbl R) : Fl.le nan a = false := by cases a <;> rfl
@[simp] theorem le_nan (a : Dbl R) : Fl.le a nan = false := by cases a <;> rfl
@[simp] theorem nan_eqb (a : Dbl R) : Fl.eqb nan a = false := by cases a <;> rfl
@[simp] theorem eqb_nan (a : Dbl R) : Fl.eqb a nan = false := by cases a <;> rfl
@[simp] theorem nan_gt (a : Dbl R) : Fl.gt nan a = false := by cases a <;> rfl
@[simp] theorem gt_nan (a : Dbl R) : Fl.gt a nan = false := by cases a <;> rfl
@[simp] theorem nan_ge (a : Dbl R) : Fl.ge nan a = false := by cases a <;> rfl
@[simp] theorem ge_nan (a : Dbl R) : Fl.ge a nan = false := by cases a <;> rfl

@[simp] theorem max_num (a b : EReal) : Fl.max (num a : Dbl R) (num b) = num (Max.max a b) := by
  unfold Fl.max; split <;> rename_i h
  · rw [lt_num] at h; rw [max_eq_right h.le]
  · rw [lt_num] at h; rw [max_eq_left (not_lt.mp h)]
@[simp] theorem min_num (a b : EReal) : Fl.min (num a : Dbl R) (num b) = num (Min.min a b) := by
  unfold Fl.min; split <;> rename_i h
  · rw [lt_num] at h; rw [min_eq_right h.le]
  · rw [lt_num] at h; rw [min_eq_left (not_lt.mp h)]
@[simp] theorem max_nan (a : Dbl R) : Fl.max a nan = a := by simp [Fl.max]
@[simp] theorem nan_max (a : Dbl R) : Fl.max nan a = nan := by simp [Fl.max]
@[simp] theorem min_nan (a : Dbl R) : Fl.min a nan = a := by simp [Fl.min]
@[simp] theorem nan_min (a : Dbl R) : Fl.min nan a = nan := by simp [Fl.min]

@[simp] theorem exp_nan : Fl.exp (nan : Dbl R) = nan := rfl
@[simp] theorem exp_top : Fl.exp (num ⊤ : Dbl R) = num ⊤ := rfl
@[simp] theorem exp_bot : Fl.exp (num ⊥ : Dbl R) = num 0 := rfl
@[simp] theorem exp_coe (x : ℝ) : Fl.exp (num (x : EReal) : Dbl R) = num (R.expF x) := rfl

theorem nonneg_exp {x : Dbl R} (h : x ≠ nan) : Nonneg (Fl.exp x) := by
  cases x with
  | nan => exact absurd rfl h
  | num e => induction e <;> simp [R.exp_nonneg]

theorem nonneg_add {a b : Dbl R} (ha : Nonneg a) (hb : Nonneg b) : Nonneg (a + b) := by
  cases a with
  | nan => exact ha.elim
  | num a =>
    cases b with
    | nan => exact hb.elim
    | num b =>
      rw [add_num, if_neg]
      · exact R.rndE_nonneg (add_nonneg ha hb)
      · rintro (⟨-, rfl⟩ | ⟨rfl, -⟩)
        · simp at hb
        · simp at ha

/-- Exact sums, differences, products and quotients of finite numbers in exact arithmetic. -/
theorem exact_add (a b : ℝ) :
    (ofReal .exact a + ofReal .exact b) = ofReal .exact (a + b) := by
  show (num (a : EReal) + num (b : EReal) : Dbl .exact) = _
  rw [add_num]; simp [ofReal]
theorem exact_sub (a b : ℝ) :
    (ofReal .exact a - ofReal .exact b) = ofReal .exact (a - b) := by
  show (num (a : EReal) + num (-(b : EReal)) : Dbl .exact) = _
  rw [← EReal.coe_neg, add_num]; simp [ofReal, sub_eq_add_neg]

end Dbl
end Verif
