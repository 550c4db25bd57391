import Verif.Num.Res
import Verif.Num.Dbl

/-!
# Loops, vectors and conversions
-/

namespace Verif

/-- `std::numeric_limits<int>::max()` (32-bit `int`). -/
def INT_MAX : Nat := 2147483647

/-- `2^32`, the modulus of `unsigned int`. -/
def UINT_MOD : Nat := 4294967296

/-- `n - 1` for `unsigned int n`: wraps at 0. -/
def upred (n : Nat) : Nat := if n = 0 then UINT_MOD - 1 else n - 1

/-- `v[i]` on `std::vector`: out of range is undefined behaviour. -/
def vget {α : Type} (v : List α) (i : Nat) : Res α :=
  match v[i]? with
  | some a => .ok a
  | none => .ub

/-- `v.back()`: undefined behaviour on an empty vector. -/
def vback {α : Type} (v : List α) : Res α :=
  match v.getLast? with
  | some a => .ok a
  | none => .ub

namespace Eff
variable {σ α : Type}

/-- `k` iterations of a loop body that updates `a`. -/
def forN (body : α → Eff σ α) : Nat → α → Eff σ α
  | 0, a => pure a
  | k + 1, a => do let a' ← body a; forN body k a'

/-- `for (int i = 0; i < n; ++i)` with an unsigned `n`: when `n > INT_MAX`, the increment after
iteration `INT_MAX` overflows, which is undefined behaviour. -/
def forInt (body : α → Eff σ α) (n : Nat) (a : α) : Eff σ α := do
  let a' ← forN body (min n (INT_MAX + 1)) a
  if n ≤ INT_MAX then pure a' else Eff.lift .ub

/-- `k` iterations of a loop body that updates `a` and appends one element to a vector. -/
def unfoldN {β : Type} (body : α → Eff σ (α × β)) : Nat → α → Eff σ (List β)
  | 0, _ => pure []
  | k + 1, a => do
    let x ← body a
    let rest ← unfoldN body k x.1
    return x.2 :: rest

/-- The same in a `for (int t = 0; t < n; ++t)` loop with an unsigned `n`. -/
def unfoldInt {β : Type} (body : α → Eff σ (α × β)) (n : Nat) (a : α) : Eff σ (List β) := do
  let l ← unfoldN body (min n (INT_MAX + 1)) a
  if n ≤ INT_MAX then pure l else Eff.lift .ub

end Eff

/-- `static_cast<int>(x)`: truncation towards zero; `none` (undefined behaviour) when the truncated
value does not fit or `x` is NaN. -/
class FlInt (F : Type) where
  toInt : F → Option Int

/-- Truncation towards zero, if it fits into `int`. -/
noncomputable def truncInt (x : ℝ) : Option Int :=
  let n : Int := if 0 ≤ x then ⌊x⌋ else ⌈x⌉
  if -2147483648 ≤ n ∧ n ≤ 2147483647 then some n else none

noncomputable instance : FlInt ℝ where
  toInt := truncInt

noncomputable instance {R : Rounding} : FlInt (Dbl R) where
  toInt
    | .nan => none
    | .num ⊤ => none
    | .num ⊥ => none
    | .num (x : ℝ) => truncInt x

end Verif
