import Verif.Model.Control

/-!
# Interpolation (`/repo/src/numerical_analysis/interpolation`)
-/

namespace Verif

/-- `v.front()`: undefined behaviour on an empty vector. -/
def vfront {α : Type} (v : List α) : Res α :=
  match v.head? with
  | some a => .ok a
  | none => .ub

namespace Interp
variable {F : Type} [Fl F] [Add F] [Sub F] [Mul F] [Div F]

/-- `y1 + (x-x1) * (y2-y1) / (x2-x1)` (linear_interpolation.cpp:19,
quadratic_interpolation.cpp:53). -/
def line (x1 y1 x2 y2 x : F) : F := y1 + (x - x1) * (y2 - y1) / (x2 - x1)

/-- The loop of `LinearInterpolation::interpolate` (linear_interpolation.cpp:13-22): `todo`
iterations are left, the next index is `i`.  (`i` is at least 1.) -/
def linearScan (xs ys : List F) (x : F) : Nat → Nat → Res F
  | 0, _ => .throw ⟨.runtimeError, "Interpolation error: Price not within grid range."⟩
  | todo + 1, i => do
    let xi ← vget xs i
    if Fl.lt x xi then
      let x1 ← vget xs (i - 1)
      let x2 ← vget xs i
      let y1 ← vget ys (i - 1)
      let y2 ← vget ys i
      return line x1 y1 x2 y2 x
    else linearScan xs ys x todo (i + 1)

/-- `LinearInterpolation::interpolate` (linear_interpolation.cpp:5-23). -/
def linear (xs ys : List F) (x : F) : Res F := do
  let front ← vfront xs
  if Fl.le x front then vfront ys
  else
    let back ← vback xs
    if Fl.ge x back then vback ys
    else linearScan xs ys x (xs.length - 1) 1

/-- The test `xValues[mid] <= target && target <= xValues[mid+1]` (quadratic_interpolation.cpp:33);
`mid+1` is computed modulo 2^32; the second element is read only when the first comparison holds. -/
def inInterval (xs : List F) (x : F) (mid : Nat) : Res Bool := do
  let a ← vget xs mid
  if Fl.le a x then
    let b ← vget xs ((mid + 1) % UINT_MOD)
    return Fl.le x b
  else return false

/-- The loop of `QuadraticInterpolation::findInterval` (quadratic_interpolation.cpp:31-39) with
`unsigned int` (32 bit) `low` and `high`; `mid = low + (high - low) / 2` does not wrap because
`low <= high`.  The loop has no side effects and fewer than 2^64 states, so a run of more than 2^64
iterations never ends, which is undefined behaviour (C++ forward progress). -/
def findLoop (xs : List F) (x : F) : Nat → Nat → Nat → Res Nat
  | 0, _, _ => .ub
  | fuel + 1, low, high =>
    if low ≤ high then do
      let mid := low + (high - low) / 2
      let found ← inInterval xs x mid
      if found then return mid
      else
        let a ← vget xs mid
        if Fl.lt a x then findLoop xs x fuel ((mid + 1) % UINT_MOD) high
        else findLoop xs x fuel low (upred mid)
    else .throw ⟨.runtimeError, "Interpolation error: Could not find appropriate interval."⟩

/-- `QuadraticInterpolation::findInterval` (quadratic_interpolation.cpp:26-42): `xValues.size() - 1` is a
`size_t` (64 bit), converted to `unsigned int`.  (The vector is not empty here.) -/
def findInterval (xs : List F) (x : F) : Res Nat :=
  findLoop xs x (2 ^ 64 + 1) 0 ((xs.length - 1) % UINT_MOD)

/-- `QuadraticInterpolation::linearInterpolation` (quadratic_interpolation.cpp:44-54). -/
def quadLine (xs ys : List F) (x : F) (k : Nat) : Res F := do
  let x1 ← vget xs k
  let x2 ← vget xs ((k + 1) % UINT_MOD)
  let y1 ← vget ys k
  let y2 ← vget ys ((k + 1) % UINT_MOD)
  return line x1 y1 x2 y2 x

/-- The Lagrange formula (quadratic_interpolation.cpp:65-69). -/
def parabola (x0 y0 x1 y1 x2 y2 s : F) : F :=
  let L0 := (s - x1) * (s - x2) / ((x0 - x1) * (x0 - x2))
  let L1 := (s - x0) * (s - x2) / ((x1 - x0) * (x1 - x2))
  let L2 := (s - x0) * (s - x1) / ((x2 - x0) * (x2 - x1))
  y0 * L0 + y1 * L1 + y2 * L2

/-- `QuadraticInterpolation::quadraticInterpolation` (quadratic_interpolation.cpp:56-70). -/
def quadParabola (xs ys : List F) (x : F) (k : Nat) : Res F := do
  let x0 ← vget xs (upred k)
  let y0 ← vget ys (upred k)
  let x1 ← vget xs k
  let y1 ← vget ys k
  let x2 ← vget xs ((k + 1) % UINT_MOD)
  let y2 ← vget ys ((k + 1) % UINT_MOD)
  return parabola x0 y0 x1 y1 x2 y2 x

/-- `n - k` for `size_t`: wraps modulo 2^64. -/
def subSize (n k : Nat) : Nat := if k ≤ n then n - k else 2 ^ 64 + n - k

/-- `QuadraticInterpolation::interpolate` (quadratic_interpolation.cpp:5-24). -/
def quadratic (xs ys : List F) (x : F) : Res F := do
  let front ← vfront xs
  if Fl.le x front then vfront ys
  else
    let back ← vback xs
    if Fl.ge x back then vback ys
    else
      let k ← findInterval xs x
      if k = 0 ∨ k = subSize xs.length 2 then quadLine xs ys x k
      else quadParabola xs ys x k

/-- The `Interpolation` classes (include/numerical_analysis/interpolation/*.h). -/
inductive Kind
  | linear
  | quadratic
  deriving DecidableEq, Repr

/-- `Interpolation::interpolate`, dispatched on the class. -/
def interpolate : Kind → List F → List F → F → Res F
  | .linear => linear
  | .quadratic => quadratic

end Interp
end Verif
