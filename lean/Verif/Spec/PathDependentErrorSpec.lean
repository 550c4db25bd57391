import Verif.Spec.PathErrorSpec
import Verif.Spec.SessionSpec
import Verif.Lemmas.Session
import Verif.Num.Binary64

/-!
# Accuracy of path-dependent prices in floating point
-/

namespace Verif.Spec

/-- A session in double precision on a GBM with the finite data `S`, `sigma`, `r`, `q`, `T`; its generator, started in the state
`x`, delivers the normal numbers `zss`; none of the paths comes near the limits of the format. -/
structure DoubleRun {E Q : Type} (env : Env E Q (Dbl .binary64)) (i : Session (Dbl .binary64)) (S sigma r : ℝ) (q : Option ℝ) (T : ℝ) (x : E)
    (zss : List (List ℝ)) : Prop where
  price : i.S = .num S
  vol : i.sigma = .num sigma
  coupon : i.coupon = q.map fun x : ℝ => .num x
  rate : i.r = .num r
  maturity : lastSet i.params "T" = some (.dbl (.num T))
  dim : 0 < i.dim ∧ i.dim ≤ INT_MAX
  small : |r * T| ≤ 1
  draws : ∃ x', PathDraws env.engine.gen i.dim x zss x'
  paths : 0 < zss.length ∧ zss.length ≤ INT_MAX
  moderate : ∀ zs ∈ zss, Moderate S sigma r (q.getD 0) T i.dim fun l => zs.getD l 0

/-- The exact path for the normal numbers `zs`. -/
noncomputable abbrev pathOf (S sigma r : ℝ) (q : Option ℝ) (T : ℝ) (n : ℕ) (zs : List ℝ) : ℕ → ℝ := gbmPath S sigma r (q.getD 0) T n fun l => zs.getD l 0

/-- `gbmWork` for the whole path. -/
noncomputable abbrev workOf (sigma r : ℝ) (q : Option ℝ) (T : ℝ) (n : ℕ) (zs : List ℝ) : ℝ := gbmWork sigma r (q.getD 0) T n (fun l => zs.getD l 0) (n - 1)

/-- The outcome is a finite number, equal to the discounted mean of `f` up to the discounted mean of the errors `e` and a relative
error of `(N + 9) · 2⁻⁵²`. -/
def MeanUpTo (out : Res (Dbl .binary64)) (r T : ℝ) (f e : List ℝ) : Prop :=
  ∃ y : ℝ, out = .ok (.num y) ∧ |y - discountedMean r T f| ≤
    (1 + (f.length + 9) * 2 ^ (-52 : ℤ)) * discountedMean r T e + (f.length + 9) * 2 ^ (-52 : ℤ) * discountedMean r T f + 2 ^ (-1070 : ℤ)

/-- The error of a call or put with strike `K` on a quantity `x` known up to the relative error `a`. -/
noncomputable def valueError (a K x : ℝ) : ℝ := a * x + 2 ^ (-51 : ℤ) * (x + |K|)

/-- The arithmetic mean of the prices `x 0, ..., x (n - 1)`. -/
noncomputable def meanOf (n : ℕ) (x : ℕ → ℝ) : ℝ := (∑ j ∈ Finset.range n, x j) / n

/-- Their geometric mean. -/
noncomputable def geomMeanOf (n : ℕ) (x : ℕ → ℝ) : ℝ := (∏ j ∈ Finset.range n, x j) ^ ((1 : ℝ) / n)

/-- Some price is at or beyond the barrier. -/
def Crossed (B : ℝ) (d : BarrierDirection) (n : ℕ) (x : ℕ → ℝ) : Prop :=
  ∃ j < n, match d with
    | .up => B ≤ x j
    | .down => x j ≤ B

open Classical in
/-- What a knock-in option pays. -/
noncomputable def knockInValue (call : Prop) [Decidable call] (K B : ℝ) (d : BarrierDirection) (n : ℕ) (x : ℕ → ℝ) : ℝ :=
  if Crossed B d n x then vanillaValue call K (x (n - 1)) else 0

open Classical in
/-- What a knock-out option pays. -/
noncomputable def knockOutValue (call : Prop) [Decidable call] (K B : ℝ) (d : BarrierDirection) (n : ℕ) (x : ℕ → ℝ) : ℝ :=
  if Crossed B d n x then 0 else vanillaValue call K (x (n - 1))

/-- No price is so close to `B` that the relative error `a` could put it on the other side. -/
def ClearOf (B a : ℝ) (n : ℕ) (x : ℕ → ℝ) : Prop := ∀ j < n, a * x j < |x j - B|

/-- What a digital option pays. -/
noncomputable def digitalValue (call : Prop) [Decidable call] (K x : ℝ) : ℝ :=
  if call then (if K < x then 1 else 0) else (if x < K then 1 else 0)

/-- What a double digital option pays. -/
noncomputable def doubleDigitalValue (L U x : ℝ) : ℝ := if L ≤ x ∧ x ≤ U then 1 else 0

end Verif.Spec
