import Verif.Model.StockModel
import Verif.Spec.MonteCarloSpec
import Verif.Model.Session
import Mathlib.Probability.Distributions.Gaussian.Real
import Mathlib.Probability.ProductMeasure

/-!
# Lookback contracts, and finite computations among the extended reals

The lookback pricers start from `std::numeric_limits<double>::infinity()`, so their exact arithmetic is that of the extended
reals (`Dbl Rounding.exact`: NaN or an extended real, operations without rounding), not of `ℝ`.  This file says when objects
over the extended reals are the same as objects over `ℝ`.
-/

namespace Verif.Spec

/-- The extended reals with NaN, computing exactly. -/
abbrev Ext := Dbl Rounding.exact

/-- A real number as an extended real. -/
noncomputable abbrev fin (x : ℝ) : Ext := Dbl.ofReal .exact x

/-- The `std::` distribution with the same, finite, parameters. -/
noncomputable def finLaw : Dist.StdLaw ℝ → Dist.StdLaw Ext
  | .normal mean stddev => .normal (fin mean) (fin stddev)
  | .poisson mean => .poisson (fin mean)
  | .uniform a b => .uniform (fin a) (fin b)
  | .exponential lambda => .exponential (fin lambda)
  | .gamma shape scale => .gamma (fin shape) (fin scale)

/-- For finite parameters both engines give the same numbers and change their states in the same way. -/
structure SameEngine {E : Type} (e' : Engine E Ext) (e : Engine E ℝ) : Prop where
  sample : ∀ l x, e'.sample (finLaw l) x = (fin (e.sample l x).1, (e.sample l x).2)
  forget : ∀ l x, e'.forget (finLaw l) x = e.forget l x

/-- For the variance gamma model: the gamma variates of the engine are not negative. -/
def GammaNonneg {E : Type} (e : Engine E ℝ) : ModelKind ℝ → Prop
  | .varianceGamma _ _ _ => ∀ shape scale x, 0 < shape → 0 < scale → 0 ≤ (e.sample (.gamma shape scale) x).1
  | _ => True

/-- The two variance discretisations agree on finite numbers, for time steps that are not negative. -/
def SameStep (d' : CIR Ext) (d : CIR ℝ) : Prop := ∀ V dt kappa theta sigmaV z : ℝ, 0 ≤ dt →
  d'.update (fin V) (fin dt) (fin kappa) (fin theta) (fin sigmaV) (fin z) = fin (d.update V dt kappa theta sigmaV z)

/-- The same stock model with finite parameters; correlations are between -1 and 1. -/
inductive SameModel : ModelKind Ext → ModelKind ℝ → Prop
  | gbm : SameModel .gbm .gbm
  | heston {kappa theta sigmaV rho v0 : ℝ} {d' : CIR Ext} {d : CIR ℝ} (h : SameStep d' d) (hr : |rho| ≤ 1) :
      SameModel (.heston (fin kappa) (fin theta) (fin sigmaV) (fin rho) (fin v0) d') (.heston kappa theta sigmaV rho v0 d)
  | bates {kappa theta sigmaV rho v0 lambda muJ sigmaJ : ℝ} {d' : CIR Ext} {d : CIR ℝ} (h : SameStep d' d) (hr : |rho| ≤ 1) :
      SameModel (.bates (fin kappa) (fin theta) (fin sigmaV) (fin rho) (fin v0) (fin lambda) (fin muJ) (fin sigmaJ) d')
        (.bates kappa theta sigmaV rho v0 lambda muJ sigmaJ d)
  | kou {lambda p eta1 eta2 muJ : ℝ} : SameModel (.kou (fin lambda) (fin p) (fin eta1) (fin eta2) (fin muJ)) (.kou lambda p eta1 eta2 muJ)
  | merton {lambda muJ sigmaJ : ℝ} : SameModel (.merton (fin lambda) (fin muJ) (fin sigmaJ)) (.merton lambda muJ sigmaJ)
  | varianceGamma {nu theta omega : ℝ} : SameModel (.varianceGamma (fin nu) (fin theta) (fin omega)) (.varianceGamma nu theta omega)

/-- The program over the extended reals does what the program over the reals does: same outcome, a finite number, and same state. -/
def SameRun {G : Type} (run' : Eff G Ext) (run : Eff G ℝ) : Prop :=
  ∀ s y s', run s = (.ok y, s') → run' s = (.ok (fin y), s')

/-- The market data of the session are the finite numbers `v`. -/
structure FiniteData (i : Session Ext) (v : View ℝ) : Prop where
  S : i.S = fin v.price
  sigma : i.sigma = fin v.sigma
  coupon : i.coupon = v.coupon.map fin
  r : i.r = fin v.r

/-- The smallest of the numbers `x 0, ..., x (n - 1)`. -/
noncomputable def lowest (n : ℕ) (x : ℕ → ℝ) : ℝ := sInf (x '' Set.Iio n)

/-- The largest of the numbers `x 0, ..., x (n - 1)`. -/
noncomputable def highest (n : ℕ) (x : ℕ → ℝ) : ℝ := sSup (x '' Set.Iio n)

/-- What a fixed-strike lookback option pays on the prices `x 0, ..., x (n - 1)`. -/
noncomputable def fixedLookback (call : Prop) [Decidable call] (K : ℝ) (n : ℕ) (x : ℕ → ℝ) : ℝ :=
  if call then max (highest n x - K) 0 else max (K - lowest n x) 0

/-- What a floating-strike lookback option pays on the prices `x 0, ..., x (n - 1)`. -/
noncomputable def floatingLookback (call : Prop) [Decidable call] (n : ℕ) (x : ℕ → ℝ) : ℝ :=
  if call then x (n - 1) - lowest n x else highest n x - x (n - 1)

/-- The prices of a geometric Brownian motion at the times `T / n, 2 T / n, ..., T`, built from the standard normal numbers `z`. -/
noncomputable def gbmPath (S sigma r q T : ℝ) (n : ℕ) (z : ℕ → ℝ) (j : ℕ) : ℝ :=
  S * Real.exp ((r - q - sigma ^ 2 / 2) * ((j + 1) * (T / n)) + sigma * Real.sqrt (T / n) * ∑ l ∈ Finset.range (j + 1), z l)

/-- The law of independent standard normal numbers. -/
noncomputable def normals : MeasureTheory.Measure (ℕ → ℝ) := MeasureTheory.Measure.infinitePi fun _ : ℕ => ProbabilityTheory.gaussianReal 0 1

end Verif.Spec
