import Verif.Model.MainProgram
import Verif.Spec.MarketSpec
import Verif.Spec.QuasiSpec
import Mathlib.Probability.Distributions.Gaussian.Real
import Mathlib.MeasureTheory.Constructions.Pi

/-!
# Specification of the program `main`
-/

namespace Verif.Spec
open MeasureTheory ProbabilityTheory

/-- The data of the program are accepted by the library: stock data, strike and maturity, the parameters of the five other
models; and the compiler evaluates each argument once. -/
structure AcceptedMain {F : Type} [Fl F] [Add F] [Sub F] [Mul F] [Div F] [Neg F] (i : MainData F) (c : MainChoices) : Prop where
  data : Accepted i.S i.sigma none
  strike : Fl.lt i.K (lit 0) = false
  maturity : Fl.lt i.T (lit 0) = false
  heston : ∃ k, ModelKind.mkHeston i.kappa i.theta i.sigmaV i.rho i.v0 none = .ok k
  merton : ∃ k, ModelKind.mkMerton i.lambda i.muJ i.sigmaJ = .ok k
  kou : ∃ k, ModelKind.mkKou i.lambda i.p i.eta1 i.eta2 = .ok k
  varianceGamma : ∃ k, ModelKind.mkVarianceGamma i.sigma i.nu i.thetaGamma = .ok k
  bates : ∃ k, ModelKind.mkBates i.kappa i.theta i.sigmaV i.rho i.v0 i.lambda i.muJ i.sigmaJ none = .ok k
  payoffArgs : ∀ f, (c.ordP f).Perm f.payoffArgs
  optionArgs : ∀ f, (c.ordO f).Perm f.optionArgs

/-- The option priced by the program: an arithmetic Asian call. -/
def mainOption {F : Type} (i : MainData F) : OptObj F := ⟨.arithmeticAsian, i.ticker, .vanilla .call i.K, i.T, none⟩

/-- The pricing session of the first price, as if there were nothing else in the program. -/
def mainSession {F : Type} (i : MainData F) : Session F :=
  ⟨i.ticker, i.S, i.sigma, none, i.r, [("ticker", .str i.ticker), ("T", .dbl i.T), ("K", .dbl i.K)], .arithmeticAsian, .call,
    fun _ => .ok .gbm, i.dim, .arithmeticAsian, i.lsmc, i.N⟩

/-- The choices of the program that concern this session. -/
def mainSessionChoices (c : MainChoices) : Session.Choices := ⟨c.ordP .arithmeticAsian, c.ordO .arithmeticAsian, c.rdPrng, c.rdBuild 1⟩

/-- A line of output. -/
def outLine {F : Type} (label : String) (x : F) : List (Out F) := [.text label, .num x, .text "\n"]

/-- The discounted payoff of an arithmetic Asian call along the path made from the numbers `Z(u_0), ..., Z(u_(d-1))`. -/
noncomputable def asianCallPayoff {d : ℕ} (i : MainData ℝ) (Z : ℝ → ℝ) (u : Fin d → ℝ) : ℝ :=
  Real.exp (-(i.r * i.T)) * max ((∑ k, quasiPath i.S i.r 0 i.sigma i.T Z u k) / d - i.K) 0

/-- Its price in the Black-Scholes model: the expectation over independent standard normal numbers. -/
noncomputable def asianCallPrice (i : MainData ℝ) : ℝ :=
  ∫ z : Fin i.dim → ℝ, asianCallPayoff i id z ∂Measure.pi fun _ => gaussianReal 0 1

/-- The variance of the discounted payoff. -/
noncomputable def asianCallVariance (i : MainData ℝ) : ℝ :=
  Var[fun z : Fin i.dim → ℝ => asianCallPayoff i id z; Measure.pi fun _ => gaussianReal 0 1]

/-- The numbers of main.cpp:52-79 and 125. -/
noncomputable def mainCpp (lsmc lsmcLaguerre : Lsmc ℝ) : MainData ℝ where
  ticker := "AAPL"
  T := 1
  K := 100
  S := 100
  sigma := 0.2
  r := 0.05
  dim := 1000
  kappa := 6.21
  theta := 0.019
  sigmaV := 0.61
  rho := -0.7
  v0 := 0.010201
  lambda := 0.1
  muJ := -0.05
  sigmaJ := 0.2
  eta1 := 5
  eta2 := 7
  p := 0.5
  thetaGamma := -0.005
  nu := 0.5
  N := 100000
  lsmc := lsmc
  lsmcLaguerre := lsmcLaguerre

end Verif.Spec
