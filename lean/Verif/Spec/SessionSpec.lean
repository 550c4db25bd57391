import Verif.Model.Session
import Verif.Spec.RandomSource
import Verif.Spec.FactorySpec
import Verif.Spec.BuilderSpec
import Mathlib.Probability.CDF
import Verif.Spec.MarketSpec

/-!
# Specification of pricing sessions
-/

namespace Verif.Spec
open MeasureTheory ProbabilityTheory

/-- A perfect engine when its state has the law `μ`: the value sampled for a distribution has the law the standard
prescribes and is independent of the new state, which has the law `μ` again. -/
structure RandomEngine {E : Type} [MeasurableSpace E] (e : Engine E ℝ) (μ : Measure E) (count : ℝ → Measure ℕ) : Prop where
  sample : ∀ l, ValidLaw l → Measurable (e.sample l) ∧ μ.map (e.sample l) = (stdMeasure count l).prod μ
  integer : ∀ mean x, 0 < mean → ∃ n : ℕ, n ≤ INT_MAX ∧ (e.sample (.poisson mean) x).1 = n
  forget : ∀ l, MeasurePreserving (e.forget l) μ μ

/-- The environment in which a new engine starts in the state `x`. -/
def startAt {E Q F : Type} (env : Env E Q F) (x : E) : Env E Q F := { env with engine := { env.engine with default := x } }

/-- The stock data of the session. -/
def stockOf {F : Type} (i : Session F) : StockData F := ⟨i.S, i.sigma, i.coupon⟩

/-- The session is accepted by the library: valid stock data, the model `k`, parameters that describe the option `o` on the
session's own ticker, a builder for options of this kind; and the compiler evaluates each argument once. -/
structure AcceptedSession {F : Type} [Fl F] (i : Session F) (c : Session.Choices) (k : ModelKind F) (o : OptObj F) : Prop where
  data : Accepted i.S i.sigma i.coupon
  model : i.kind (stockOf i) = .ok k
  callPut : i.ty = .call ∨ i.ty = .put
  option : Contract i.factory i.params i.ty o
  ticker : o.ticker = i.ticker
  family : i.factory ∈ Family i.cls
  payoffArgs : c.ordP.Perm i.factory.payoffArgs
  optionArgs : c.ordO.Perm i.factory.optionArgs

/-- The session with `N` paths, as a program on the state in which the engine starts. -/
def started {E Q F : Type} [Fl F] [Add F] [Sub F] [Mul F] [Div F] [Neg F] [FlInt F] [FlInf F] (env : Env E Q F) (c : Session.Choices) (i : Session F)
    (s : Sys E Q F) (N : ℕ) : Eff E F := fun x => ((Session.price (startAt env x) c { i with N := N } s).1, x)

/-- The Black-Scholes price of a European call: spot `S`, volatility `σ`, rate `r`, dividend yield `q`, maturity `T`, strike `K`;
`cdf (gaussianReal 0 1)` is the standard normal distribution function. -/
noncomputable def blackScholesCall (S σ r q T K : ℝ) : ℝ :=
  let d1 := (Real.log (S / K) + (r - q + σ ^ 2 / 2) * T) / (σ * Real.sqrt T)
  let d2 := d1 - σ * Real.sqrt T
  S * Real.exp (-(q * T)) * cdf (gaussianReal 0 1) d1 - K * Real.exp (-(r * T)) * cdf (gaussianReal 0 1) d2

/-- The Black-Scholes price of a European put. -/
noncomputable def blackScholesPut (S σ r q T K : ℝ) : ℝ :=
  let d1 := (Real.log (S / K) + (r - q + σ ^ 2 / 2) * T) / (σ * Real.sqrt T)
  let d2 := d1 - σ * Real.sqrt T
  K * Real.exp (-(r * T)) * (1 - cdf (gaussianReal 0 1) d2) - S * Real.exp (-(q * T)) * (1 - cdf (gaussianReal 0 1) d1)

end Verif.Spec
