import Verif.Model.American
import Verif.Model.StockModel
import Verif.Model.OptionFactory

/-!
# Stock model objects, pricers, builders and the Monte Carlo solver
(`/repo/src/model/base_model.cpp`, `/repo/src/solver/monte_carlo`)

The system state is the market data together with an arena of generator objects: a
`shared_ptr<NumberGenerator>` is an index into it, so that models and pricers can share a generator.
Model objects, pricers and options never change after construction and are plain values.
-/

namespace Verif

/-- What `/repo` takes from outside: the Mersenne twister and the two quasi random sequences. -/
structure Env (E Q F : Type) where
  engine : Engine E F
  sobol : Quasi.Sequence Q F
  faure : Quasi.Sequence Q F

/-- A `NumberGenerator` object: its class and its members. -/
inductive GenObj (E Q F : Type)
  | pseudo (s : Pseudo.State E)
  | sobol (s : Quasi.State Q F)
  | faure (s : Quasi.State Q F)

/-- The market data and all number generators. -/
structure Sys (E Q F : Type) where
  market : Market F
  gens : List (GenObj E Q F)

/-- A `StockModel` object (include/model/base_model.h:26-29): `ticker_`, the cached pointer
`stockData_`, class and parameters, `generator_`.  Its `marketData_` is the singleton
(simplification: other implementations of `IMarketData` are not modelled). -/
structure ModelObj (F : Type) where
  ticker : String
  handle : Nat
  kind : ModelKind F
  gen : Nat

namespace GenObj
variable {E Q F : Type}

/-- `NumberGenerator::getDim` (base_generator.cpp). -/
def dim : GenObj E Q F → Nat
  | pseudo s => s.dim
  | sobol s => s.dim
  | faure s => s.dim

/-- `dynamic_pointer_cast<PseudoRandomNumberGenerator>` succeeds. -/
def isPseudo : GenObj E Q F → Bool
  | pseudo _ => true
  | _ => false

variable [Fl F] [Add F] [Sub F] [Mul F] [Div F] [Neg F]

/-- The virtual `operator()` (pseudo_random_generator.cpp:7-9, sobol_quasi_random_generator.cpp:20-30,
faure_quasi_random_generator.cpp:20-30). -/
def draw (env : Env E Q F) (d : Dist F) : Eff (GenObj E Q F) F
  | pseudo s => let r := Pseudo.draw env.engine d s; (r.1, pseudo r.2)
  | sobol s => let r := Quasi.draw env.sobol d s; (r.1, sobol r.2)
  | faure s => let r := Quasi.draw env.faure d s; (r.1, faure r.2)

/-- Construction of a distribution object, see `Gen.newDist`. -/
def newDist (env : Env E Q F) (d : Dist F) : GenObj E Q F → GenObj E Q F
  | pseudo s => pseudo ((Pseudo.gen env.engine).newDist d s)
  | sobol s => sobol s
  | faure s => faure s

/-- Generator objects as a `Gen`. -/
def gen (env : Env E Q F) : Gen (GenObj E Q F) F where
  draw := draw env
  newDist := newDist env

end GenObj

namespace Sys
variable {E Q F α : Type}

/-- Code that works on the market data. -/
def onMarket (x : Eff (Market F) α) : Eff (Sys E Q F) α := fun s =>
  let r := x s.market
  (r.1, { s with market := r.2 })

/-- Code that works on one generator; a dangling or null pointer is undefined behaviour. -/
def onGen (g : Nat) (x : Eff (GenObj E Q F) α) : Eff (Sys E Q F) α := fun s =>
  match s.gens[g]? with
  | some o => let r := x o; (r.1, { s with gens := s.gens.set g r.2 })
  | none => (.ub, s)

/-- A new generator object. -/
def newGen (o : GenObj E Q F) : Eff (Sys E Q F) Nat := fun s =>
  (.ok s.gens.length, { s with gens := s.gens ++ [o] })

end Sys

namespace ModelObj
variable {E Q F : Type}

/-- `StockModel::getSteps` (base_model.cpp:13-15). -/
def getSteps (mo : ModelObj F) : Eff (Sys E Q F) Nat :=
  Sys.onGen mo.gen (fun o => (.ok o.dim, o))

variable [Fl F]

/-- What a simulation reads first: `stockData_->getPrice()`, `getSigma()`, `getCoupon()` through the
cached pointer, and `marketData_->getR()` (gbm_model.cpp:14-21, heston_model.cpp:42-49,
bates_model.cpp:36-43, kou_model.cpp:32-44, merton_jump_diffusion_model.cpp:27-37,
variance_gamma_model.cpp:32-41). -/
def view (mo : ModelObj F) : Eff (Sys E Q F) (View F) := do
  let d ← Sys.onMarket (Market.deref mo.handle)
  let r ← Sys.onMarket Market.getR
  return { price := d.price, sigma := d.sigma, coupon := d.coupon, r := r }

/-- Construction of a stock model: `StockModel::StockModel` (base_model.cpp:5-9) looks the ticker up
and throws when it is unknown; then the checks of the derived class (`kind`, one of
`ModelKind.mk...`, which for variance gamma reads the volatility). -/
def construct (ticker : String) (gen : Nat) (kind : StockData F → Res (ModelKind F)) :
    Eff (Sys E Q F) (ModelObj F) := do
  let p ← Sys.onMarket (Market.getStockData ticker)
  let d ← Sys.onMarket (Market.deref p)
  let k ← Eff.lift (kind d)
  return { ticker := ticker, handle := p, kind := k, gen := gen }

variable [Add F] [Sub F] [Mul F] [Div F] [Neg F] [FlInt F]

/-- The virtual `simulatePrices`, `simulatePriceAtMaturity` and `simulatePriceBackward` of a stock
model object; `steps` is the outcome of `getSteps()`. -/
def source (env : Env E Q F) (mo : ModelObj F) (steps : Nat) : PathSource (Sys E Q F) F where
  steps := steps
  simulatePrices T := do
    let v ← mo.view
    Sys.onGen mo.gen (Sim.prices (GenObj.gen env) steps v T mo.kind)
  simulatePriceAtMaturity T := do
    let v ← mo.view
    Sys.onGen mo.gen (Sim.maturity (GenObj.gen env) steps v T mo.kind)
  simulatePriceBackward Snext tj tjp1 := do
    let v ← mo.view
    Sys.onGen mo.gen (Sim.backward (GenObj.gen env) v Snext tj tjp1 mo.kind)

end ModelObj

/-- The concrete `MCPricer` classes (include/solver/monte_carlo/mc_*.h), one builder for each. -/
inductive PricerClass
  | singlePath
  | american
  | arithmeticAsian
  | geometricAsian
  | knockIn
  | knockOut
  | floatingLookback
  | fixedLookback
  deriving DecidableEq, Repr

/-- An `MCPricer` object: class, `option_`, `stockModel_`, the two strategies of the American pricer
(a null strategy is an `Lsmc` whose functions are undefined behaviour), and whether `marketData_` is
set. -/
structure Pricer (F : Type) where
  cls : PricerClass
  option : OptObj F
  model : ModelObj F
  strat : Lsmc F
  md : Bool

namespace Pricer
variable {E Q F : Type} [Fl F]

/-- `marketData_->getR()`. -/
def getR (p : Pricer F) : Eff (Sys E Q F) F :=
  if p.md then Sys.onMarket Market.getR else Eff.lift .ub

/-- The virtual `isActive` of the barrier option (barrier_option.cpp:26-28, 37-39). -/
def isActive (o : OptObj F) (S : F) : Bool :=
  match o.barrier with
  | some (B, d) =>
    match o.cls with
    | .knockIn => OptionModel.knockInIsActive B d S
    | _ => OptionModel.knockOutIsActive B d S
  | none => false

/-- The two `dynamic_pointer_cast`s in `AmericanMCPricer::calculatePrice` (mc_american.cpp:18-19). -/
def useBridge (p : Pricer F) (s : Sys E Q F) : Bool :=
  match s.gens[p.model.gen]? with
  | some o => o.isPseudo && (match p.model.kind with | .gbm => true | _ => false)
  | none => false

variable [Add F] [Sub F] [Mul F] [Div F] [Neg F] [FlInt F] [FlInf F]

/-- The virtual `calculatePrice(N)` (mc_single_path.cpp:12-22, mc_american.cpp:17-24,
mc_asian.cpp:12-30, mc_barrier.cpp:12-31, mc_lookback.cpp:12-31). -/
def calculatePrice (env : Env E Q F) (p : Pricer F) (N : Nat) : Eff (Sys E Q F) F := fun s =>
  (do
    let steps ← p.model.getSteps
    let src := p.model.source env steps
    let pay := p.option.payoff.eval1
    let T := p.option.T
    match p.cls with
    | .singlePath => MC.singlePath src p.getR pay T N
    | .american => MC.american (p.useBridge s) p.strat src p.getR pay T N
    | .arithmeticAsian => MC.asian .arithmetic src p.getR pay T N
    | .geometricAsian => MC.asian .geometric src p.getR pay T N
    | .knockIn => MC.barrier .knockIn src p.getR (isActive p.option) pay T N
    | .knockOut => MC.barrier .knockOut src p.getR (isActive p.option) pay T N
    | .floatingLookback => MC.lookback .floating src p.getR p.option.payoff T N
    | .fixedLookback => MC.lookback .fixed src p.getR p.option.payoff T N) s

end Pricer

/-! ## The Monte Carlo solver -/

/-- `MCSolver` (include/solver/monte_carlo/mc_solver.h:19-20) over arbitrary pricers `P`; `none` is a
null pointer. -/
structure MCSolver (P : Type) where
  N : Nat
  pricer : Option P

namespace MCSolver
variable {P σ F : Type}

/-- `MCSolver::MCSolver` (mc_solver.cpp:5-6), with its default argument (mc_solver.h:12). -/
def construct (N : Nat := 100000) : MCSolver P := { N := N, pricer := none }

/-- `MCSolver::setN` (mc_solver.cpp:15-17). -/
def setN (N : Nat) (m : MCSolver P) : MCSolver P := { m with N := N }

/-- `MCSolver::setPricer` (mc_solver.cpp:19-21). -/
def setPricer (p : Option P) (m : MCSolver P) : MCSolver P := { m with pricer := p }

/-- `MCSolver::solve` (mc_solver.cpp:8-13); `price` is the virtual `calculatePrice`. -/
def solve (price : P → Nat → Eff σ F) (m : MCSolver P) : Eff σ F :=
  match m.pricer with
  | none => Eff.lift (logicErr "Pricer is not set for MonteCarloSolver.")
  | some p => price p m.N

end MCSolver

/-! ## Builders -/

/-- The data members of an `MCBuilder` (base_mc_builder.h:24-25, mc_builder_american.h:23-25):
`marketData_` (set or null), `stockModel_`, `option_` (already cast), the two strategies; `cls` is the
builder's class. -/
structure Builder (F : Type) where
  cls : PricerClass
  md : Bool
  model : Option (ModelObj F)
  option : Option (OptObj F)
  strat : Lsmc F

namespace Builder
variable {E Q F : Type}

/-- The constructors (base_mc_builder.cpp:6-7, mc_builder_american.cpp:5-7): market data singleton, no
model, no option; `strat` are the default strategies. -/
def construct (cls : PricerClass) (strat : Lsmc F) : Builder F :=
  { cls := cls, md := true, model := none, option := none, strat := strat }

/-- Whether the `dynamic_pointer_cast` in `setOption` succeeds (mc_builder_single_path.cpp:8,
mc_builder_american.cpp:12, mc_builder_asian.cpp:7 and 26, mc_builder_barrier.cpp:8 and 27,
mc_lookback_builder.cpp:9 and 30; the class hierarchy is in include/option). -/
def casts : PricerClass → OptClass → Bool
  | .singlePath, .european => true
  | .singlePath, .digital => true
  | .singlePath, .doubleDigital => true
  | .american, .american => true
  | .arithmeticAsian, .arithmeticAsian => true
  | .geometricAsian, .geometricAsian => true
  | .knockIn, .knockIn => true
  | .knockOut, .knockOut => true
  | .floatingLookback, .floatingLookback => true
  | .fixedLookback, .fixedLookback => true
  | _, _ => false

/-- The builder's name in its messages (mc_builder_single_path.cpp:10 and 16 say
"AmericanMCPricerBuilder"; mc_builder_american.cpp:14, mc_builder_asian.cpp:9 and 28,
mc_builder_barrier.cpp:10 and 29, mc_lookback_builder.cpp:11 and 32). -/
def name : PricerClass → String
  | .singlePath => "AmericanMCPricerBuilder"
  | .american => "AmericanMCBuilder"
  | .arithmeticAsian => "ArithmeticAsianMCPricerBuilder"
  | .geometricAsian => "GeometricAsianMCPricerBuilder"
  | .knockIn => "KnockInBarrierMCPricerBuilder"
  | .knockOut => "KnockOutBarrierMCPricerBuilder"
  | .floatingLookback => "FloatingStrikeLookbackMCBuilder"
  | .fixedLookback => "FixedStrikeLookbackMCBuilder"

/-- `setOption` (mc_builder_single_path.cpp:7-13, mc_builder_american.cpp:11-17,
mc_builder_asian.cpp:6-12 and 25-31, mc_builder_barrier.cpp:7-13 and 26-32,
mc_lookback_builder.cpp:8-14 and 29-35).  The outcome of the cast is stored before the check, so a
rejected option (or a null pointer) also removes the one set before. -/
def setOption (o : Option (OptObj F)) : Eff (Builder F) Unit := fun b =>
  let cast := o.filter (fun x => casts b.cls x.cls)
  match cast with
  | some x => (.ok (), { b with option := some x })
  | none => (invalidArg ("Invalid option type for " ++ name b.cls), { b with option := none })

/-- `MCBuilder::setMarketData` (base_mc_builder.cpp:11-14) with the singleton or null. -/
def setMarketData (md : Bool) (b : Builder F) : Builder F := { b with md := md }

/-- `MCBuilder::setStockPriceModel` (base_mc_builder.cpp:16-19). -/
def setStockPriceModel (m : Option (ModelObj F)) (b : Builder F) : Builder F := { b with model := m }

/-- `setRegressionStrategy`, `setBasisFunctionStrategy` (mc_builder_american.cpp:19-27). -/
def setStrategies (strat : Lsmc F) (b : Builder F) : Builder F := { b with strat := strat }

variable [Fl F]

/-- The default model: GBM on the option's ticker with a new pseudo random generator of dimension 52
and a seed from `std::random_device` (`rd`), e.g. mc_builder_american.cpp:32-34.  The generator object
is created first (argument), then the model; with null market data the lookup is undefined
behaviour.  (When the lookup throws, the new generator is destroyed again; the arena keeps it, nobody
refers to it.) -/
def defaultModel (env : Env E Q F) (rd : Nat) (md : Bool) (ticker : String) :
    Eff (Sys E Q F) (ModelObj F) := do
  let g ← Sys.newGen (.pseudo (Pseudo.constructRd env.engine 52 rd))
  if md then ModelObj.construct ticker g (fun _ => .ok .gbm) else Eff.lift .ub

/-- `build` (mc_builder_single_path.cpp:15-23, mc_builder_american.cpp:29-38,
mc_builder_asian.cpp:14-22 and 33-41, mc_builder_barrier.cpp:15-23 and 34-42,
mc_lookback_builder.cpp:16-24 and 37-45).  The default model is stored in the builder. -/
def build (env : Env E Q F) (rd : Nat) : Eff (Builder F × Sys E Q F) (Pricer F) := fun bs =>
  match bs.1.option with
  | none => (logicErr ("Option is not set for " ++ name bs.1.cls ++ "."), bs)
  | some o =>
    match bs.1.model with
    | some m => (.ok ⟨bs.1.cls, o, m, bs.1.strat, bs.1.md⟩, bs)
    | none =>
      match defaultModel env rd bs.1.md o.ticker bs.2 with
      | (.ok m, s') =>
        (.ok ⟨bs.1.cls, o, m, bs.1.strat, bs.1.md⟩, ({ bs.1 with model := some m }, s'))
      | (.throw e, s') => (.throw e, (bs.1, s'))
      | (.ub, s') => (.ub, (bs.1, s'))

end Builder
end Verif
