import Verif.Model.System

/-!
# Whole pricing sessions (`/repo/main.cpp`)

A program that enters market data, creates an option with a factory, a stock model, a pricer with a builder, and lets
the Monte Carlo solver price it.
-/

namespace Verif

/-- The data of a pricing session: the arguments of `addStock` and `setR`, the calls of `setParameter`, the factory and
whether `createCallOption` or `createPutOption` is called, the stock model with its parameters, the dimension of the
generator, the builder with its strategies, and the number of paths. -/
structure Session (F : Type) where
  ticker : String
  S : F
  sigma : F
  coupon : Option F
  r : F
  params : List (String × Param F)
  factory : Factory
  ty : PayoffType
  kind : StockData F → Res (ModelKind F)
  dim : Nat
  cls : PricerClass
  strat : Lsmc F
  N : Nat

/-- What a program takes from outside: the orders in which the compiler evaluates the arguments of the two constructors
in a factory, and the numbers given by `std::random_device`. -/
structure Session.Choices where
  ordP : List Arg
  ordO : List Arg
  rd : Nat
  rdBuild : Nat

namespace Session
variable {E Q F : Type}

/-- The option behind the `shared_ptr` a factory returned. -/
def optionAt (i : Nat) : Eff (Sys E Q F) (OptObj F) := fun s =>
  match s.market.objs[i]?.bind (·.opt) with
  | some o => (.ok o, s)
  | none => (.ub, s)

variable [Fl F] [Add F] [Sub F] [Mul F] [Div F] [Neg F] [FlInt F]

/-- `builder.setOption(o).setStockPriceModel(m).build()` with a new builder (main.cpp:106-110 and 120-122; for the American
builder also the two strategy setters). -/
def buildPricer (env : Env E Q F) (rd : Nat) (cls : PricerClass) (strat : Lsmc F) (o : OptObj F) (mo : ModelObj F) :
    Eff (Sys E Q F) (Pricer F) := fun s =>
  match Builder.setOption (some o) (Builder.construct cls strat) with
  | (.ok (), b) =>
    let r := Builder.build env rd (b.setStockPriceModel (some mo), s)
    (r.1, r.2.2)
  | (.throw e, _) => (.throw e, s)
  | (.ub, _) => (.ub, s)

variable [FlInf F]

/-- The program of main.cpp:82-132 for one option, with a pseudo random generator: `addStock`, `setR`, the
`ParameterObject`, the generator, the model, the option, the pricer, `MCSolver`, `setN`, `setPricer`, `solve`. -/
def price (env : Env E Q F) (c : Choices) (i : Session F) : Eff (Sys E Q F) F := do
  Sys.onMarket (Market.addStock i.ticker i.S i.sigma i.coupon)
  Sys.onMarket (Market.setR i.r)
  let g ← Sys.newGen (.pseudo (Pseudo.constructRd env.engine i.dim c.rd))
  let mo ← ModelObj.construct i.ticker g i.kind
  let idx ← Sys.onMarket (OptionModel.createOption i.factory c.ordP c.ordO (World.mkParams i.params) i.ty)
  let o ← optionAt idx
  let p ← buildPricer env c.rdBuild i.cls i.strat o mo
  MCSolver.solve (fun p N => p.calculatePrice env N) ((MCSolver.construct.setN i.N).setPricer (some p))

end Session
end Verif
