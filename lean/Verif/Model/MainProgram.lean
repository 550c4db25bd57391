import Verif.Model.Session

/-!
# The program `/repo/main.cpp`

All of `main` that is not commented out: two number generators, seven stock models, five options, three pricers, one
solver, two lines of output.  The numbers of main.cpp:52-79 and 125 are the data of the program and arbitrary here.
-/

namespace Verif

/-- The local variables of main.cpp:52-79, the number of paths of line 125; `lsmc` are the default strategies of the American
builder and `lsmcLaguerre` those after line 108 (the objects of lines 100 and 101 are made of literals and cannot fail). -/
structure MainData (F : Type) where
  ticker : String
  T : F
  K : F
  S : F
  sigma : F
  r : F
  dim : Nat
  kappa : F
  theta : F
  sigmaV : F
  rho : F
  v0 : F
  lambda : F
  muJ : F
  sigmaJ : F
  eta1 : F
  eta2 : F
  p : F
  thetaGamma : F
  nu : F
  N : Nat
  lsmc : Lsmc F
  lsmcLaguerre : Lsmc F

/-- What the program takes from outside: for every factory the orders in which the compiler evaluates the arguments, and the
numbers given by `std::random_device` (two generators, three `build`s). -/
structure MainChoices where
  ordP : Factory → List Arg
  ordO : Factory → List Arg
  rdSobol : Nat
  rdPrng : Nat
  rdBuild : Nat → Nat

/-- What is written to `std::cout`: texts and numbers (formatting is not modelled). -/
inductive Out (F : Type)
  | text (s : String)
  | num (x : F)

/-- The state of the program: market data, generators, and what it has written, oldest first. -/
structure Console (E Q F : Type) where
  sys : Sys E Q F
  out : List (Out F)

namespace Console
variable {E Q F α : Type}

/-- Code that writes nothing. -/
def quiet (x : Eff (Sys E Q F) α) : Eff (Console E Q F) α := fun s =>
  let r := x s.sys
  (r.1, { s with sys := r.2 })

/-- `std::cout << o`. -/
def print (o : Out F) : Eff (Console E Q F) Unit := fun s => (.ok (), { s with out := s.out ++ [o] })

end Console

namespace MainProgram
variable {E Q F : Type} [Fl F] [Add F] [Sub F] [Mul F] [Div F] [Neg F] [FlInt F]

/-- The parameter object (main.cpp:85-88). -/
def params (i : MainData F) : List (String × Param F) := [("ticker", .str i.ticker), ("T", .dbl i.T), ("K", .dbl i.K)]

/-- `make_shared<SobolGenerator>(dim)` (main.cpp:90). -/
def newSobol (env : Env E Q F) (dim rd : Nat) : Eff (Sys E Q F) Nat := do
  let st ← Eff.lift (Quasi.construct env.sobol dim rd)
  Sys.newGen (.sobol st)

/-- A factory call and the option behind the returned pointer (main.cpp:104, 113, 114, 117, 118). -/
def newOption (c : MainChoices) (f : Factory) (i : MainData F) (ty : PayoffType) : Eff (Sys E Q F) (OptObj F) := do
  let idx ← Sys.onMarket (OptionModel.createOption f (c.ordP f) (c.ordO f) (World.mkParams (params i)) ty)
  Session.optionAt idx

/-- `b.setOption(o).setStockPriceModel(m).build()` (main.cpp:107-110, 121, 122; the strategy setter of line 108 is applied to
`b` before, it touches another member); gives the pricer and the builder afterwards. -/
def buildWith (env : Env E Q F) (rd : Nat) (b : Builder F) (o : OptObj F) (mo : ModelObj F) : Eff (Sys E Q F) (Pricer F × Builder F) := fun s =>
  match Builder.setOption (some o) b with
  | (.ok (), b') =>
    match Builder.build env rd (b'.setStockPriceModel (some mo), s) with
    | (.ok p, bs) => (.ok (p, bs.1), bs.2)
    | (.throw e, bs) => (.throw e, bs.2)
    | (.ub, bs) => (.ub, bs.2)
  | (.throw e, _) => (.throw e, s)
  | (.ub, _) => (.ub, s)

/-- main.cpp:81-122: everything up to the two Asian pricers. -/
def setup (env : Env E Q F) (c : MainChoices) (i : MainData F) : Eff (Sys E Q F) (Pricer F × Pricer F) := do
  Sys.onMarket (Market.addStock i.ticker i.S i.sigma none)
  Sys.onMarket (Market.setR i.r)
  let generator ← newSobol env i.dim c.rdSobol
  let prng ← Sys.newGen (.pseudo (Pseudo.constructRd env.engine i.dim c.rdPrng))
  let gbm ← ModelObj.construct i.ticker prng (fun _ => .ok .gbm)
  let gbm2 ← ModelObj.construct i.ticker generator (fun _ => .ok .gbm)
  let _heston ← ModelObj.construct i.ticker prng (fun _ => ModelKind.mkHeston i.kappa i.theta i.sigmaV i.rho i.v0 none)
  let _merton ← ModelObj.construct i.ticker prng (fun _ => ModelKind.mkMerton i.lambda i.muJ i.sigmaJ)
  let _kou ← ModelObj.construct i.ticker prng (fun _ => ModelKind.mkKou i.lambda i.p i.eta1 i.eta2)
  let vg ← ModelObj.construct i.ticker prng (fun d => ModelKind.mkVarianceGamma d.sigma i.nu i.thetaGamma)
  let _bates ← ModelObj.construct i.ticker prng (fun _ => ModelKind.mkBates i.kappa i.theta i.sigmaV i.rho i.v0 i.lambda i.muJ i.sigmaJ none)
  let americanPut ← newOption c .american i .put
  let _american ← buildWith env (c.rdBuild 0) ((Builder.construct .american i.lsmc).setStrategies i.lsmcLaguerre) americanPut vg
  let _europeanCall ← newOption c .european i .call
  let _europeanPut ← newOption c .european i .put
  let asianOption ← newOption c .arithmeticAsian i .call
  let _asianOption2 ← newOption c .arithmeticAsian i .call
  let (asianPricer, b) ← buildWith env (c.rdBuild 1) (Builder.construct .arithmeticAsian i.lsmc) asianOption gbm
  let (asianPricer2, _) ← buildWith env (c.rdBuild 2) b asianOption gbm2
  return (asianPricer, asianPricer2)

variable [FlInf F]

/-- `mcSolver.solve()`. -/
def solve (env : Env E Q F) (m : MCSolver (Pricer F)) : Eff (Sys E Q F) F := MCSolver.solve (fun p N => p.calculatePrice env N) m

/-- `main` (main.cpp:51-132): the set-up, then the two lines of output.  The operands of `<<` are evaluated from left to right,
so the text before a price is written before `solve` is called. -/
def main (env : Env E Q F) (c : MainChoices) (i : MainData F) : Eff (Console E Q F) Unit := do
  let (asianPricer, asianPricer2) ← Console.quiet (setup env c i)
  let mcSolver := (MCSolver.construct.setN i.N).setPricer (some asianPricer)
  Console.print (.text "Price MC PRNG: ")
  let x ← Console.quiet (solve env mcSolver)
  Console.print (.num x)
  Console.print (.text "\n")
  let mcSolver := mcSolver.setPricer (some asianPricer2)
  Console.print (.text "Price MC QRNG: ")
  let y ← Console.quiet (solve env mcSolver)
  Console.print (.num y)
  Console.print (.text "\n")

end MainProgram
end Verif
