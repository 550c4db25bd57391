import Verif.Model.Market

/-!
# Option objects and factories
(`/repo/src/option`, `/repo/include/option/base_factory_option.h`)
-/

namespace Verif

/-- The constructor arguments a factory reads from the parameter object. -/
inductive Arg
  | ticker | T | B | direction | K | K1 | K2
  deriving DecidableEq, Repr

/-- The concrete factories (src/option/**/factory_*.cpp), one per option class. -/
abbrev Factory := OptClass

namespace Factory

/-- Arguments read by `createSpecificPayoff`: `"K"` (factory_european_option.cpp:8,
factory_digital_option.cpp:8, factory_american_option.cpp:9, factory_asian_option.cpp:10 and 32,
factory_barrier_option.cpp:10 and 34, factory_lookback_option.cpp:33), `"K1"`, `"K2"`
(factory_double_digital_option.cpp:8-9), nothing (factory_lookback_option.cpp:11). -/
def payoffArgs : Factory → List Arg
  | .doubleDigital => [.K1, .K2]
  | .floatingLookback => []
  | _ => [.K]

/-- Arguments read by `createSpecificOption`: ticker and T, for the barrier factories also B and
direction (factory_barrier_option.cpp:17-24 and 41-48). -/
def optionArgs : Factory → List Arg
  | .knockIn => [.ticker, .T, .B, .direction]
  | .knockOut => [.ticker, .T, .B, .direction]
  | _ => [.ticker, .T]

/-- `getType` of the factories (factory_european_option.cpp:21-23, factory_digital_option.cpp:21-23,
factory_double_digital_option.cpp:30-32, factory_american_option.cpp:24-26,
factory_asian_option.cpp:25-27 and 45-47, factory_barrier_option.cpp:27-29 and 51-53,
factory_lookback_option.cpp:26-28 and 48-50). -/
def getType : Factory → PayoffType → String
  | .european, ty => "European " ++ ty.toStr ++ " Option"
  | .digital, ty => "Digital " ++ ty.toStr ++ " Option"
  | .doubleDigital, ty => ty.toStr ++ " Option"
  | .american, ty => "American " ++ ty.toStr ++ " Option"
  | .arithmeticAsian, ty => "Arithmetic Asian " ++ ty.toStr ++ " Option"
  | .geometricAsian, ty => "Geometric Asian  " ++ ty.toStr ++ " Option"
  | .knockIn, ty => "Knock-In  " ++ ty.toStr ++ " Option"
  | .knockOut, ty => "Knock-Out " ++ ty.toStr ++ " Option"
  | .floatingLookback, ty => "Floating Strike Lookback " ++ ty.toStr ++ " Option"
  | .fixedLookback, ty => "Fixed Strike Lookback " ++ ty.toStr ++ " Option"

/-- `invalidParams` (base_factory_option.h:75-81); the override of the double digital factory
(factory_double_digital_option.cpp:22-28) replaces the last line from `K (double)` on (the count 24
exceeds the remaining 22 characters, so the replacement also removes the final newline). -/
def invalidParams (f : Factory) (optionType : String) : String :=
  let head := "Invalid parameters for " ++ optionType ++ "\nExpected parameters:\n" ++
    "  - ticker (string) for ticker symbol\n" ++ "  - T (double) for maturity\n"
  match f with
  | .doubleDigital => head ++ "  - K1 (double) for 1st strike\n" ++ "  - K2 (double) for 2nd strike"
  | _ => head ++ "  - K (double) for strike\n"

end Factory

namespace OptionModel
variable {F : Type}

/-- Evaluation of one argument expression `params.getParameter<...>(...)`; the value is read again
by `strArg` etc. below, here only the exception matters. -/
def checkArg (params : ParameterObject F) : Arg → Res Unit
  | .ticker => do let _ ← ParameterObject.getParameter Param.asStr params "ticker"; return ()
  | .T => do let _ ← ParameterObject.getParameter Param.asDbl params "T"; return ()
  | .B => do let _ ← ParameterObject.getParameter Param.asDbl params "B"; return ()
  | .direction => do let _ ← ParameterObject.getParameter Param.asDir params "direction"; return ()
  | .K => do let _ ← ParameterObject.getParameter Param.asDbl params "K"; return ()
  | .K1 => do let _ ← ParameterObject.getParameter Param.asDbl params "K1"; return ()
  | .K2 => do let _ ← ParameterObject.getParameter Param.asDbl params "K2"; return ()

/-- Evaluation of the argument list of a constructor call.  C++ leaves the order unspecified: `ord`
is the order chosen by the compiler.  The first failing argument throws. -/
def checkArgs (params : ParameterObject F) : List Arg → Res Unit
  | [] => .ok ()
  | a :: as => do checkArg params a; checkArgs params as

variable [Fl F]

/-- `createSpecificPayoff` of the factories (see `Factory.payoffArgs` for the lines).  `ord` is the
evaluation order of its arguments. -/
def createSpecificPayoff (f : Factory) (ord : List Arg) (params : ParameterObject F)
    (ty : PayoffType) : Res (Payoff F) := do
  checkArgs params ord
  match f with
  | .doubleDigital =>
    let k1 ← ParameterObject.getParameter Param.asDbl params "K1"
    let k2 ← ParameterObject.getParameter Param.asDbl params "K2"
    Payoff.mkDoubleDigital k1 k2
  | .floatingLookback => Payoff.mkFloatingLookback ty
  | .digital =>
    let k ← ParameterObject.getParameter Param.asDbl params "K"
    Payoff.mkDigital ty k
  | _ =>
    let k ← ParameterObject.getParameter Param.asDbl params "K"
    Payoff.mkVanilla ty k

/-- `Option::Option` (base_option.cpp:20-29): check the maturity, look the ticker up (throws when
it is unknown), keep the payoff.  Barrier options also store B and direction
(barrier_option.cpp:15-21), without check. -/
def construct (cls : OptClass) (ticker : String) (payoff : Payoff F) (T : F)
    (barrier : Option (F × BarrierDirection)) : Eff (Market F) (OptObj F) := do
  if Fl.lt T (lit 0) then
    Eff.lift (invalidArg "Time to expiration (T) must be positive.")
  else do
    let _stockData ← Market.getStockData ticker
    return { cls := cls, ticker := ticker, payoff := payoff, T := T, barrier := barrier }

/-- `createSpecificOption` of the factories (see `Factory.optionArgs` for the lines). -/
def createSpecificOption (f : Factory) (ord : List Arg) (params : ParameterObject F)
    (payoff : Payoff F) : Eff (Market F) (OptObj F) := do
  Eff.lift (checkArgs params ord)
  let ticker ← Eff.lift (ParameterObject.getParameter Param.asStr params "ticker")
  let T ← Eff.lift (ParameterObject.getParameter Param.asDbl params "T")
  match f with
  | .knockIn | .knockOut =>
    let B ← Eff.lift (ParameterObject.getParameter Param.asDbl params "B")
    let d ← Eff.lift (ParameterObject.getParameter Param.asDir params "direction")
    construct f ticker payoff T (some (B, d))
  | _ => construct f ticker payoff T none

/-- `OptionFactory::createOption` (base_factory_option.h:57-72).  Only `invalid_argument` is caught
and rethrown with the parameter list appended; then the new object (index `m.objs.length`) is
registered by `Option::initialize` (base_option.cpp:72-74). -/
def createOption (f : Factory) (ordP ordO : List Arg) (params : ParameterObject F)
    (ty : PayoffType) : Eff (Market F) Nat := fun m =>
  let body : Eff (Market F) (OptObj F) := do
    let payoff ← Eff.lift (createSpecificPayoff f ordP params ty)
    createSpecificOption f ordO params payoff
  match body m with
  | (.ok o, m') =>
    let idx := m'.objs.length
    let m'' : Market F := { m' with objs := m'.objs ++ [⟨o.ticker, true, some o⟩] }
    match Market.addObserver idx m'' with
    | (.ok (), m3) => (.ok idx, m3)
    | (.throw e, m3) => (.throw e, m3)
    | (.ub, m3) => (.ub, m3)
  | (.throw e, m') =>
    if e.kind = .invalidArgument then
      (invalidArg (e.msg ++ "\n" ++ f.invalidParams (f.getType ty)), m')
    else (.throw e, m')
  | (.ub, m') => (.ub, m')

/-- `createCallOption` / `createPutOption` (base_factory_option.h:46-54). -/
def createCallOption (f : Factory) (ordP ordO : List Arg) (params : ParameterObject F) :
    Eff (Market F) Nat := createOption f ordP ordO params .call

/-- `createPutOption` (base_factory_option.h:51-54). -/
def createPutOption (f : Factory) (ordP ordO : List Arg) (params : ParameterObject F) :
    Eff (Market F) Nat := createOption f ordP ordO params .put

/-- The last `shared_ptr` to observer `o` is dropped: the reference count reaches zero first (so the
weak pointers are expired), then the destructor runs; `Option::~Option` calls `removeObserver`
(base_option.cpp:31-34), other observers do nothing
(src/market_data/market_data_observer.cpp:7).  For an index without a live object nothing happens
(no `shared_ptr` exists that could be dropped). -/
def release (o : Nat) : Eff (Market F) Unit := fun m =>
  match m.objs[o]? with
  | some ob =>
    if ob.alive then
      let m' : Market F := { m with objs := m.objs.set o { ob with alive := false } }
      match ob.opt with
      | some _ => Market.removeObserver m'
      | none => (.ok (), m')
    else (.ok (), m)
  | none => (.ok (), m)

/-- Construction of an observer that is not an `Option` (`MarketDataObserver::MarketDataObserver`,
market_data_observer.cpp:5; for instance the mock in tests/unit/test_support/mock_classes.h). -/
def newObserver (id : String) : Eff (Market F) Nat := fun m =>
  (.ok m.objs.length, { m with objs := m.objs ++ [⟨id, true, none⟩] })

/-- `*pa == *pb` on two `StockData` pointers (base_option.cpp:43). -/
def compareData (pa pb : Nat) : Eff (Market F) Bool := fun m =>
  match m.heap[pa]?, m.heap[pb]? with
  | some da, some db => (.ok (StockData.beq da db), m)
  | _, _ => (.ub, m)

/-- `Option::operator==` (base_option.cpp:41-44); the operands of `&&` are evaluated from left to
right, and `getStockData` may throw. -/
def beq (a b : OptObj F) : Eff (Market F) Bool := fun m =>
  if !(Fl.eqb a.T b.T) then (.ok false, m)
  else if !(Payoff.beq a.payoff b.payoff) then (.ok false, m)
  else (do
    let pa ← Market.getStockData a.ticker
    let pb ← Market.getStockData b.ticker
    compareData pa pb) m

/-- `BarrierOption::isActive` (barrier_option.cpp:8-13). -/
def barrierTouched (B : F) (d : BarrierDirection) (S : F) : Bool :=
  if d = .up then Fl.ge S B else Fl.le S B

/-- `KnockInBarrierOption::isActive` (barrier_option.cpp:26-28). -/
def knockInIsActive (B : F) (d : BarrierDirection) (S : F) : Bool := barrierTouched B d S

/-- `KnockOutBarrierOption::isActive` (barrier_option.cpp:37-39). -/
def knockOutIsActive (B : F) (d : BarrierDirection) (S : F) : Bool := !(barrierTouched B d S)

end OptionModel
end Verif
