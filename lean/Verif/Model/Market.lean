import Verif.Model.StockData
import Verif.Model.Payoff
import Verif.Model.ParameterObject

/-!
# Market data, observers and option objects
(`/repo/src/market_data/market_data.cpp`, `/repo/include/market_data/market_data.h`,
`/repo/src/option/base_option.cpp`)

The state holds an arena of `StockData` objects (a `shared_ptr<StockData>` is an index into it),
the ticker map, the rate, the list of weak observer references (indices into the arena of observer
objects) and a log of the `update()` calls delivered.
-/

namespace Verif

/-- The concrete option classes (include/option/single_path, include/option/path_dependent). -/
inductive OptClass
  | european
  | digital
  | doubleDigital
  | american
  | arithmeticAsian
  | geometricAsian
  | floatingLookback
  | fixedLookback
  | knockIn
  | knockOut
  deriving DecidableEq, Repr

/-- The data members of an `Option` (include/option/base_option.h:60-62) and, for barrier options,
`B_` and `direction_` (include/option/path_dependent/barrier_option.h:23-24).  The ticker is
`MarketDataObserver::id_`.  The unused `BarrierOption::payoff_` (barrier_option.h:25), which shadows
`Option::payoff_` and stays null, is left out. -/
structure OptObj (F : Type) where
  cls : OptClass
  ticker : String
  payoff : Payoff F
  T : F
  barrier : Option (F × BarrierDirection)
  deriving DecidableEq, Repr

/-- An observer object: `id_` (include/market_data/market_data_observer.h:18), whether it is still
alive (a `weak_ptr` to it is not expired), and the option it is, if it is an `Option`
(otherwise some other `MarketDataObserver`). -/
structure Observer (F : Type) where
  id : String
  alive : Bool
  opt : Option (OptObj F)
  deriving DecidableEq, Repr

/-- One delivered `update()` call: the observer, and the data of its ticker and the rate as the
observer could read them from the market data during the call. -/
structure Note (F : Type) where
  obs : Nat
  seen : Option (StockData F)
  rate : F
  deriving DecidableEq, Repr

/-- The state of the `MarketData` singleton (include/market_data/market_data.h:56-58), of the
observer objects, and the ghost log of delivered notifications.
`stockDataMap_` is an association list from ticker to object index. -/
structure Market (F : Type) where
  heap : List (StockData F)
  stockDataMap : List (String × Nat)
  r : F
  observers : List Nat
  objs : List (Observer F)
  log : List (Note F)
  deriving DecidableEq, Repr

/-- `stockDataMap_[ticker] = ptr`: overwrite the entry or insert one. -/
def mapAssign (t : String) (p : Nat) : List (String × Nat) → List (String × Nat)
  | [] => [(t, p)]
  | (k, v) :: kvs => if k == t then (k, p) :: kvs else (k, v) :: mapAssign t p kvs

/-- `stockDataMap_.find(ticker)`. -/
def mapFind (t : String) (m : List (String × Nat)) : Option Nat :=
  (m.find? (fun kv => kv.1 == t)).map (·.2)

namespace Market
variable {F : Type}

section
variable [Fl F]

/-- `MarketData::MarketData` (market_data.cpp:22): rate 0.05, no stocks, no observers. -/
def init : Market F :=
  { heap := [], stockDataMap := [], r := lit (5 / 100), observers := [], objs := [], log := [] }

end

/-- The object a ticker points to. -/
def lookup (m : Market F) (t : String) : Option (StockData F) :=
  (mapFind t m.stockDataMap).bind (fun p => m.heap[p]?)

/-- Delivery of `update()` to observer `o` (`obs->update()`, market_data.cpp:39 and 49).
`Option::update` does nothing (base_option.cpp:36-39); other observers are assumed not to call back
into the market data.  The call is recorded in the log. -/
def deliver (m : Market F) (o : Nat) (id : String) : Market F :=
  { m with log := m.log ++ [⟨o, m.lookup id, m.r⟩] }

/-- The loop of `MarketData::notifyObserver` (market_data.cpp:35-43): lock the weak pointer, compare
the id, call `update`. -/
def notifyObserverLoop (id : String) : List Nat → Market F → Market F
  | [], m => m
  | o :: os, m =>
    match m.objs[o]? with
    | some ob =>
      if ob.alive then
        if ob.id == id then notifyObserverLoop id os (m.deliver o ob.id)
        else notifyObserverLoop id os m
      else notifyObserverLoop id os m
    | none => notifyObserverLoop id os m

/-- `MarketData::notifyObserver` (market_data.cpp:35-43). -/
def notifyObserver (id : String) (m : Market F) : Market F := notifyObserverLoop id m.observers m

/-- The loop of `MarketData::notifyObservers` (market_data.cpp:46-52). -/
def notifyObserversLoop : List Nat → Market F → Market F
  | [], m => m
  | o :: os, m =>
    match m.objs[o]? with
    | some ob => if ob.alive then notifyObserversLoop os (m.deliver o ob.id)
                 else notifyObserversLoop os m
    | none => notifyObserversLoop os m

/-- `MarketData::notifyObservers` (market_data.cpp:46-52). -/
def notifyObservers (m : Market F) : Market F := notifyObserversLoop m.observers m

/-- `weak_ptr::expired()` of the reference to observer `o`. -/
def expired (m : Market F) (o : Nat) : Bool :=
  match m.objs[o]? with
  | some ob => !ob.alive
  | none => true

/-- `MarketData::addObserver` (market_data.cpp:24-26).  An index without object models a null
pointer (its `weak_ptr` is expired). -/
def addObserver (o : Nat) : Eff (Market F) Unit := fun m =>
  (.ok (), { m with observers := m.observers ++ [o] })

/-- `std::erase_if(observers_, expired)` in `MarketData::removeObserver` (market_data.cpp:28-33). -/
def removeExpired (m : Market F) : Market F :=
  { m with observers := m.observers.filter (fun o => !(m.expired o)) }

/-- `MarketData::removeObserver` (market_data.cpp:28-33). -/
def removeObserver : Eff (Market F) Unit := fun m => (.ok (), m.removeExpired)

variable [Fl F]

/-- `MarketData::addStock` (market_data.h:35-39).  In C++17 and later the right operand of `=` is
evaluated first, so when the `StockData` constructor throws no map entry has been made.  A known
ticker gets a new object; nobody is notified. -/
def addStock (t : String) (S sigma : F) (c : Option F) : Eff (Market F) Unit := fun m =>
  match StockData.construct S sigma c with
  | .ok d =>
    (.ok (), { m with heap := m.heap ++ [d],
                      stockDataMap := mapAssign t m.heap.length m.stockDataMap })
  | .throw e => (.throw e, m)
  | .ub => (.ub, m)

/-- The common shape of `updateStockPrice`, `updateStockSigma`, `updateStockCoupon`
(market_data.cpp:54-80): find the ticker, run the setter on the object, then notify; if the setter
throws, the exception leaves the function with the object as the setter left it. -/
def updateWith (errMsg : String) (t : String) (setter : Eff (StockData F) Unit) :
    Eff (Market F) Unit := fun m =>
  match mapFind t m.stockDataMap with
  | none => (invalidArg errMsg, m)
  | some p =>
    match m.heap[p]? with
    | none => (.ub, m)   -- dangling pointer: excluded by the invariant `Market.WF`
    | some d =>
      match setter d with
      | (.ok (), d') => (.ok (), notifyObserver t { m with heap := m.heap.set p d' })
      | (.throw e, d') => (.throw e, { m with heap := m.heap.set p d' })
      | (.ub, d') => (.ub, { m with heap := m.heap.set p d' })

/-- `MarketData::updateStockPrice` (market_data.cpp:54-62). -/
def updateStockPrice (t : String) (S : F) : Eff (Market F) Unit :=
  updateWith (t ++ " is no present in the MarketData object") t (StockData.setPrice S)

/-- `MarketData::updateStockSigma` (market_data.cpp:64-71). -/
def updateStockSigma (t : String) (sigma : F) : Eff (Market F) Unit :=
  updateWith (t ++ " is no present in the MarketData object") t (StockData.setSigma sigma)

/-- `MarketData::updateStockCoupon` (market_data.cpp:73-80). -/
def updateStockCoupon (t : String) (c : Option F) : Eff (Market F) Unit :=
  updateWith (t ++ " is no present in the MarketData object.") t (StockData.setCoupon c)

/-- `MarketData::getStockData` (market_data.cpp:82-87): returns the pointer itself. -/
def getStockData (t : String) : Eff (Market F) Nat := fun m =>
  match mapFind t m.stockDataMap with
  | some p => (.ok p, m)
  | none => (invalidArg (t ++ " Stock data not found."), m)

/-- Reading a `shared_ptr<const StockData>` with `getPrice`, `getSigma`, `getCoupon`
(stock_data.cpp:11-21). -/
def deref (p : Nat) : Eff (Market F) (StockData F) := fun m =>
  match m.heap[p]? with
  | some d => (.ok d, m)
  | none => (.ub, m)

/-- `MarketData::getR` (market_data.cpp:89-91). -/
def getR : Eff (Market F) F := fun m => (.ok m.r, m)

/-- `MarketData::setR` (market_data.cpp:93-96): stores, then notifies everybody. -/
def setR (r : F) : Eff (Market F) Unit := fun m => (.ok (), notifyObservers { m with r := r })

end Market
end Verif
