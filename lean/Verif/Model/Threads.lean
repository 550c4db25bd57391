import Verif.Model.World

/-!
# The market data in a program with several threads
(`/repo/src/market_data/market_data.cpp`, `/repo/include/market_data/market_data.h`,
`/repo/src/market_data/stock_data.cpp`, `/repo/src/option/base_option.cpp`)

Only `getInstance` takes the mutex (market_data.cpp:12).  All other functions access the members
without any synchronisation.  This file says which shared memory each operation reads and writes.
A library call on a container counts as a write of the container when its member function is not
`const` and not one of those that C++ exempts (`find`, `begin`, `end`).  Reference counts of
`shared_ptr` are atomic and left out, as are the contents of a new `StockData` object, which no other
thread can reach before the ticker map has been written.  `update()` is the one of `Option`, which
does nothing (base_option.cpp:36-39).
-/

namespace Verif

/-- The shared memory: the ticker map, the three members of each `StockData` object (by index), the
rate, the vector of observers. -/
inductive Loc
  | map
  | price (p : Nat)
  | sigma (p : Nat)
  | coupon (p : Nat)
  | rate
  | observers
  deriving DecidableEq, Repr

/-- One access. -/
structure Access where
  loc : Loc
  write : Bool
  deriving DecidableEq, Repr

/-- The members of `StockData` with a getter (stock_data.cpp:11-21). -/
inductive Field
  | price
  | sigma
  | coupon
  deriving DecidableEq, Repr

/-- Where the member of object `p` is. -/
def Field.loc (p : Nat) : Field → Loc
  | .price => .price p
  | .sigma => .sigma p
  | .coupon => .coupon p

/-- What a thread does: a call of the API, a getter on a handle it holds, `getInstance`, start
another thread or wait for its end. -/
inductive Op (ι F : Type)
  | call (c : Call F)
  | read (p : Nat) (f : Field)
  | getInstance
  | spawn (i : ι)
  | join (i : ι)

namespace Threads
variable {ι F : Type} [Fl F]

/-- The reads of `StockData::validate` (stock_data.cpp:55-66), which stops at the first violation. -/
def validateReads (p : Nat) (d : StockData F) : List Access :=
  ⟨.price p, false⟩ ::
    if Fl.le d.price (lit 0) then [] else
    ⟨.sigma p, false⟩ ::
      if Fl.lt d.sigma (lit 0) then [] else [⟨.coupon p, false⟩]

/-- The accesses of `updateStockPrice`, `updateStockSigma`, `updateStockCoupon`
(market_data.cpp:54-80): `find`, the setter (stock_data.cpp:40-53), and the loop over the observers
if the setter did not throw. -/
def updateAccesses (m : Market F) (t : String) (f : Field) (setter : Eff (StockData F) Unit) :
    List Access :=
  ⟨.map, false⟩ ::
    match mapFind t m.stockDataMap with
    | none => []
    | some p =>
      match m.heap[p]? with
      | none => []
      | some d =>
        ⟨f.loc p, true⟩ :: validateReads p (setter d).2 ++
          match (setter d).1 with
          | .ok _ => [⟨.observers, false⟩]
          | _ => []

/-- The accesses of a call when the market data are `m`. -/
def callAccesses (m : Market F) : Call F → List Access
  | .addStock _ S sigma c =>   -- market_data.h:35-39: the constructor comes first
    match StockData.construct S sigma c with
    | .ok _ => [⟨.map, true⟩]
    | _ => []
  | .updatePrice t S => updateAccesses m t .price (StockData.setPrice S)
  | .updateSigma t s => updateAccesses m t .sigma (StockData.setSigma s)
  | .updateCoupon t c => updateAccesses m t .coupon (StockData.setCoupon c)
  | .getStockData _ => [⟨.map, false⟩]   -- market_data.cpp:82-87
  | .getR => [⟨.rate, false⟩]   -- market_data.cpp:89-91
  | .setR _ => [⟨.rate, true⟩, ⟨.observers, false⟩]   -- market_data.cpp:93-96
  | .addObserver _ => [⟨.observers, true⟩]   -- market_data.cpp:24-26
  | .removeObserver => [⟨.observers, true⟩]   -- market_data.cpp:28-33
  | .notifyObserver _ => [⟨.observers, false⟩]   -- market_data.cpp:35-43
  | .notifyObservers => [⟨.observers, false⟩]   -- market_data.cpp:46-52
  | .newObserver _ => []
  | .createOption f ordP ordO ps ty =>
    -- base_option.cpp:27 (look the ticker up) and, if the construction succeeds,
    -- base_option.cpp:72-74 (register); a construction that fails before line 27 is given the read
    -- of the map too
    match World.outcome m (.createOption f ordP ordO ps ty) with
    | .ok _ => [⟨.map, false⟩, ⟨.observers, true⟩]
    | _ => [⟨.map, false⟩]
  | .release o =>   -- base_option.cpp:31-34
    match m.objs[o]? with
    | some ob => if ob.alive && ob.opt.isSome then [⟨.observers, true⟩] else []
    | none => []

/-- The accesses of an operation.  `instance_` is protected by the mutex (C08). -/
def accesses (m : Market F) : Op ι F → List Access
  | .call c => callAccesses m c
  | .read p f => [⟨f.loc p, false⟩]
  | .getInstance => []
  | .spawn _ => []
  | .join _ => []

/-- The state after an operation. -/
def step (m : Market F) : Op ι F → Market F
  | .call c => World.step m c
  | _ => m

/-- The state after an interleaving of the operations of the threads. -/
def run (m : Market F) (tr : List (ι × Op ι F)) : Market F := tr.foldl (fun m e => step m e.2) m

end Threads
end Verif
