import Verif.Model.World

/-!
# Observers that call back into the market data
(`/repo/src/market_data/market_data.cpp`:24-96)

`MarketDataObserver` is an interface (include/market_data/market_data_observer.h:8-19): besides
`Option`, whose `update()` does nothing, users write their own observers.  `Model/Market.lean`
assumes that they do not call the market data from inside `update()`.  Here they may: `update()` is
an arbitrary program that makes calls of the API, sees their outcomes and the market data, may catch
exceptions, and returns or throws.

The notification loops iterate over `observers_` with iterators (a range `for`): when a nested call
changes the vector (`push_back`, `erase_if`), the iterators of the running loops are invalid and
their next use is undefined behaviour.  The vector carries a number of changes for that purpose.
A loop holds a `shared_ptr` to the observer it is notifying (`lock()`, line 37 and 48): dropping the
last other reference to this observer destroys it only when the loop lets it go.
-/

namespace Verif

/-- The body of a user-defined `update()`: return, throw, or make a call of the API and go on
depending on the outcome of the call and on the market data after it. -/
inductive Prog (F : Type)
  | done
  | throw (e : Exc)
  | call (c : Call F) (k : Res (Val F) → Market F → Prog F)

/-- The market data while notifications are running.  `changes` counts the modifications of
`observers_`; `held` lists the observers whose `update()` is running (innermost first); `dropped`
lists those of them to which no other `shared_ptr` exists any more; `trace` is the ghost list of the
calls that have ended, nested ones first, with their outcomes. -/
structure RState (F : Type) where
  m : Market F
  changes : Nat
  held : List Nat
  dropped : List Nat
  trace : List (Call F × Res (Val F))

namespace Reentrant
variable {F : Type} [Fl F]

/-- Run the body of an `update()`; `ex` runs the nested calls. -/
def runProg (ex : Call F → Eff (RState F) (Val F)) : Prog F → Eff (RState F) Unit
  | .done, s => (.ok (), s)
  | .throw e, s => (.throw e, s)
  | .call c k, s =>
    match ex c s with
    | (.ub, s') => (.ub, s')
    | (.ok v, s') => runProg ex (k (.ok v) s'.m) s'
    | (.throw e, s') => runProg ex (k (.throw e) s'.m) s'

/-- Replace the market data, counting a change of `observers_`. -/
def withMarket (s : RState F) (m' : Market F) : RState F :=
  { s with m := m', changes := if m'.observers = s.m.observers then s.changes else s.changes + 1 }

/-- A call that notifies nobody: as in `World.exec`. -/
def plain (c : Call F) : Eff (RState F) (Val F) := fun s =>
  ((World.exec c s.m).1, withMarket s (World.exec c s.m).2)

/-- End of the scope of `obs` (market_data.cpp:41 and 50): the loop lets the observer go; if no
other reference to it is left, it is destroyed. -/
def unlock (o : Nat) (s : RState F) : RState F :=
  if o ∈ s.dropped ∧ o ∉ s.held.erase o then
    withMarket { s with held := s.held.erase o } (OptionModel.release o s.m).2
  else { s with held := s.held.erase o }

/-- The loops of `notifyObserver` (market_data.cpp:36-42, `sel` compares the id) and of
`notifyObservers` (lines 47-51, `sel` accepts all).  `v` is `changes` when the loop started.  After
each `update()` the iterators are used again (`++it`, `it != end`), also after the last one. -/
def notifyLoop (ex : Call F → Eff (RState F) (Val F)) (upd : Nat → Market F → Prog F)
    (sel : String → Bool) (v : Nat) : List Nat → Eff (RState F) Unit
  | [], s => (.ok (), s)
  | o :: os, s =>
    match s.m.objs[o]? with
    | some ob =>
      if ob.alive && sel ob.id then
        match runProg ex (upd o (s.m.deliver o ob.id))
            { s with m := s.m.deliver o ob.id, held := o :: s.held } with
        | (.ok (), s2) =>
          if (unlock o s2).changes = v then notifyLoop ex upd sel v os (unlock o s2)
          else (.ub, unlock o s2)
        | (.throw e, s2) => (.throw e, unlock o s2)
        | (.ub, s2) => (.ub, s2)
      else notifyLoop ex upd sel v os s
    | none => notifyLoop ex upd sel v os s

/-- `notifyObserver` / `notifyObservers` (market_data.cpp:35-52). -/
def notify (ex : Call F → Eff (RState F) (Val F)) (upd : Nat → Market F → Prog F)
    (sel : String → Bool) : Eff (RState F) (Val F) := fun s =>
  match notifyLoop ex upd sel s.changes s.m.observers s with
  | (.ok (), s') => (.ok .unit, s')
  | (.throw e, s') => (.throw e, s')
  | (.ub, s') => (.ub, s')

/-- The three update functions (market_data.cpp:54-80): find the ticker, run the setter, notify. -/
def updateWith (ex : Call F → Eff (RState F) (Val F)) (upd : Nat → Market F → Prog F)
    (errMsg : String) (t : String) (setter : Eff (StockData F) Unit) : Eff (RState F) (Val F) :=
  fun s =>
  match mapFind t s.m.stockDataMap with
  | none => (invalidArg errMsg, s)
  | some p =>
    match s.m.heap[p]? with
    | none => (.ub, s)
    | some d =>
      match setter d with
      | (.ok (), d') =>
        notify ex upd (fun id => id == t) { s with m := { s.m with heap := s.m.heap.set p d' } }
      | (.throw e, d') => (.throw e, { s with m := { s.m with heap := s.m.heap.set p d' } })
      | (.ub, d') => (.ub, { s with m := { s.m with heap := s.m.heap.set p d' } })

/-- One call, with `ex` for the nested calls made by the observers. -/
def body (ex : Call F → Eff (RState F) (Val F)) (upd : Nat → Market F → Prog F) :
    Call F → Eff (RState F) (Val F)
  | .updatePrice t S =>
    updateWith ex upd (t ++ " is no present in the MarketData object") t (StockData.setPrice S)
  | .updateSigma t sigma =>
    updateWith ex upd (t ++ " is no present in the MarketData object") t (StockData.setSigma sigma)
  | .updateCoupon t c =>
    updateWith ex upd (t ++ " is no present in the MarketData object.") t (StockData.setCoupon c)
  | .setR r => fun s => notify ex upd (fun _ => true) { s with m := { s.m with r := r } }
  | .notifyObserver id => notify ex upd (fun i => i == id)
  | .notifyObservers => notify ex upd (fun _ => true)
  | .release o => fun s =>
    if o ∈ s.held then (.ok .unit, { s with dropped := o :: s.dropped }) else plain (.release o) s
  | c => plain c

/-- One call; `upd o m` is the `update()` of observer `o` called when the market data are `m`.  The
first argument is the depth of the call stack: nested deeper, the stack overflows, which is
undefined behaviour. -/
def exec (upd : Nat → Market F → Prog F) : Nat → Call F → Eff (RState F) (Val F)
  | 0, _ => fun s => (.ub, s)
  | n + 1, c => fun s =>
    ((body (exec upd n) upd c s).1,
      { (body (exec upd n) upd c s).2 with
        trace := (body (exec upd n) upd c s).2.trace ++ [(c, (body (exec upd n) upd c s).1)] })

/-- No notification running. -/
def start (m : Market F) : RState F :=
  { m := m, changes := 0, held := [], dropped := [], trace := [] }

end Reentrant
end Verif
