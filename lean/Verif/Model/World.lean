import Verif.Model.OptionFactory

/-!
# Histories

The calls a program can make on the market data, the observers and the factories, as data, so that
properties can be stated for every history.
-/

namespace Verif

/-- One call of the public API (market_data.h:29-48, base_factory_option.h:26-27,
base_option.h:48), or an event in the life of an observer. -/
inductive Call (F : Type)
  | addStock (t : String) (S sigma : F) (c : Option F)
  | updatePrice (t : String) (S : F)
  | updateSigma (t : String) (sigma : F)
  | updateCoupon (t : String) (c : Option F)
  | getStockData (t : String)
  | getR
  | setR (r : F)
  | addObserver (o : Nat)
  | removeObserver
  | notifyObserver (id : String)
  | notifyObservers
  | newObserver (id : String)
  | createOption (f : Factory) (ordP ordO : List Arg) (params : List (String × Param F))
      (ty : PayoffType)
  | release (o : Nat)

/-- Result values of calls. -/
inductive Val (F : Type)
  | unit
  | handle (p : Nat)
  | number (x : F)
  | object (o : Nat)
  deriving DecidableEq, Repr

namespace World
variable {F : Type} [Fl F]

/-- Build a parameter object by a sequence of `setParameter` calls. -/
def mkParams (kvs : List (String × Param F)) : ParameterObject F :=
  kvs.foldl (fun p kv => p.setParameter kv.1 kv.2) ParameterObject.empty

/-- Execute one call (dispatch to the functions of `Market` and `OptionModel`). -/
def exec : Call F → Eff (Market F) (Val F)
  | .addStock t S sigma c => do Market.addStock t S sigma c; return .unit
  | .updatePrice t S => do Market.updateStockPrice t S; return .unit
  | .updateSigma t sigma => do Market.updateStockSigma t sigma; return .unit
  | .updateCoupon t c => do Market.updateStockCoupon t c; return .unit
  | .getStockData t => do let p ← Market.getStockData t; return .handle p
  | .getR => do let x ← Market.getR; return .number x
  | .setR r => do Market.setR r; return .unit
  | .addObserver o => do Market.addObserver o; return .unit
  | .removeObserver => do Market.removeObserver; return .unit
  | .notifyObserver id => fun m => (.ok .unit, m.notifyObserver id)
  | .notifyObservers => fun m => (.ok .unit, m.notifyObservers)
  | .newObserver id => do let o ← OptionModel.newObserver id; return .object o
  | .createOption f ordP ordO ps ty => do
      let o ← OptionModel.createOption f ordP ordO (mkParams ps) ty
      return .object o
  | .release o => do OptionModel.release o; return .unit

/-- The state after a call; the program catches exceptions and goes on. -/
def step (m : Market F) (c : Call F) : Market F := (exec c m).2

/-- The outcome of a call. -/
def outcome (m : Market F) (c : Call F) : Res (Val F) := (exec c m).1

/-- The state after a history. -/
def run (m : Market F) (h : List (Call F)) : Market F := h.foldl step m

end World
end Verif
