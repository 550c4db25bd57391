import Verif.Model.Pricer
import Verif.Model.World

/-!
# Programs that use the market data and price options

The calls of a program on the whole system, as data, so that properties can be stated for every program.  Models,
builders and pricers are values the program holds; their destruction has no effect on the system.
-/

namespace Verif

/-- One call of the public API. -/
inductive SysCall (E Q F : Type)
  | market (c : Call F)
  | newGenerator (o : GenObj E Q F)
  | draw (g : Nat) (d : Dist F)
  | newModel (ticker : String) (gen : Nat) (kind : StockData F → Res (ModelKind F))
  | simulatePrices (mo : ModelObj F) (T : F)
  | simulatePriceAtMaturity (mo : ModelObj F) (T : F)
  | simulatePriceBackward (mo : ModelObj F) (Snext tj tjp1 : F)
  | build (b : Builder F) (rd : Nat)
  | calculatePrice (p : Pricer F) (N : Nat)

namespace SysCall
variable {E Q F : Type} [Fl F] [Add F] [Sub F] [Mul F] [Div F] [Neg F] [FlInt F]

/-- `simulatePrices(T)` on a model object (base_model.h:21), see `ModelObj.source`. -/
def runPrices (env : Env E Q F) (mo : ModelObj F) (T : F) : Eff (Sys E Q F) (List F) := do
  let steps ← mo.getSteps
  (mo.source env steps).simulatePrices T

/-- `simulatePriceAtMaturity(T)` on a model object (base_model.h:20). -/
def runMaturity (env : Env E Q F) (mo : ModelObj F) (T : F) : Eff (Sys E Q F) F := do
  let steps ← mo.getSteps
  (mo.source env steps).simulatePriceAtMaturity T

/-- `simulatePriceBackward` on a model object (base_model.h:22-24, base_model.cpp:21-25). -/
def runBackward (env : Env E Q F) (mo : ModelObj F) (Snext tj tjp1 : F) : Eff (Sys E Q F) F :=
  (mo.source env 0).simulatePriceBackward Snext tj tjp1

variable [FlInf F]

/-- Execute one call and forget the value (dispatch to the functions of `World`, `ModelObj`, `Builder`, `Pricer`).
The constructors of the generators (pseudo_random_generator.h, sobol_quasi_random_generator.h,
faure_quasi_random_generator.h) make a new object, here given with its initial state. -/
def exec (env : Env E Q F) : SysCall E Q F → Eff (Sys E Q F) Unit
  | market c => do let _ ← Sys.onMarket (World.exec c)
  | newGenerator o => do let _ ← Sys.newGen o
  | draw g d => do let _ ← Sys.onGen g (GenObj.draw env d)
  | newModel t g k => do let _ ← ModelObj.construct t g k
  | simulatePrices mo T => do let _ ← runPrices env mo T
  | simulatePriceAtMaturity mo T => do let _ ← runMaturity env mo T
  | simulatePriceBackward mo S t t' => do let _ ← runBackward env mo S t t'
  | build b rd => fun s =>
      let r := Builder.build env rd (b, s)
      ((do let _ ← r.1), r.2.2)
  | calculatePrice p N => do let _ ← p.calculatePrice env N

/-- The state after a call; the program catches exceptions and goes on. -/
def step (env : Env E Q F) (s : Sys E Q F) (c : SysCall E Q F) : Sys E Q F := (exec env c s).2

/-- The state after a program. -/
def run (env : Env E Q F) (s : Sys E Q F) (h : List (SysCall E Q F)) : Sys E Q F := h.foldl (step env) s

end SysCall
end Verif
