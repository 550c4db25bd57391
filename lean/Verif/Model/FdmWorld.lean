import Verif.Model.Fdm
import Verif.Model.World

/-!
# Histories of calls on the market data and one finite difference solver
-/

namespace Verif

/-- A call on the market data, or on the solver (base_fdm_solver.h:61-62, base_fdm_solver.cpp:48-64). -/
inductive FdmCall (F : Type)
  | market (c : Call F)
  | solve
  | calculatePrice

namespace FdmWorld
variable {F : Type} [Fl F] [Add F] [Sub F] [Mul F] [Div F] [Neg F]

/-- `marketData_->getStockData(option_->getID())->getPrice()` (base_fdm_solver.cpp:62). -/
def spot (o : OptObj F) (m : Market F) : Res F := do
  let d ← BlackScholes.stock o m
  return d.price

/-- The state of the market data and of a solver with a `BlackScholesPDE` for the option `o` after a call; the
program catches exceptions and goes on.  The solver reads the market data only during its own calls. -/
def step (sc : Scheme F) (k : Interp.Kind) (o : OptObj F) (fuel : Nat) (w : Market F × Fdm F) : FdmCall F → Market F × Fdm F
  | .market c => (World.step w.1 c, w.2)
  | .solve => (w.1, (Fdm.solve sc (BlackScholes.pde o w.1) fuel w.2).2)
  | .calculatePrice => (w.1, (Fdm.calculatePrice sc k (BlackScholes.pde o w.1) (spot o w.1) fuel w.2).2)

/-- The state after a history. -/
def run (sc : Scheme F) (k : Interp.Kind) (o : OptObj F) (fuel : Nat) (w : Market F × Fdm F) (h : List (FdmCall F)) : Market F × Fdm F :=
  h.foldl (step sc k o fuel) w

end FdmWorld
end Verif
