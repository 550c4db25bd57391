import Verif.Model.System

/-!
# Specification: what pricing reads and what it changes
-/

namespace Verif.Spec
variable {E Q F : Type}

/-- The calls on the market data in a program. -/
def marketCalls (h : List (SysCall E Q F)) : List (Call F) :=
  h.filterMap fun c => match c with | .market c => some c | _ => none

/-- The generator a call may draw from. -/
def drawsFrom : SysCall E Q F → Option ℕ
  | .draw g _ => some g
  | .simulatePrices mo _ => some mo.gen
  | .simulatePriceAtMaturity mo _ => some mo.gen
  | .simulatePriceBackward mo _ _ _ => some mo.gen
  | .calculatePrice p _ => some p.model.gen
  | _ => none

/-- A system with one stock, a rate and one generator, and nothing else. -/
def alone (t : String) (d : StockData F) (r : F) (o : GenObj E Q F) : Sys E Q F :=
  ⟨⟨[d], [(t, 0)], r, [], [], []⟩, [o]⟩

/-- The pricer with its model moved to that system. -/
def moved (p : Pricer F) : Pricer F := { p with model := { p.model with handle := 0, gen := 0 } }

end Verif.Spec
