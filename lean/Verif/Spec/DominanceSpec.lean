import Verif.Model.Payoff

/-!
# Specification: contracts one of which always pays at least as much as the other
-/

namespace Verif.Spec

/-- `Dominated p q`: whatever the price of the underlying, contract `p` pays at most what contract `q` pays, by inspection of
the terms.  The strikes are compared with the `<=` of the numbers at hand, so none of them is NaN. -/
inductive Dominated {F : Type} [Fl F] : Payoff F → Payoff F → Prop
  /-- A call with a higher strike. -/
  | call {K₁ K₂ : F} : Fl.le K₁ K₂ = true → Dominated (.vanilla .call K₂) (.vanilla .call K₁)
  /-- A put with a lower strike. -/
  | put {K₁ K₂ : F} : Fl.le K₁ K₂ = true → Dominated (.vanilla .put K₁) (.vanilla .put K₂)
  /-- A digital call with a higher strike. -/
  | digitalCall {K₁ K₂ : F} : Fl.le K₁ K₂ = true → Dominated (.digital .call K₂) (.digital .call K₁)
  /-- A digital put with a lower strike. -/
  | digitalPut {K₁ K₂ : F} : Fl.le K₁ K₂ = true → Dominated (.digital .put K₁) (.digital .put K₂)
  /-- A double digital that pays on a smaller interval. -/
  | doubleDigital {L L' U U' : F} : Fl.le L' L = true → Fl.le U U' = true →
      Dominated (.doubleDigital L U) (.doubleDigital L' U')

/-- `EasierToTouch B B' up`: a price at or beyond the barrier `B` is at or beyond the barrier `B'`. -/
def EasierToTouch {F : Type} [Fl F] (B B' : F) (up : Bool) : Prop :=
  if up then Fl.le B' B = true else Fl.le B B' = true

end Verif.Spec
