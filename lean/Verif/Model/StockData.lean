import Verif.Num.Res
import Verif.Num.Fl

/-!
# Stock data (`/repo/src/market_data/stock_data.cpp`)
-/

namespace Verif

/-- The members of `StockData` (include/market_data/stock_data.h:28-30). -/
structure StockData (F : Type) where
  price : F
  sigma : F
  coupon : Option F
  deriving DecidableEq, Repr

namespace StockData
variable {F : Type} [Fl F]

/-- `StockData::validate` (stock_data.cpp:55-66). -/
def validate (d : StockData F) : Res Unit :=
  if Fl.le d.price (lit 0) then invalidArg "Price must be positive."
  else if Fl.lt d.sigma (lit 0) then invalidArg "Sigma cannot be negative."
  else
    match d.coupon with
    | some c =>
      if Fl.lt c (lit 0) || Fl.gt c (lit 1) then
        invalidArg "Coupon rate must be between 0 and 1."
      else .ok ()
    | none => .ok ()

/-- `StockData::StockData` (stock_data.cpp:6-9). -/
def construct (S sigma : F) (c : Option F) : Res (StockData F) := do
  let d : StockData F := ⟨S, sigma, c⟩
  d.validate
  return d

/-- `StockData::setPrice` (stock_data.cpp:40-43): assigns, then validates, so the new value stays
in the object also when the call throws. -/
def setPrice (S : F) : Eff (StockData F) Unit := fun d =>
  let d' := { d with price := S }
  (d'.validate, d')

/-- `StockData::setSigma` (stock_data.cpp:45-48): assigns, then validates. -/
def setSigma (sigma : F) : Eff (StockData F) Unit := fun d =>
  let d' := { d with sigma := sigma }
  (d'.validate, d')

/-- `StockData::setCoupon` (stock_data.cpp:50-53): assigns, then validates. -/
def setCoupon (c : Option F) : Eff (StockData F) Unit := fun d =>
  let d' := { d with coupon := c }
  (d'.validate, d')

/-- `StockData::operator==` (stock_data.cpp:23-34). -/
def beq (a b : StockData F) : Bool :=
  if !(Fl.eqb a.price b.price) || !(Fl.eqb a.sigma b.sigma) then false
  else if (!a.coupon.isSome) != (!b.coupon.isSome) then false
  else
    match a.coupon, b.coupon with
    | some x, some y => if !(Fl.eqb x y) then false else true
    | _, _ => true

/-- `StockData::operator!=` (stock_data.cpp:36-38). -/
def bne (a b : StockData F) : Bool := !(beq a b)

end StockData
end Verif
