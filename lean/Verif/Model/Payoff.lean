import Verif.Num.Res
import Verif.Num.Fl

/-!
# Payoffs (`/repo/src/payoff`, `/repo/include/payoff`)
-/

namespace Verif

/-- `enum class PayoffType` (include/payoff/base_payoff.h:9-13).  A scoped enum can hold every value
of its underlying type; `other` stands for the values without enumerator. -/
inductive PayoffType
  | call
  | put
  | doubleDigital
  | other (n : Nat)
  deriving DecidableEq, Repr

/-- `PayoffTypeToString` (include/payoff/base_payoff.h:15-24). -/
def PayoffType.toStr : PayoffType → String
  | .call => "Call"
  | .put => "Put"
  | .doubleDigital => "DoubleDigital"
  | .other _ => "Unknown"

/-- A `Payoff` object: its dynamic class and its data members.
`vanilla`: src/payoff/single_strike/payoff_vanilla.cpp, `digital`:
src/payoff/single_strike/payoff_digital.cpp, `doubleDigital`:
src/payoff/double_strikes/payoff_double_digital.cpp, `floatingLookback`:
src/payoff/payoff_floating_strike_lookback.cpp.  The `type_` member of a double digital payoff is
always `PayoffType::DoubleDigital` (payoff_double_digital.cpp:7). -/
inductive Payoff (F : Type)
  | vanilla (ty : PayoffType) (K : F)
  | digital (ty : PayoffType) (K : F)
  | doubleDigital (KL KU : F)
  | floatingLookback (ty : PayoffType)
  deriving DecidableEq, Repr

namespace Payoff
variable {F : Type}

/-- `Payoff::getPayoffType` (src/payoff/base_payoff.cpp:13-15). -/
def payoffType : Payoff F → PayoffType
  | vanilla ty _ => ty
  | digital ty _ => ty
  | doubleDigital _ _ => .doubleDigital
  | floatingLookback ty => ty

section
variable [Fl F]

/-- The strike check of `PayoffSingleStrike::PayoffSingleStrike`
(src/payoff/single_strike/base_payoff_single_strike.cpp:7-9). -/
def checkStrike (K : F) : Res Unit :=
  if Fl.lt K (lit 0) then invalidArg "Strike price (K) must be positive." else .ok ()

/-- `type != Call && type != Put` (payoff_vanilla.cpp:8, payoff_digital.cpp:8,
payoff_floating_strike_lookback.cpp:7). -/
def notCallPut (ty : PayoffType) : Bool := decide (ty ≠ .call) && decide (ty ≠ .put)

/-- `PayoffVanilla::PayoffVanilla` (src/payoff/single_strike/payoff_vanilla.cpp:7-10): the base
class constructor runs first. -/
def mkVanilla (ty : PayoffType) (K : F) : Res (Payoff F) := do
  checkStrike K
  if notCallPut ty then
    invalidArg "Invalid PayoffType for PayoffVanilla. Expected Call or Put."
  else .ok (vanilla ty K)

/-- `PayoffDigital::PayoffDigital` (src/payoff/single_strike/payoff_digital.cpp:7-10). -/
def mkDigital (ty : PayoffType) (K : F) : Res (Payoff F) := do
  checkStrike K
  if notCallPut ty then
    invalidArg "Invalid PayoffType for PayoffVanilla. Expected Call or Put."
  else .ok (digital ty K)

/-- `PayoffDoubleDigital::PayoffDoubleDigital`
(src/payoff/double_strikes/payoff_double_digital.cpp:6-7 and
src/payoff/double_strikes/base_payoff_double_strikes.cpp:7-11). -/
def mkDoubleDigital (KL KU : F) : Res (Payoff F) :=
  if Fl.lt KL (lit 0) then invalidArg "Lower Strike price (K_L) must be positive."
  else if Fl.lt KU (lit 0) then invalidArg "Upper Strike price (K_U) must be positive."
  else .ok (doubleDigital KL KU)

/-- `PayoffLookbackFloatingStrike::PayoffLookbackFloatingStrike`
(src/payoff/payoff_floating_strike_lookback.cpp:5-10). -/
def mkFloatingLookback (ty : PayoffType) : Res (Payoff F) :=
  if notCallPut ty then
    invalidArg "Invalid PayoffType for Floating Strike Lookback. Expected Call or Put."
  else .ok (floatingLookback ty)

variable [Sub F]

/-- `operator()(const double& S)`: payoff_vanilla.cpp:18-23, payoff_digital.cpp:18-23,
payoff_double_digital.cpp:15-17, and the throwing default (base_payoff.cpp:35-37) for the floating
strike lookback.  The virtual dispatch is the match on the class. -/
def eval1 (p : Payoff F) (S : F) : Res F :=
  match p with
  | vanilla ty K =>
    if ty = .call then .ok (Fl.max (S - K) (lit 0)) else .ok (Fl.max (K - S) (lit 0))
  | digital ty K =>
    if ty = .call then .ok (if Fl.gt S K then lit 1 else lit 0)
    else .ok (if Fl.gt K S then lit 1 else lit 0)
  | doubleDigital KL KU => .ok (if Fl.le KL S && Fl.le S KU then lit 1 else lit 0)
  | floatingLookback _ => logicErr "Single-argument operator() should be overridden."

/-- `operator()(const double& S, const double& extremeS)`:
payoff_floating_strike_lookback.cpp:22-27, and the throwing default (base_payoff.cpp:39-41) for all
other classes. -/
def eval2 (p : Payoff F) (S extremeS : F) : Res F :=
  match p with
  | floatingLookback ty =>
    if ty = .call then .ok (Fl.max (S - extremeS) (lit 0))
    else .ok (Fl.max (extremeS - S) (lit 0))
  | _ => logicErr
      "Double-argument operator() should be overridden for Floating Strike Lookback."

end

/-- `typeid(*this) == typeid(other)` (base_payoff.cpp:22). -/
def sameClass : Payoff F → Payoff F → Bool
  | vanilla _ _, vanilla _ _ => true
  | digital _ _, digital _ _ => true
  | doubleDigital _ _, doubleDigital _ _ => true
  | floatingLookback _, floatingLookback _ => true
  | _, _ => false

/-- `compare` (payoff_vanilla.cpp:29-33, payoff_digital.cpp:29-33, payoff_double_digital.cpp:19-23,
payoff_floating_strike_lookback.cpp:29-32): false for another class (failed `dynamic_cast`). -/
def compare [Fl F] : Payoff F → Payoff F → Bool
  | vanilla ty K, vanilla ty' K' => decide (ty = ty') && Fl.eqb K K'
  | digital ty K, digital ty' K' => decide (ty = ty') && Fl.eqb K K'
  | doubleDigital KL KU, doubleDigital KL' KU' => Fl.eqb KU KU' && Fl.eqb KL KL'
  | floatingLookback ty, floatingLookback ty' => decide (ty = ty')
  | _, _ => false

/-- `Payoff::operator==` (base_payoff.cpp:21-24). -/
def beq [Fl F] (p q : Payoff F) : Bool :=
  if sameClass p q then compare p q && compare q p else false

/-- `Payoff::operator!=` (base_payoff.cpp:26-28). -/
def bne [Fl F] (p q : Payoff F) : Bool := !(beq p q)

/-- `clone` (payoff_vanilla.cpp:14-16, payoff_digital.cpp:14-16, payoff_double_digital.cpp:11-13,
payoff_floating_strike_lookback.cpp:18-20): `make_unique<C>(*this)`, i.e. the implicit copy
constructor of the dynamic class, which copies every member. -/
def clone : Payoff F → Payoff F
  | vanilla ty K => vanilla ty K
  | digital ty K => digital ty K
  | doubleDigital KL KU => doubleDigital KL KU
  | floatingLookback ty => floatingLookback ty

end Payoff
end Verif
