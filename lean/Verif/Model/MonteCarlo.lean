import Verif.Model.Control
import Verif.Model.OptionFactory

/-!
# Monte Carlo pricers (`/repo/src/solver/monte_carlo`)

The pricers are written over an arbitrary source of simulated prices (the stock model of the
pricer), with an arbitrary state `σ` (generator and market data).
-/

namespace Verif

/-- What a pricer uses of its `StockModel` (include/model/base_model.h). -/
structure PathSource (σ F : Type) where
  steps : Nat
  simulatePrices : F → Eff σ (List F)
  simulatePriceAtMaturity : F → Eff σ F
  simulatePriceBackward : F → F → F → Eff σ F

namespace MC
variable {F σ : Type} [Fl F] [Add F] [Sub F] [Mul F] [Div F] [Neg F]

/-- `exp(-marketData_->getR() * option_->getT())` -/
def discount (r T : F) : F := Fl.exp (-r * T)

/-- `(sumPayoff / static_cast<double>(N)) * discountFactor` -/
def finish (sum : F) (N : Nat) (df : F) : F := sum / lit (N : ℚ) * df

/-- `for (int t = 0; t < steps; ++t) { body(S[t]); }` with an optional `break` (second component of
the body's result).  `k` is the number of iterations left, `t` the index. -/
def scan {α : Type} (body : α → F → α × Bool) (S : List F) : Nat → Nat → α → Res α
  | 0, _, a => .ok a
  | k + 1, t, a => do
    let x ← vget S t
    let r := body a x
    if r.2 then .ok r.1
    else if t < INT_MAX then scan body S k (t + 1) r.1
    else .ub

/-- `SinglePathMCPricer::calculatePrice` (mc_single_path.cpp:12-22). -/
def singlePath (src : PathSource σ F) (getR : Eff σ F) (pay : F → Res F) (T : F) (N : Nat) :
    Eff σ F := do
  let r ← getR
  let df := discount r T
  let sum ← Eff.forInt (fun acc => do
    let S ← src.simulatePriceAtMaturity T
    let p ← Eff.lift (pay S)
    return acc + p) N (lit 0)
  return finish sum N df

/-- The two Asian pricers. -/
inductive AsianKind
  | arithmetic
  | geometric
  deriving DecidableEq, Repr

/-- `computeSumPrices` (mc_asian.cpp:39-41, 54-56). -/
def AsianKind.term : AsianKind → F → F
  | .arithmetic, S => S
  | .geometric, S => Fl.log S

/-- `computeAveragePrice` (mc_asian.cpp:43-45, 58-60). -/
def AsianKind.average : AsianKind → F → Nat → F
  | .arithmetic, x, steps => x / lit (steps : ℚ)
  | .geometric, x, steps => Fl.exp (x / lit (steps : ℚ))

/-- The body of the path loop of `AsianMCPricer::calculatePrice` on one path (mc_asian.cpp:18-26). -/
def asianPath (k : AsianKind) (pay : F → Res F) (steps : Nat) (S : List F) : Res F := do
  let sumPrices ← scan (fun a x => (a + k.term x, false)) S steps 0 (lit 0)
  pay (k.average sumPrices steps)

/-- `AsianMCPricer::calculatePrice` (mc_asian.cpp:12-30); the path index is an `unsigned long`. -/
def asian (k : AsianKind) (src : PathSource σ F) (getR : Eff σ F) (pay : F → Res F) (T : F)
    (N : Nat) : Eff σ F := do
  let r ← getR
  let df := discount r T
  let sum ← Eff.forN (fun acc => do
    let S ← src.simulatePrices T
    let p ← Eff.lift (asianPath k pay src.steps S)
    return acc + p) N (lit 0)
  return finish sum N df

/-- The two barrier pricers. -/
inductive KnockKind
  | knockIn
  | knockOut
  deriving DecidableEq, Repr

/-- `checkHasCrossed` (mc_barrier.cpp:40-45, 58-64): new value of `hasCrossed` and whether to leave
the loop. -/
def KnockKind.check (isActive : F → Bool) : KnockKind → Bool → F → Bool × Bool
  | .knockIn, hasCrossed, S => (if isActive S then true else hasCrossed, false)
  | .knockOut, hasCrossed, S => if !(isActive S) then (true, true) else (hasCrossed, false)

/-- `computePayoff` (mc_barrier.cpp:47-49, 66-68). -/
def KnockKind.payoff (pay : F → Res F) : KnockKind → F → Bool → Res F
  | .knockIn, S, hasCrossed => if hasCrossed then pay S else .ok (lit 0)
  | .knockOut, S, hasCrossed => if hasCrossed then .ok (lit 0) else pay S

/-- The body of the path loop of `BarrierMCPricer::calculatePrice` on one path
(mc_barrier.cpp:19-27). -/
def barrierPath (k : KnockKind) (isActive : F → Bool) (pay : F → Res F) (steps : Nat)
    (S : List F) : Res F := do
  let hasCrossed ← scan (k.check isActive) S steps 0 false
  let last ← vget S (upred steps)
  k.payoff pay last hasCrossed

/-- `BarrierMCPricer::calculatePrice` (mc_barrier.cpp:12-31). -/
def barrier (k : KnockKind) (src : PathSource σ F) (getR : Eff σ F) (isActive : F → Bool)
    (pay : F → Res F) (T : F) (N : Nat) : Eff σ F := do
  let r ← getR
  let df := discount r T
  let sum ← Eff.forInt (fun acc => do
    let S ← src.simulatePrices T
    let p ← Eff.lift (barrierPath k isActive pay src.steps S)
    return acc + p) N (lit 0)
  return finish sum N df

/-- The two lookback pricers. -/
inductive LookbackKind
  | floating
  | fixed
  deriving DecidableEq, Repr

/-- `computePayoff` (mc_lookback.cpp:41-47, 57-63). -/
def LookbackKind.payoff (p : Payoff F) : LookbackKind → F → F → F → Res F
  | .floating, ST, Smin, Smax =>
    if p.payoffType = .call then p.eval2 ST Smin else p.eval2 ST Smax
  | .fixed, _, Smin, Smax => if p.payoffType = .call then p.eval1 Smax else p.eval1 Smin

variable [FlInf F]

/-- The body of the path loop of `LookbackMCPricer::calculatePrice` on one path
(mc_lookback.cpp:19-27). -/
def lookbackPath (k : LookbackKind) (p : Payoff F) (steps : Nat) (S : List F) : Res F := do
  let ext ← scan (fun a x => ((Fl.min a.1 x, Fl.max a.2 x), false)) S steps 0
    ((FlInf.inf, -FlInf.inf) : F × F)
  let last ← vget S (upred steps)
  k.payoff p last ext.1 ext.2

/-- `LookbackMCPricer::calculatePrice` (mc_lookback.cpp:12-31). -/
def lookback (k : LookbackKind) (src : PathSource σ F) (getR : Eff σ F) (p : Payoff F) (T : F)
    (N : Nat) : Eff σ F := do
  let r ← getR
  let df := discount r T
  let sum ← Eff.forInt (fun acc => do
    let S ← src.simulatePrices T
    let x ← Eff.lift (lookbackPath k p src.steps S)
    return acc + x) N (lit 0)
  return finish sum N df

end MC
end Verif
