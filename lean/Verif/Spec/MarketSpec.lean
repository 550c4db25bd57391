import Verif.Model.World
import Verif.Num.Dbl

/-!
# Specification of the market data

What a user of the market data sees, as functions of the history of calls.  Only the *types* of the
model are used here (`Call`, `StockData`, `Market` as a record), none of its functions.
Histories are given with the most recent call first.
-/

namespace Verif.Spec
variable {F : Type} [Fl F]

/-- The data are accepted by the library: price not `<= 0`, sigma not `< 0`, coupon (if any)
neither `< 0` nor `> 1`, with the comparisons of `double` (so NaN is accepted). -/
def Accepted (S sigma : F) (c : Option F) : Prop :=
  Fl.le S (lit 0) = false ∧ Fl.lt sigma (lit 0) = false ∧
    ∀ x, c = some x → Fl.lt x (lit 0) = false ∧ Fl.lt (lit 1) x = false

open Classical in
/-- The data of ticker `t` after a history (most recent call first): the last accepted `addStock`
of `t`, with each field overwritten by the later updates of that field, if the ticker was known. -/
noncomputable def data : List (Call F) → String → Option (StockData F)
  | [], _ => none
  | .addStock t' S sigma c :: h, t =>
    if t' = t ∧ Accepted S sigma c then some ⟨S, sigma, c⟩ else data h t
  | .updatePrice t' S :: h, t =>
    if t' = t then (data h t).map (fun d => ⟨S, d.sigma, d.coupon⟩) else data h t
  | .updateSigma t' s :: h, t =>
    if t' = t then (data h t).map (fun d => ⟨d.price, s, d.coupon⟩) else data h t
  | .updateCoupon t' c :: h, t =>
    if t' = t then (data h t).map (fun d => ⟨d.price, d.sigma, c⟩) else data h t
  | _ :: h, t => data h t

/-- The rate after a history (most recent call first): the last one set, 0.05 before. -/
def rate : List (Call F) → F
  | [] => lit (5 / 100)
  | .setR r :: _ => r
  | _ :: h => rate h

/-- The ticker a call writes to, if any. -/
def writesTo : Call F → Option String
  | .addStock t _ _ _ => some t
  | .updatePrice t _ => some t
  | .updateSigma t _ => some t
  | .updateCoupon t _ => some t
  | _ => none

/-- The call is one of the three update calls, on ticker `t`. -/
def IsUpdateOf (t : String) : Call F → Prop
  | .updatePrice t' _ => t' = t
  | .updateSigma t' _ => t' = t
  | .updateCoupon t' _ => t' = t
  | _ => False

/-- Observer `o` is alive. -/
def Alive (m : Market F) (o : Nat) : Prop := ∃ ob, m.objs[o]? = some ob ∧ ob.alive = true

/-- Observer `o` is alive and watches `id`. -/
def Watches (m : Market F) (id : String) (o : Nat) : Prop :=
  ∃ ob, m.objs[o]? = some ob ∧ ob.alive = true ∧ ob.id = id

open Classical in
/-- Registrations, in order, of the live observers of `id`. -/
noncomputable def watchers (m : Market F) (id : String) : List Nat :=
  m.observers.filter (fun o => decide (Watches m id o))

open Classical in
/-- Registrations, in order, of all live observers. -/
noncomputable def liveObservers (m : Market F) : List Nat :=
  m.observers.filter (fun o => decide (Alive m o))

/-- Valid stock data in the sense of the documentation: a positive price, a non-negative
volatility, a coupon rate between 0 and 1; none of them NaN. -/
def Valid {R : Rounding} (d : StockData (Dbl R)) : Prop :=
  (∃ e, d.price = .num e ∧ 0 < e) ∧ (∃ e, d.sigma = .num e ∧ 0 ≤ e) ∧
    ∀ x, d.coupon = some x → ∃ e, x = .num e ∧ 0 ≤ e ∧ e ≤ 1

/-- No argument of the call is NaN. -/
def NoNaN {R : Rounding} : Call (Dbl R) → Prop
  | .addStock _ S s c => S ≠ .nan ∧ s ≠ .nan ∧ c ≠ some .nan
  | .updatePrice _ S => S ≠ .nan
  | .updateSigma _ s => s ≠ .nan
  | .updateCoupon _ c => c ≠ some .nan
  | _ => True

end Verif.Spec

namespace Verif.Spec
variable {F : Type} [Fl F]

/-- A user who calls `getStockData(t)` and reads the returned object gets `d`. -/
def Reads (m : Market F) (t : String) (d : StockData F) : Prop :=
  ∃ p, World.outcome m (.getStockData t) = .ok (.handle p) ∧ Market.deref p m = (.ok d, m)

/-- Some `addStock` of the ticker with accepted arguments is in the history. -/
def EverAdded (h : List (Call F)) (t : String) : Prop :=
  ∃ S s c, Call.addStock t S s c ∈ h ∧ Accepted S s c

/-- Two doubles are numerically equal: neither is NaN and they are the same extended real. -/
def NumEq {R : Rounding} (a b : Dbl R) : Prop := ∃ e, a = .num e ∧ b = .num e

end Verif.Spec
