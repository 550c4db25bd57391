import Verif.Model.Threads

/-!
# Specification: data races (C++20, [intro.races])

An execution is the list of the operations of all threads in the order in which they took place.
-/

namespace Verif.Spec
variable {ι F : Type}

/-- Operation number `i` happens before operation number `j`: both by the same thread; or both hold
the mutex of `getInstance`, one after the other; or `i` starts the thread of `j`; or `j` waits for
the thread of `i`; or by a chain of these. -/
inductive HappensBefore (tr : List (ι × Op ι F)) : Nat → Nat → Prop
  | thread {i j : Nat} {a : ι} {x y : Op ι F} (h : i < j) (hi : tr[i]? = some (a, x))
      (hj : tr[j]? = some (a, y)) : HappensBefore tr i j
  | mutex {i j : Nat} {a b : ι} (h : i < j) (hi : tr[i]? = some (a, .getInstance))
      (hj : tr[j]? = some (b, .getInstance)) : HappensBefore tr i j
  | spawn {i j : Nat} {a b : ι} {y : Op ι F} (h : i < j) (hi : tr[i]? = some (a, .spawn b))
      (hj : tr[j]? = some (b, y)) : HappensBefore tr i j
  | join {i j : Nat} {a b : ι} {x : Op ι F} (h : i < j) (hi : tr[i]? = some (b, x))
      (hj : tr[j]? = some (a, .join b)) : HappensBefore tr i j
  | trans {i j k : Nat} (hij : HappensBefore tr i j) (hjk : HappensBefore tr j k) :
      HappensBefore tr i k

/-- Two accesses conflict: the same place, and one of them writes. -/
def Conflict (u v : Access) : Prop := u.loc = v.loc ∧ (u.write = true ∨ v.write = true)

variable [Fl F]

/-- The execution, started with the market data `m`, has a data race (hence undefined behaviour):
conflicting accesses by different threads, neither of which happens before the other. -/
def Race (m : Market F) (tr : List (ι × Op ι F)) : Prop :=
  ∃ i j a b x y u v, i < j ∧ tr[i]? = some (a, x) ∧ tr[j]? = some (b, y) ∧ a ≠ b ∧
    u ∈ Threads.accesses (Threads.run m (tr.take i)) x ∧
    v ∈ Threads.accesses (Threads.run m (tr.take j)) y ∧
    Conflict u v ∧ ¬ HappensBefore tr i j

omit [Fl F] in
/-- Operations that change nothing of the market data: look a stock up, read its data or the rate,
notify options, make an observer, get the instance, start or await threads. -/
def ReadOnly : Op ι F → Prop
  | .call (.getStockData _) => True
  | .call .getR => True
  | .call (.notifyObserver _) => True
  | .call .notifyObservers => True
  | .call (.newObserver _) => True
  | .call _ => False
  | _ => True

omit [Fl F] in
/-- The operation is an update of ticker `t`. -/
def Updates (t : String) : Op ι F → Prop
  | .call (.updatePrice t' _) => t' = t
  | .call (.updateSigma t' _) => t' = t
  | .call (.updateCoupon t' _) => t' = t
  | _ => False

/-- At some point of the execution, not after operation `j`, the market data gave out object `p` for
ticker `t`. -/
def HandleOf (m : Market F) (tr : List (ι × Op ι F)) (j : Nat) (p : Nat) (t : String) : Prop :=
  ∃ k ≤ j, World.outcome (Threads.run m (tr.take k)) (.getStockData t) = .ok (.handle p)

/-- Operation `x` (number `i`) concerns ticker `t` only: it updates it, or reads an object that was
obtained for it. -/
def Concerns (m : Market F) (tr : List (ι × Op ι F)) (i : Nat) (x : Op ι F) (t : String) : Prop :=
  Updates t x ∨ ∃ p f, x = .read p f ∧ HandleOf m tr i p t

/-- Operations that may run at the same time as an update: lookups, the rate, notifications (but
not getters on stock data). -/
def Bystander : Op ι F → Prop
  | .read _ _ => False
  | x => ReadOnly x

end Verif.Spec
