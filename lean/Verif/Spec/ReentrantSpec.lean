import Verif.Model.Reentrant
import Verif.Spec.MarketSpec

/-!
# Specification: what an observer has last seen
-/

namespace Verif.Spec
variable {F : Type} [Fl F]

/-- The last `update()` delivered to observer `o`. -/
def lastSeen (m : Market F) (o : Nat) : Option (Note F) :=
  (m.log.filter (fun n => n.obs == o)).getLast?

/-- During its last `update()` observer `o` could read the present data of its ticker and the
present rate. -/
def UpToDate (m : Market F) (o : Nat) : Prop :=
  ∃ ob, m.objs[o]? = some ob ∧ lastSeen m o = some ⟨o, m.lookup ob.id, m.r⟩

/-- The call `c` with outcome `r` completes its notifications: an update, `setR` or a notification
ends without exception, and `addStock`, which notifies nobody, is not made (successfully). -/
def Completes : Call F × Res (Val F) → Prop
  | (.addStock _ _ _ _, r) => ¬ r.IsOk
  | (.updatePrice _ _, r) => r.IsOk
  | (.updateSigma _ _, r) => r.IsOk
  | (.updateCoupon _ _, r) => r.IsOk
  | (.setR _, r) => r.IsOk
  | (.notifyObserver _, r) => r.IsOk
  | (.notifyObservers, r) => r.IsOk
  | _ => True

/-- The call notifies the observers of ticker `t`. -/
def NotifiesTicker (t : String) : Call F → Prop
  | .updatePrice t' _ => t' = t
  | .updateSigma t' _ => t' = t
  | .updateCoupon t' _ => t' = t
  | .notifyObserver t' => t' = t
  | .setR _ => True
  | .notifyObservers => True
  | _ => False

end Verif.Spec
