import Verif.Spec.MarketSpec

/-!
# Helper lemmas on the market data state machine
-/

set_option linter.unusedSectionVars false

namespace Verif

theorem mapFind_mapAssign (t t' : String) (p : Nat) (m : List (String × Nat)) :
    mapFind t (mapAssign t' p m) = if t' = t then some p else mapFind t m := by
  induction m with
  | nil => by_cases h : t' = t <;> simp [mapAssign, mapFind, h]
  | cons kv kvs ih =>
    obtain ⟨k, v⟩ := kv
    by_cases hk : k = t'
    · subst hk
      by_cases h : k = t <;> simp [mapAssign, mapFind, h]
    · by_cases hkt : k = t
      · subst hkt
        simp [mapAssign, mapFind, hk, Ne.symm hk]
      · simp only [mapFind] at ih ⊢
        simp [mapAssign, hk, hkt, ih]

namespace Market
variable {F : Type}

/-- The state with notifications appended to the log. -/
def addLog (m : Market F) (l : List (Note F)) : Market F := { m with log := m.log ++ l }

@[simp] theorem addLog_heap (m : Market F) (l) : (m.addLog l).heap = m.heap := rfl
@[simp] theorem addLog_map (m : Market F) (l) : (m.addLog l).stockDataMap = m.stockDataMap := rfl
@[simp] theorem addLog_r (m : Market F) (l) : (m.addLog l).r = m.r := rfl
@[simp] theorem addLog_observers (m : Market F) (l) : (m.addLog l).observers = m.observers := rfl
@[simp] theorem addLog_objs (m : Market F) (l) : (m.addLog l).objs = m.objs := rfl
@[simp] theorem addLog_log (m : Market F) (l) : (m.addLog l).log = m.log ++ l := rfl
@[simp] theorem addLog_lookup (m : Market F) (l) (t) : (m.addLog l).lookup t = m.lookup t := rfl
@[simp] theorem addLog_watches (m : Market F) (l) (t o) :
    Spec.Watches (m.addLog l) t o ↔ Spec.Watches m t o := Iff.rfl
@[simp] theorem addLog_alive (m : Market F) (l) (o) :
    Spec.Alive (m.addLog l) o ↔ Spec.Alive m o := Iff.rfl
theorem addLog_addLog (m : Market F) (l l') : (m.addLog l).addLog l' = m.addLog (l ++ l') := by
  simp [addLog]
@[simp] theorem addLog_nil (m : Market F) : m.addLog [] = m := by simp [addLog]

theorem deliver_eq (m : Market F) (o : Nat) (id : String) :
    m.deliver o id = m.addLog [⟨o, m.lookup id, m.r⟩] := rfl

open Classical in
/-- The exact log delta of the loop over the ticker's observers. -/
theorem notifyObserverLoop_log (id : String) (os : List Nat) (m : Market F) :
    notifyObserverLoop id os m = m.addLog ((os.filter (fun o => decide (Spec.Watches m id o))).map
      (fun o => ⟨o, m.lookup id, m.r⟩)) := by
  induction os generalizing m with
  | nil => simp [notifyObserverLoop]
  | cons o os ih =>
    simp only [notifyObserverLoop]
    split
    · rename_i ob hob
      split
      · rename_i ha
        split
        · rename_i hid
          have hid' : ob.id = id := by simpa using hid
          have hw : Spec.Watches m id o := ⟨ob, hob, ha, hid'⟩
          rw [ih, deliver_eq, addLog_addLog]
          simp [hw, hid']
        · rename_i hid
          have hw : ¬ Spec.Watches m id o := by
            rintro ⟨ob', h1, -, h3⟩
            rw [hob] at h1; cases h1; simp [h3] at hid
          rw [ih]; simp [hw]
      · rename_i ha
        have hw : ¬ Spec.Watches m id o := by
          rintro ⟨ob', h1, h2, -⟩
          rw [hob] at h1; cases h1; exact ha h2
        rw [ih]; simp [hw]
    · rename_i hob
      have hw : ¬ Spec.Watches m id o := by
        rintro ⟨ob', h1, -, -⟩
        rw [hob] at h1; cases h1
      rw [ih]; simp [hw]

open Classical in
/-- The exact log delta of the loop over all observers. -/
theorem notifyObserversLoop_log (os : List Nat) (m : Market F) :
    notifyObserversLoop os m = m.addLog ((os.filter (fun o => decide (Spec.Alive m o))).map
      (fun o => ⟨o, (m.objs[o]?).bind (fun ob => m.lookup ob.id), m.r⟩)) := by
  induction os generalizing m with
  | nil => simp [notifyObserversLoop]
  | cons o os ih =>
    simp only [notifyObserversLoop]
    split
    · rename_i ob hob
      split
      · rename_i ha
        have hw : Spec.Alive m o := ⟨ob, hob, ha⟩
        rw [ih, deliver_eq, addLog_addLog]
        simp [hw, hob]
      · rename_i ha
        have hw : ¬ Spec.Alive m o := by
          rintro ⟨ob', h1, h2⟩
          rw [hob] at h1; cases h1; exact ha h2
        rw [ih]; simp [hw]
    · rename_i hob
      have hw : ¬ Spec.Alive m o := by
        rintro ⟨ob', h1, -⟩
        rw [hob] at h1; cases h1
      rw [ih]; simp [hw]

theorem notifyObserver_log (id : String) (m : Market F) :
    notifyObserver id m = m.addLog ((Spec.watchers m id).map (fun o => ⟨o, m.lookup id, m.r⟩)) :=
  notifyObserverLoop_log id m.observers m

theorem notifyObservers_log (m : Market F) :
    notifyObservers m = m.addLog ((Spec.liveObservers m).map
      (fun o => ⟨o, (m.objs[o]?).bind (fun ob => m.lookup ob.id), m.r⟩)) :=
  notifyObserversLoop_log m.observers m

/-- Well-formed states: the ticker map points into the arena, different tickers to different
objects. -/
structure WF (m : Market F) : Prop where
  bound : ∀ t p, mapFind t m.stockDataMap = some p → p < m.heap.length
  inj : ∀ t t' p, mapFind t m.stockDataMap = some p → mapFind t' m.stockDataMap = some p → t = t'

theorem WF.lookup_some {m : Market F} (h : m.WF) {t : String} {p : Nat}
    (hp : mapFind t m.stockDataMap = some p) : ∃ d, m.heap[p]? = some d ∧ m.lookup t = some d := by
  have hb := h.bound t p hp
  exact ⟨m.heap[p], by simp [hb], by simp [lookup, hp, hb]⟩

theorem WF.lookup_isSome {m : Market F} (h : m.WF) (t : String) :
    (m.lookup t).isSome = (mapFind t m.stockDataMap).isSome := by
  cases hp : mapFind t m.stockDataMap with
  | none => simp [lookup, hp]
  | some p => obtain ⟨d, -, h2⟩ := h.lookup_some hp; simp [h2]

variable [Fl F]

theorem init_wf : (init : Market F).WF :=
  ⟨by intro t p h; simp [init, mapFind] at h, by intro t t' p h; simp [init, mapFind] at h⟩

end Market

namespace StockData
variable {F : Type} [Fl F]

theorem validate_ok_iff (d : StockData F) :
    d.validate = .ok () ↔ Spec.Accepted d.price d.sigma d.coupon := by
  unfold validate Spec.Accepted
  cases h1 : Fl.le d.price (lit 0) <;> cases h2 : Fl.lt d.sigma (lit 0) <;> simp
  cases hc : d.coupon with
  | none => simp
  | some c =>
    cases h3 : Fl.lt c (lit 0) <;> cases h4 : Fl.gt c (lit 1) <;>
      simp [Fl.gt] at h4 ⊢ <;> simp [h3, h4]

theorem validate_cases (d : StockData F) :
    d.validate = .ok () ∨ ∃ msg, d.validate = invalidArg msg := by
  unfold validate
  split
  · exact .inr ⟨_, rfl⟩
  · split
    · exact .inr ⟨_, rfl⟩
    · split
      · split
        · exact .inr ⟨_, rfl⟩
        · exact .inl rfl
      · exact .inl rfl

theorem construct_eq (S s : F) (c : Option F) :
    (construct S s c = .ok ⟨S, s, c⟩ ∧ Spec.Accepted S s c) ∨
    (∃ msg, construct S s c = invalidArg msg ∧ ¬ Spec.Accepted S s c) := by
  unfold construct
  rcases validate_cases (⟨S, s, c⟩ : StockData F) with h | ⟨msg, h⟩
  · exact .inl ⟨by simp [h], (validate_ok_iff _).mp h⟩
  · refine .inr ⟨msg, by simp [h], fun ha => ?_⟩
    have := (validate_ok_iff (⟨S, s, c⟩ : StockData F)).mpr ha
    rw [h] at this; simp at this

end StockData
end Verif
