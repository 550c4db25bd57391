import Verif.Lemmas.Market

/-!
# One-step behaviour of the API calls
-/

set_option linter.unusedSectionVars false

namespace Verif

/-- The code does not change the state, has no undefined behaviour, and throws only
`invalid_argument`. -/
def Benign {σ α : Type} (x : Eff σ α) : Prop :=
  ∀ s, (x s).2 = s ∧ (x s).1 ≠ .ub ∧ ∀ e, (x s).1 = .throw e → e.kind = .invalidArgument

/-- A pure outcome that is not UB and throws only `invalid_argument`. -/
def BenignRes {α : Type} (x : Res α) : Prop :=
  x ≠ .ub ∧ ∀ e, x = .throw e → e.kind = .invalidArgument

theorem BenignRes.ok {α : Type} (a : α) : BenignRes (.ok a) := by
  constructor <;> simp
theorem BenignRes.invalidArg {α : Type} (m : String) : BenignRes (Verif.invalidArg m : Res α) := by
  constructor
  · simp
  · intro e h; simp only [Verif.invalidArg, Res.throw.injEq] at h; rw [← h]
theorem BenignRes.bind {α β : Type} {x : Res α} {f : α → Res β} (hx : BenignRes x)
    (hf : ∀ a, BenignRes (f a)) : BenignRes (x >>= f) := by
  cases x with
  | ok a => exact hf a
  | throw e => exact ⟨by simp, by intro e' h; exact hx.2 e' (by simpa using h)⟩
  | ub => exact absurd rfl hx.1

theorem Benign.pure {σ α : Type} (a : α) : Benign (Pure.pure a : Eff σ α) := by
  intro s; simp
theorem Benign.lift {σ α : Type} {x : Res α} (h : BenignRes x) : Benign (Eff.lift x : Eff σ α) := by
  intro s; exact ⟨rfl, h.1, h.2⟩
theorem Benign.bind {σ α β : Type} {x : Eff σ α} {f : α → Eff σ β} (hx : Benign x)
    (hf : ∀ a, Benign (f a)) : Benign (x >>= f) := by
  intro s
  obtain ⟨h1, h2, h3⟩ := hx s
  rcases hxs : x s with ⟨r, s'⟩
  rw [hxs] at h1 h2 h3
  simp only at h1 h2 h3
  subst h1
  cases r with
  | ok a => rw [Eff.bind_of_ok hxs]; exact hf a s'
  | throw e => rw [Eff.bind_of_throw hxs]; exact ⟨rfl, by simp, by simpa using h3⟩
  | ub => exact absurd rfl h2

namespace OptionModel
variable {F : Type} [Fl F]
open ParameterObject

omit [Fl F] in
theorem benign_getParameter {α : Type} (proj : Param F → Option α) (p : ParameterObject F)
    (name : String) : BenignRes (getParameter proj p name) := by
  unfold getParameter
  split
  · exact .invalidArg _
  · split
    · exact .ok _
    · exact .invalidArg _

omit [Fl F] in
theorem benign_checkArg (p : ParameterObject F) (a : Arg) : BenignRes (checkArg p a) := by
  cases a <;> exact (benign_getParameter _ _ _).bind (fun _ => .ok _)

omit [Fl F] in
theorem benign_checkArgs (p : ParameterObject F) (l : List Arg) : BenignRes (checkArgs p l) := by
  induction l with
  | nil => exact .ok _
  | cons a l ih => exact (benign_checkArg p a).bind (fun _ => ih)

theorem benign_checkStrike (K : F) : BenignRes (Payoff.checkStrike K) := by
  unfold Payoff.checkStrike; split
  · exact .invalidArg _
  · exact .ok _

theorem benign_mkVanilla (ty : PayoffType) (K : F) : BenignRes (Payoff.mkVanilla ty K) := by
  refine (benign_checkStrike K).bind (fun _ => ?_)
  split
  · exact .invalidArg _
  · exact .ok _

theorem benign_mkDigital (ty : PayoffType) (K : F) : BenignRes (Payoff.mkDigital ty K) := by
  refine (benign_checkStrike K).bind (fun _ => ?_)
  split
  · exact .invalidArg _
  · exact .ok _

theorem benign_mkDoubleDigital (K K' : F) : BenignRes (Payoff.mkDoubleDigital K K') := by
  unfold Payoff.mkDoubleDigital; split
  · exact .invalidArg _
  · split
    · exact .invalidArg _
    · exact .ok _

theorem benign_mkFloatingLookback (ty : PayoffType) :
    BenignRes (Payoff.mkFloatingLookback ty : Res (Payoff F)) := by
  unfold Payoff.mkFloatingLookback; split
  · exact .invalidArg _
  · exact .ok _

theorem benign_createSpecificPayoff (f : Factory) (ord : List Arg) (p : ParameterObject F)
    (ty : PayoffType) : BenignRes (createSpecificPayoff f ord p ty) := by
  refine (benign_checkArgs p ord).bind (fun _ => ?_)
  cases f <;> dsimp only
  all_goals first
    | exact benign_mkFloatingLookback ty
    | exact (benign_getParameter _ _ _).bind (fun _ => benign_mkVanilla _ _)
    | exact (benign_getParameter _ _ _).bind (fun _ => benign_mkDigital _ _)
    | exact (benign_getParameter _ _ _).bind (fun _ =>
        (benign_getParameter _ _ _).bind (fun _ => benign_mkDoubleDigital _ _))

theorem benign_getStockData (t : String) : Benign (Market.getStockData t : Eff (Market F) Nat) := by
  intro m
  unfold Market.getStockData
  split
  · simp
  · exact ⟨rfl, (BenignRes.invalidArg _).1, (BenignRes.invalidArg _).2⟩

theorem benign_construct (cls : OptClass) (t : String) (p : Payoff F) (T : F)
    (b : Option (F × BarrierDirection)) : Benign (construct cls t p T b) := by
  unfold construct
  split
  · exact .lift (.invalidArg _)
  · exact (benign_getStockData t).bind (fun _ => .pure _)

theorem benign_createSpecificOption (f : Factory) (ord : List Arg) (p : ParameterObject F)
    (pay : Payoff F) : Benign (createSpecificOption f ord p pay) := by
  refine (Benign.lift (benign_checkArgs p ord)).bind (fun _ => ?_)
  refine (Benign.lift (benign_getParameter _ _ _)).bind (fun _ => ?_)
  refine (Benign.lift (benign_getParameter _ _ _)).bind (fun _ => ?_)
  cases f <;> dsimp only
  all_goals first
    | exact benign_construct _ _ _ _ _
    | exact (Benign.lift (benign_getParameter _ _ _)).bind (fun _ =>
        (Benign.lift (benign_getParameter _ _ _)).bind (fun _ => benign_construct _ _ _ _ _))

/-- The body of the `try` block of `createOption`. -/
def createBody (f : Factory) (ordP ordO : List Arg) (params : ParameterObject F)
    (ty : PayoffType) : Eff (Market F) (OptObj F) := do
  let payoff ← Eff.lift (createSpecificPayoff f ordP params ty)
  createSpecificOption f ordO params payoff

theorem benign_createBody (f : Factory) (ordP ordO : List Arg) (p : ParameterObject F)
    (ty : PayoffType) : Benign (createBody f ordP ordO p ty) :=
  (Benign.lift (benign_createSpecificPayoff f ordP p ty)).bind
    (fun _ => benign_createSpecificOption f ordO p _)

/-- The state after a successful creation. -/
def withOption (m : Market F) (o : OptObj F) : Market F :=
  { m with objs := m.objs ++ [⟨o.ticker, true, some o⟩],
           observers := m.observers ++ [m.objs.length] }

theorem createOption_cases (f : Factory) (ordP ordO : List Arg) (p : ParameterObject F)
    (ty : PayoffType) (m : Market F) :
    (∃ o, createBody f ordP ordO p ty m = (.ok o, m) ∧
      createOption f ordP ordO p ty m = (.ok m.objs.length, withOption m o)) ∨
    (∃ msg, createBody f ordP ordO p ty m = (invalidArg msg, m) ∧
      createOption f ordP ordO p ty m =
        (invalidArg (msg ++ "\n" ++ f.invalidParams (f.getType ty)), m)) := by
  obtain ⟨h1, h2, h3⟩ := benign_createBody f ordP ordO p ty m
  rcases hb : createBody f ordP ordO p ty m with ⟨r, m'⟩
  rw [hb] at h1 h2 h3
  simp only at h1 h2 h3
  subst h1
  have hbody : (do
      let payoff ← Eff.lift (createSpecificPayoff f ordP p ty)
      createSpecificOption f ordO p payoff : Eff (Market F) (OptObj F)) m' = (r, m') := hb
  unfold createOption
  simp only [hbody]
  cases r with
  | ok o => exact .inl ⟨o, rfl, rfl⟩
  | throw e =>
    have he := h3 e rfl
    obtain ⟨k, msg⟩ := e
    simp only at he
    subst he
    exact .inr ⟨msg, rfl, by simp⟩
  | ub => exact absurd rfl h2

end OptionModel

namespace Market
variable {F : Type} [Fl F]

/-- The object `p` overwritten by `d`. -/
def setHeap (m : Market F) (p : Nat) (d : StockData F) : Market F :=
  { m with heap := m.heap.set p d }

/-- A new object `d` for ticker `t`. -/
def addObj (m : Market F) (t : String) (d : StockData F) : Market F :=
  { m with heap := m.heap ++ [d]
           stockDataMap := mapAssign t m.heap.length m.stockDataMap }

/-- Effect of an update whose setter assigns and then validates. -/
theorem updateWith_cases (err t : String) (g : StockData F → StockData F) {m : Market F}
    (hm : m.WF) :
    (mapFind t m.stockDataMap = none ∧
      updateWith err t (fun d => ((g d).validate, g d)) m = (invalidArg err, m)) ∨
    (∃ p d, mapFind t m.stockDataMap = some p ∧ m.heap[p]? = some d ∧ m.lookup t = some d ∧
      ((Spec.Accepted (g d).price (g d).sigma (g d).coupon ∧
        updateWith err t (fun d => ((g d).validate, g d)) m =
          (.ok (), notifyObserver t (m.setHeap p (g d)))) ∨
       (∃ msg, ¬ Spec.Accepted (g d).price (g d).sigma (g d).coupon ∧
        updateWith err t (fun d => ((g d).validate, g d)) m =
          (invalidArg msg, (m.setHeap p (g d)))))) := by
  cases hp : mapFind t m.stockDataMap with
  | none => exact .inl ⟨rfl, by simp [updateWith, hp]⟩
  | some p =>
    obtain ⟨d, hd, hl⟩ := hm.lookup_some hp
    refine .inr ⟨p, d, rfl, hd, hl, ?_⟩
    rcases StockData.validate_cases (g d) with h | ⟨msg, h⟩
    · exact .inl ⟨(StockData.validate_ok_iff _).mp h, by simp [updateWith, hp, hd, h, setHeap]⟩
    · refine .inr ⟨msg, ?_, by simp [updateWith, hp, hd, h, invalidArg, setHeap]⟩
      intro ha
      have := (StockData.validate_ok_iff (g d)).mpr ha
      rw [h] at this; simp at this

/-- Effect of `addStock`. -/
theorem addStock_cases (t : String) (S s : F) (c : Option F) (m : Market F) :
    (Spec.Accepted S s c ∧ addStock t S s c m = (.ok (), m.addObj t ⟨S, s, c⟩)) ∨
    (∃ msg, ¬ Spec.Accepted S s c ∧ addStock t S s c m = (invalidArg msg, m)) := by
  rcases StockData.construct_eq S s c with ⟨h, ha⟩ | ⟨msg, h, ha⟩
  · exact .inl ⟨ha, by simp [addStock, h, addObj]⟩
  · exact .inr ⟨msg, ha, by simp [addStock, h, invalidArg]⟩

/-- Updating an object in place changes the data of its ticker only. -/
theorem lookup_set {m : Market F} (hm : m.WF) {t t' : String} {p : Nat} (d : StockData F)
    (hp : mapFind t m.stockDataMap = some p) :
    (m.setHeap p d).lookup t' =
      if t = t' then some d else m.lookup t' := by
  have hb := hm.bound t p hp
  by_cases h : t = t'
  · subst h; simp [lookup, setHeap, hp, hb]
  · simp only [lookup, setHeap, h, if_false]
    cases hp' : mapFind t' m.stockDataMap with
    | none => simp
    | some p' =>
      have : p ≠ p' := fun hpp => h (hm.inj t t' p hp (hpp ▸ hp'))
      simp [List.getElem?_set, this]

theorem lookup_addStock {m : Market F} (hm : m.WF) (t t' : String) (d : StockData F) :
    (m.addObj t d).lookup t' =
      if t = t' then some d else m.lookup t' := by
  simp only [lookup, addObj, mapFind_mapAssign]
  by_cases h : t = t'
  · simp [h]
  · simp only [h, if_false]
    cases hp' : mapFind t' m.stockDataMap with
    | none => simp
    | some p' =>
      have := hm.bound t' p' hp'
      simp [List.getElem?_append_left this]

theorem WF.set {m : Market F} (hm : m.WF) (p : Nat) (d : StockData F) :
    (m.setHeap p d).WF :=
  ⟨by intro t q h; simpa [setHeap] using hm.bound t q h, hm.inj⟩

theorem WF.add {m : Market F} (hm : m.WF) (t : String) (d : StockData F) :
    (m.addObj t d).WF := by
  constructor
  · intro t' p h
    simp only [addObj, mapFind_mapAssign] at h
    split at h
    · cases h; simp [addObj]
    · have := hm.bound t' p h; simp [addObj]; omega
  · intro t1 t2 p h1 h2
    simp only [addObj, mapFind_mapAssign] at h1 h2
    split at h1 <;> split at h2
    · rename_i a b; rw [← a, ← b]
    · cases h1; exact absurd (hm.bound _ _ h2) (lt_irrefl _)
    · cases h2; exact absurd (hm.bound _ _ h1) (lt_irrefl _)
    · exact hm.inj t1 t2 p h1 h2

/-- Same market core (arena, ticker map, rate). -/
def SameCore (m m' : Market F) : Prop :=
  m'.heap = m.heap ∧ m'.stockDataMap = m.stockDataMap ∧ m'.r = m.r

omit [Fl F] in
theorem SameCore.wf {m m' : Market F} (h : SameCore m m') (hm : m.WF) : m'.WF :=
  ⟨by rw [h.1, h.2.1]; exact hm.bound, by rw [h.2.1]; exact hm.inj⟩
omit [Fl F] in
theorem SameCore.lookup {m m' : Market F} (h : SameCore m m') (t : String) :
    m'.lookup t = m.lookup t := by
  simp [Market.lookup, h.1, h.2.1]

end Market

namespace World
variable {F : Type} [Fl F]
open Market

theorem exec_eq {α : Type} (x : Eff (Market F) α) (k : α → Val F) (m : Market F) :
    (do let a ← x; return k a : Eff (Market F) (Val F)) m =
      ((x m).1 >>= fun a => .ok (k a), (x m).2) := by
  rw [Eff.bind_apply]
  rcases x m with ⟨r, s⟩
  cases r <;> rfl

theorem step_of {α : Type} (x : Eff (Market F) α) (k : α → Val F) (m : Market F) :
    ((do let a ← x; return k a : Eff (Market F) (Val F)) m).2 = (x m).2 := by
  rw [exec_eq]

theorem step_addStock (m : Market F) (t S s c) : step m (.addStock t S s c) = (addStock t S s c m).2 :=
  step_of (addStock t S s c) (fun _ => .unit) m
theorem step_updatePrice (m : Market F) (t S) :
    step m (.updatePrice t S) = (updateStockPrice t S m).2 :=
  step_of (updateStockPrice t S) (fun _ => .unit) m
theorem step_updateSigma (m : Market F) (t S) :
    step m (.updateSigma t S) = (updateStockSigma t S m).2 :=
  step_of (updateStockSigma t S) (fun _ => .unit) m
theorem step_updateCoupon (m : Market F) (t S) :
    step m (.updateCoupon t S) = (updateStockCoupon t S m).2 :=
  step_of (updateStockCoupon t S) (fun _ => .unit) m
theorem step_setR (m : Market F) (r) : step m (.setR r) = notifyObservers { m with r := r } := rfl
theorem step_getR (m : Market F) : step m .getR = m := rfl
theorem step_getStockData (m : Market F) (t) : step m (.getStockData t) = m := by
  have := step_of (getStockData t) (fun p => Val.handle p) m
  simp only [step, exec]
  rw [this]
  exact (OptionModel.benign_getStockData t m).1
theorem step_addObserver (m : Market F) (o) :
    step m (.addObserver o) = { m with observers := m.observers ++ [o] } := rfl
theorem step_removeObserver (m : Market F) : step m .removeObserver = m.removeExpired := rfl
theorem step_notifyObserver (m : Market F) (t) :
    step m (.notifyObserver t) = m.notifyObserver t := rfl
theorem step_notifyObservers (m : Market F) : step m .notifyObservers = m.notifyObservers := rfl
theorem step_newObserver (m : Market F) (t) :
    step m (.newObserver t) = { m with objs := m.objs ++ [⟨t, true, none⟩] } := rfl
theorem step_release (m : Market F) (o) : step m (.release o) = (OptionModel.release o m).2 :=
  step_of (OptionModel.release o) (fun _ => .unit) m
theorem step_createOption (m : Market F) (f ordP ordO ps ty) :
    step m (.createOption f ordP ordO ps ty) =
      (OptionModel.createOption f ordP ordO (mkParams ps) ty m).2 :=
  step_of (OptionModel.createOption f ordP ordO (mkParams ps) ty) (fun o => Val.object o) m

theorem createOption_step_cases (m : Market F) (f ordP ordO ps ty) :
    step m (.createOption f ordP ordO ps ty) = m ∨
    ∃ o, step m (.createOption f ordP ordO ps ty) = OptionModel.withOption m o := by
  rw [step_createOption]
  rcases OptionModel.createOption_cases f ordP ordO (mkParams ps) ty m with ⟨o, -, h⟩ | ⟨msg, -, h⟩
  · exact .inr ⟨o, by rw [h]⟩
  · exact .inl (by rw [h])

/-- Calls that do not touch the market core. -/
def KeepsCore : Call F → Prop
  | .addStock .. => False
  | .updatePrice .. => False
  | .updateSigma .. => False
  | .updateCoupon .. => False
  | .setR .. => False
  | _ => True

theorem release_core (m : Market F) (o : Nat) : SameCore m (OptionModel.release o m).2 := by
  unfold OptionModel.release
  split
  · split
    · dsimp only
      split <;> exact ⟨rfl, rfl, rfl⟩
    · exact ⟨rfl, rfl, rfl⟩
  · exact ⟨rfl, rfl, rfl⟩

theorem step_keepsCore (m : Market F) (c : Call F) (h : KeepsCore c) : SameCore m (step m c) := by
  cases c with
  | addStock => exact h.elim
  | updatePrice => exact h.elim
  | updateSigma => exact h.elim
  | updateCoupon => exact h.elim
  | setR => exact h.elim
  | getStockData t => rw [step_getStockData]; exact ⟨rfl, rfl, rfl⟩
  | getR => exact ⟨rfl, rfl, rfl⟩
  | addObserver o => exact ⟨rfl, rfl, rfl⟩
  | removeObserver => exact ⟨rfl, rfl, rfl⟩
  | notifyObserver t => rw [step_notifyObserver, notifyObserver_log]; exact ⟨rfl, rfl, rfl⟩
  | notifyObservers => rw [step_notifyObservers, notifyObservers_log]; exact ⟨rfl, rfl, rfl⟩
  | newObserver t => exact ⟨rfl, rfl, rfl⟩
  | createOption f ordP ordO ps ty =>
    rcases createOption_step_cases m f ordP ordO ps ty with h | ⟨o, h⟩ <;> rw [h] <;>
      exact ⟨rfl, rfl, rfl⟩
  | release o => rw [step_release]; exact release_core m o

/-- The setters as functions on the data. -/
def upd : Call F → StockData F → StockData F
  | .updatePrice _ S, d => { d with price := S }
  | .updateSigma _ s, d => { d with sigma := s }
  | .updateCoupon _ c, d => { d with coupon := c }
  | _, d => d

/-- One-step effect of the three updates, uniformly. -/
theorem step_update_cases {m : Market F} (hm : m.WF) {t : String} {c : Call F}
    (hc : Spec.IsUpdateOf t c) :
    (mapFind t m.stockDataMap = none ∧ (∃ msg, outcome m c = invalidArg msg) ∧ step m c = m) ∨
    (∃ p d, mapFind t m.stockDataMap = some p ∧ m.heap[p]? = some d ∧ m.lookup t = some d ∧
      ((Spec.Accepted (upd c d).price (upd c d).sigma (upd c d).coupon ∧
        outcome m c = .ok .unit ∧
        step m c = notifyObserver t (m.setHeap p (upd c d))) ∨
       (¬ Spec.Accepted (upd c d).price (upd c d).sigma (upd c d).coupon ∧
        (∃ msg, outcome m c = invalidArg msg) ∧
        step m c = m.setHeap p (upd c d)))) := by
  have main : ∀ (err : String) (g : StockData F → StockData F),
      (exec c m = (do updateWith err t (fun d => ((g d).validate, g d)); return Val.unit :
        Eff (Market F) (Val F)) m) → upd c = g →
    (mapFind t m.stockDataMap = none ∧ (∃ msg, outcome m c = invalidArg msg) ∧ step m c = m) ∨
    (∃ p d, mapFind t m.stockDataMap = some p ∧ m.heap[p]? = some d ∧ m.lookup t = some d ∧
      ((Spec.Accepted (upd c d).price (upd c d).sigma (upd c d).coupon ∧
        outcome m c = .ok .unit ∧
        step m c = notifyObserver t (m.setHeap p (upd c d))) ∨
       (¬ Spec.Accepted (upd c d).price (upd c d).sigma (upd c d).coupon ∧
        (∃ msg, outcome m c = invalidArg msg) ∧
        step m c = m.setHeap p (upd c d)))) := by
    intro err g he hg
    have h1 : outcome m c = ((updateWith err t (fun d => ((g d).validate, g d)) m).1 >>=
        fun _ => .ok Val.unit) := by
      show (exec c m).1 = _
      rw [he, exec_eq]
    have h2 : step m c = (updateWith err t (fun d => ((g d).validate, g d)) m).2 := by
      show (exec c m).2 = _
      rw [he, exec_eq]
    rw [hg, h1, h2]
    rcases updateWith_cases err t g hm with ⟨ha, hb⟩ | ⟨p, d, hp, hd, hl, ⟨ha, hb⟩ | ⟨msg, ha, hb⟩⟩
    · exact .inl ⟨ha, ⟨err, by rw [hb]; rfl⟩, by rw [hb]⟩
    · exact .inr ⟨p, d, hp, hd, hl, .inl ⟨ha, by rw [hb]; rfl, by rw [hb]⟩⟩
    · exact .inr ⟨p, d, hp, hd, hl, .inr ⟨ha, ⟨msg, by rw [hb]; rfl⟩, by rw [hb]⟩⟩
  cases c with
  | updatePrice t' S =>
    cases hc
    exact main _ (fun d => { d with price := S }) rfl rfl
  | updateSigma t' S =>
    cases hc
    exact main _ (fun d => { d with sigma := S }) rfl rfl
  | updateCoupon t' S =>
    cases hc
    exact main _ (fun d => { d with coupon := S }) rfl rfl
  | _ => exact hc.elim

/-- One-step effect of `addStock`. -/
theorem step_addStock_cases (m : Market F) (t : String) (S s : F) (c : Option F) :
    (Spec.Accepted S s c ∧ outcome m (.addStock t S s c) = .ok .unit ∧
      step m (.addStock t S s c) = m.addObj t ⟨S, s, c⟩) ∨
    (¬ Spec.Accepted S s c ∧ (∃ msg, outcome m (.addStock t S s c) = invalidArg msg) ∧
      step m (.addStock t S s c) = m) := by
  have h1 : outcome m (.addStock t S s c) = ((addStock t S s c m).1 >>= fun _ => .ok Val.unit) := by
    show ((do addStock t S s c; return Val.unit : Eff (Market F) (Val F)) m).1 = _
    rw [exec_eq]
  rw [step_addStock, h1]
  rcases addStock_cases t S s c m with ⟨ha, hb⟩ | ⟨msg, ha, hb⟩
  · exact .inl ⟨ha, by rw [hb]; rfl, by rw [hb]⟩
  · exact .inr ⟨ha, ⟨msg, by rw [hb]; rfl⟩, by rw [hb]⟩

theorem step_wf {m : Market F} (hm : m.WF) (c : Call F) : (step m c).WF := by
  by_cases hk : KeepsCore c
  · exact (step_keepsCore m c hk).wf hm
  · have hupd : ∀ t, Spec.IsUpdateOf t c → (step m c).WF := by
      intro t ht
      rcases step_update_cases hm ht with ⟨-, -, h⟩ | ⟨p, d, -, -, -, ⟨-, -, h⟩ | ⟨-, -, h⟩⟩
      · rw [h]; exact hm
      · rw [h, notifyObserver_log]; exact ⟨(hm.set p (upd c d)).bound, hm.inj⟩
      · rw [h]; exact hm.set p _
    cases c with
    | addStock t S s cc =>
      rcases step_addStock_cases m t S s cc with ⟨-, -, h⟩ | ⟨-, -, h⟩
      · rw [h]; exact hm.add t _
      · rw [h]; exact hm
    | updatePrice t S => exact hupd t rfl
    | updateSigma t S => exact hupd t rfl
    | updateCoupon t S => exact hupd t rfl
    | setR r => rw [step_setR, notifyObservers_log]; exact ⟨hm.bound, hm.inj⟩
    | _ => exact absurd trivial hk

theorem run_append (m : Market F) (h h' : List (Call F)) : run m (h ++ h') = run (run m h) h' := by
  simp [run]
theorem run_snoc (m : Market F) (h : List (Call F)) (c : Call F) :
    run m (h ++ [c]) = step (run m h) c := by
  simp [run]

theorem run_wf {m : Market F} (hm : m.WF) (h : List (Call F)) : (run m h).WF := by
  induction h generalizing m with
  | nil => exact hm
  | cons c h ih => exact ih (step_wf hm c)

end World
end Verif

namespace Verif.World
variable {F : Type} [Fl F]
open Market

/-- Refinement: the state agrees with the specification computed from the history. -/
theorem lookup_step {m : Market F} (hm : m.WF) (hrev : List (Call F))
    (hl : ∀ t, m.lookup t = Spec.data hrev t) (c : Call F) (t : String) :
    (step m c).lookup t = Spec.data (c :: hrev) t := by
  have hupd : ∀ t', Spec.IsUpdateOf t' c →
      (step m c).lookup t = if t' = t then (Spec.data hrev t).map (upd c) else Spec.data hrev t := by
    intro t' ht
    rcases step_update_cases hm ht with ⟨hn, -, h⟩ | ⟨p, d, hp, -, hld, ⟨-, -, h⟩ | ⟨-, -, h⟩⟩
    · rw [h, hl]
      by_cases htt : t' = t
      · subst htt
        have : m.lookup t' = none := by simp [lookup, hn]
        rw [if_pos rfl, ← hl, this]; rfl
      · rw [if_neg htt]
    · rw [h, notifyObserver_log, addLog_lookup, lookup_set hm _ hp]
      by_cases htt : t' = t
      · subst htt; rw [if_pos rfl, if_pos rfl, ← hl, hld]; rfl
      · rw [if_neg htt, if_neg htt, hl]
    · rw [h, lookup_set hm _ hp]
      by_cases htt : t' = t
      · subst htt; rw [if_pos rfl, if_pos rfl, ← hl, hld]; rfl
      · rw [if_neg htt, if_neg htt, hl]
  have hkeep : KeepsCore c → (step m c).lookup t = Spec.data hrev t := by
    intro hk; rw [(step_keepsCore m c hk).lookup, hl]
  cases c with
  | addStock t' S s cc =>
    rw [Spec.data]
    rcases step_addStock_cases m t' S s cc with ⟨ha, -, h⟩ | ⟨ha, -, h⟩
    · rw [h, lookup_addStock hm]
      by_cases htt : t' = t
      · rw [if_pos htt, if_pos ⟨htt, ha⟩]
      · rw [if_neg htt, if_neg (fun hx => htt hx.1), hl]
    · rw [h, hl, if_neg (fun hx => ha hx.2)]
  | updatePrice t' S => rw [hupd t' rfl, Spec.data]; rfl
  | updateSigma t' S => rw [hupd t' rfl, Spec.data]; rfl
  | updateCoupon t' S => rw [hupd t' rfl, Spec.data]; rfl
  | setR r =>
    rw [step_setR, notifyObservers_log, addLog_lookup, Spec.data]
    · exact hl t
    all_goals simp
  | _ => rw [hkeep trivial, Spec.data] <;> simp

theorem rate_step {m : Market F} (hm : m.WF) (hrev : List (Call F))
    (hl : m.r = Spec.rate hrev) (c : Call F) :
    (step m c).r = Spec.rate (c :: hrev) := by
  have hupd : ∀ t', Spec.IsUpdateOf t' c → (step m c).r = Spec.rate hrev := by
    intro t' ht
    rcases step_update_cases hm ht with ⟨hn, -, h⟩ | ⟨p, d, hp, -, hld, ⟨-, -, h⟩ | ⟨-, -, h⟩⟩
    · rw [h, hl]
    · rw [h, notifyObserver_log, addLog_r]; exact hl
    · rw [h]; exact hl
  have hkeep : KeepsCore c → (step m c).r = Spec.rate hrev := by
    intro hk; rw [(step_keepsCore m c hk).2.2, hl]
  cases c with
  | addStock t' S s cc =>
    rw [Spec.rate]
    · rcases step_addStock_cases m t' S s cc with ⟨ha, -, h⟩ | ⟨ha, -, h⟩
      · rw [h]; exact hl
      · rw [h, hl]
    · simp
  | updatePrice t' S => rw [hupd t' rfl, Spec.rate]; simp
  | updateSigma t' S => rw [hupd t' rfl, Spec.rate]; simp
  | updateCoupon t' S => rw [hupd t' rfl, Spec.rate]; simp
  | setR r => rw [step_setR, notifyObservers_log, addLog_r, Spec.rate]
  | _ => rw [hkeep trivial, Spec.rate]; simp

theorem run_lookup (h : List (Call F)) (t : String) :
    (run Market.init h).lookup t = Spec.data h.reverse t := by
  induction h using List.reverseRecOn generalizing t with
  | nil => simp [run, Market.init, lookup, mapFind, Spec.data]
  | append_singleton h c ih =>
    rw [run_snoc, List.reverse_append]
    exact lookup_step (run_wf init_wf h) _ ih c t

theorem run_rate (h : List (Call F)) : (run Market.init h).r = Spec.rate h.reverse := by
  induction h using List.reverseRecOn with
  | nil => simp [run, Market.init, Spec.rate]
  | append_singleton h c ih =>
    rw [run_snoc, List.reverse_append]
    exact rate_step (run_wf init_wf h) _ ih c

theorem outcome_getStockData (m : Market F) (t : String) :
    outcome m (.getStockData t) = match mapFind t m.stockDataMap with
      | some p => .ok (.handle p)
      | none => invalidArg (t ++ " Stock data not found.") := by
  show ((do let p ← getStockData t; return Val.handle p : Eff (Market F) (Val F)) m).1 = _
  rw [exec_eq, getStockData]
  split <;> simp_all

end Verif.World
