import Verif.Props.Reentrant
import Verif.Props.Factories
import Mathlib.Tactic.NormNum

/-!
# Property C68: what callbacks break
-/

namespace Verif.Props
open Spec Reentrant

variable {F : Type} [Fl F]

/-- Observer `w` runs `p` in its `update()`, all others do nothing. -/
def onlyAt (w : Nat) (p : Prog F) : Nat → Market F → Prog F := fun o _ => if o = w then p else .done

theorem unlock_done (o : Nat) (s : RState F) (m : Market F) (hd : s.dropped = []) :
    unlock o { s with m := m, held := o :: s.held } = { s with m := m } := by
  unfold unlock
  rw [if_neg (by simp [hd])]
  simp

/-- The loop up to the first observer that does something. -/
theorem loop_pre (ex : Call F → Eff (RState F) (Val F)) (w : Nat) (p : Prog F) (t : String)
    (v : Nat) (pre rest : List Nat) (hw : w ∉ pre) (s : RState F) (hd : s.dropped = [])
    (hv : s.changes = v) :
    notifyLoop ex (onlyAt w p) (fun i => i == t) v (pre ++ rest) s =
      notifyLoop ex (onlyAt w p) (fun i => i == t) v rest
        { s with m := Market.notifyObserverLoop t pre s.m } := by
  induction pre generalizing s with
  | nil => rfl
  | cons o os ih =>
    have hwo : o ≠ w := fun h => hw (by simp [h])
    have hw' : w ∉ os := fun h => hw (by simp [h])
    rw [List.cons_append, notifyLoop, Market.notifyObserverLoop]
    cases ho : s.m.objs[o]? with
    | none => exact ih hw' s hd hv
    | some ob =>
      dsimp only
      cases ha : ob.alive with
      | false => simpa using ih hw' s hd hv
      | true =>
        by_cases hi : (ob.id == t) = true
        · simp only [hi, Bool.and_self, if_true]
          have hp : onlyAt w p o (s.m.deliver o ob.id) = .done := by simp [onlyAt, hwo]
          rw [hp, runProg]
          dsimp only
          rw [unlock_done o s _ hd, if_pos hv]
          exact ih hw' _ hd hv
        · simp only [hi, Bool.and_false, Bool.false_eq_true, if_false, if_true]
          exact ih hw' s hd hv

theorem notifyObserverLoop_log' (t : String) (os : List Nat) (m : Market F) :
    ∃ l, Market.notifyObserverLoop t os m = m.addLog l ∧ ∀ n ∈ l, n.obs ∈ os := by
  refine ⟨_, Market.notifyObserverLoop_log t os m, ?_⟩
  intro n hn
  simp only [List.mem_map, List.mem_filter] at hn
  obtain ⟨o, ⟨ho, -⟩, rfl⟩ := hn
  exact ho

/-- An accepted update of the price whose first active observer is `w`: what remains is the program
of `w` and the rest of the loop. -/
theorem update_reaches (n : Nat) (w : Nat) (p : Prog F) (t : String) (S : F) (s : RState F)
    (hd : s.dropped = []) {q : Nat} {d : StockData F} (hq : mapFind t s.m.stockDataMap = some q)
    (hh : s.m.heap[q]? = some d) (hacc : Accepted S d.sigma d.coupon) (pre post : List Nat)
    (hobs : s.m.observers = pre ++ w :: post) (hpre : w ∉ pre) {ob : Observer F}
    (hob : s.m.objs[w]? = some ob) (hal : ob.alive = true) (hid : ob.id = t) :
    ∃ l : List (Note F), (∀ x ∈ l, x.obs ∈ pre) ∧
      let m1 := ((s.m.setHeap q { d with price := S }).addLog l).deliver w t
      body (exec (onlyAt w p) n) (onlyAt w p) (.updatePrice t S) s =
        match (match runProg (exec (onlyAt w p) n) p { s with m := m1, held := w :: s.held } with
          | (.ok (), s2) =>
            if (unlock w s2).changes = s.changes then
              notifyLoop (exec (onlyAt w p) n) (onlyAt w p) (fun i => i == t) s.changes post
                (unlock w s2)
            else (.ub, unlock w s2)
          | (.throw e, s2) => (.throw e, unlock w s2)
          | (.ub, s2) => (.ub, s2) : Res Unit × RState F) with
        | (.ok (), s') => (.ok .unit, s')
        | (.throw e, s') => (.throw e, s')
        | (.ub, s') => (.ub, s') := by
  obtain ⟨l, hl, hl'⟩ := notifyObserverLoop_log' t pre (s.m.setHeap q { d with price := S })
  refine ⟨l, hl', ?_⟩
  have hset : StockData.setPrice S d = (.ok (), { d with price := S }) := by
    have := (StockData.validate_ok_iff { d with price := S }).mpr hacc
    simp [StockData.setPrice, this]
  have hloop := loop_pre (exec (onlyAt w p) n) w p t s.changes pre (w :: post) hpre
    { s with m := s.m.setHeap q { d with price := S } } hd rfl
  have hob' : ((s.m.setHeap q { d with price := S }).addLog l).objs[w]? = some ob := hob
  have hp : ∀ m, onlyAt w p w m = p := fun m => by simp [onlyAt]
  dsimp only at hloop
  rw [hl, notifyLoop] at hloop
  dsimp only at hloop
  rw [hob'] at hloop
  simp only [hal, hid, beq_self_eq_true, Bool.and_self, if_true, hp] at hloop
  rw [← hobs] at hloop
  intro m1
  have hb : body (exec (onlyAt w p) n) (onlyAt w p) (.updatePrice t S) s =
      notify (exec (onlyAt w p) n) (onlyAt w p) (fun i => i == t)
        { s with m := s.m.setHeap q { d with price := S } } := by
    change updateWith (exec (onlyAt w p) n) (onlyAt w p) _ t (StockData.setPrice S) s = _
    unfold updateWith
    simp only [hq, hh, hset]
    rfl
  rw [hb]
  unfold notify
  have hso : (s.m.setHeap q { d with price := S }).observers = s.m.observers := rfl
  dsimp only
  rw [hso, hloop]
  rcases runProg (exec (onlyAt w p) n) p
    { s with m := ((s.m.setHeap q { d with price := S }).addLog l).deliver w t,
             held := w :: s.held } with ⟨r, s2⟩
  cases r <;> rfl

/-- A call that notifies nobody, succeeds and changes the list of observers. -/
theorem register_ub (n : Nat) (w : Nat) (c : Call F)
    (hc : ∀ ex upd (s : RState F), s.held = [w] → body ex upd c s = Reentrant.plain c s) (t : String) (S : F) (m : Market F) {q : Nat} {d : StockData F}
    (hq : mapFind t m.stockDataMap = some q) (hh : m.heap[q]? = some d)
    (hacc : Accepted S d.sigma d.coupon) (hw : w ∈ m.observers) (hwt : Watches m t w)
    (hreg : ∀ m' : Market F, m'.stockDataMap = m.stockDataMap → m'.objs = m.objs →
      m'.observers = m.observers → ∃ v, World.outcome m' c = .ok v ∧ (World.step m' c).observers ≠ m'.observers) :
    (exec (onlyAt w (.call c fun _ _ => .done)) (n + 1) (.updatePrice t S) (start m)).1 = .ub := by
  obtain ⟨ob, hob, hal, hid⟩ := hwt
  obtain ⟨pre, post, hobs, hpre⟩ := List.eq_append_cons_of_mem hw
  obtain ⟨l, hl, hb⟩ := update_reaches n w (.call c fun _ _ => .done) t S (start m)
    rfl hq hh hacc pre post hobs hpre hob hal hid
  change (body _ _ _ _).1 = _
  rw [hb]
  cases n with
  | zero => rfl
  | succ n =>
    set up : Nat → Market F → Prog F := onlyAt w (.call c fun _ _ => .done) with hup
    set s1 : RState F := { start m with
      m := (((start m).m.setHeap q { d with price := S }).addLog l).deliver w t,
      held := w :: (start m).held } with hs1
    obtain ⟨v, hv1, hv2⟩ := hreg s1.m rfl rfl rfl
    have hex : ∃ tr, exec up (n + 1) c s1 =
        (.ok v, RState.mk (World.step s1.m c) 1 s1.held s1.dropped tr) := by
      refine ⟨s1.trace ++ [(c, .ok v)], ?_⟩
      have hpl : body (exec up n) up c s1 =
          (.ok v, RState.mk (World.step s1.m c) 1 s1.held s1.dropped s1.trace) := by
        rw [hc _ _ s1 rfl]
        change (World.outcome s1.m c, withMarket s1 (World.step s1.m c)) = _
        unfold withMarket
        rw [hv1, if_neg hv2]
        rfl
      change ((body (exec up n) up c s1).1,
        ({ (body (exec up n) up c s1).2 with
          trace := (body (exec up n) up c s1).2.trace ++
            [(c, (body (exec up n) up c s1).1)] } : RState F)) = _
      rw [hpl]
    obtain ⟨tr, hex⟩ := hex
    have hrun : runProg (exec up (n + 1)) (.call c fun _ _ => .done) s1 =
        (.ok (), RState.mk (World.step s1.m c) 1 s1.held s1.dropped tr) := by
      rw [runProg, hex]
      rfl
    rw [hrun]
    have hch : ∀ x : RState F, x.dropped = [] → (unlock w x).changes = x.changes := by
      intro x hx
      unfold unlock
      rw [if_neg (by simp [hx])]
    have hne : ¬ (unlock w (RState.mk (World.step s1.m c) 1 s1.held s1.dropped tr)).changes =
        (start m).changes := by
      rw [hch _ rfl]
      exact Nat.one_ne_zero
    simp only [if_neg hne]

/-- C68 fails, registration: an observer that registers another observer from inside its `update()`
makes every update of its ticker undefined behaviour: the running loop goes on with iterators into a
vector that `push_back` has changed. -/
theorem C68_register_fails (n : Nat) (w o : Nat) (t : String) (S : F) (m : Market F) {q : Nat}
    {d : StockData F} (hq : mapFind t m.stockDataMap = some q) (hh : m.heap[q]? = some d)
    (hacc : Accepted S d.sigma d.coupon) (hw : w ∈ m.observers) (hwt : Watches m t w) :
    (exec (onlyAt w (.call (.addObserver o) fun _ _ => .done)) (n + 1) (.updatePrice t S)
      (start m)).1 = .ub :=
  register_ub n w (.addObserver o) (fun _ _ _ _ => rfl) t S m hq hh hacc hw hwt
    (fun m' _ _ _ => ⟨.unit, rfl, by
      rw [World.step_addObserver]
      simp⟩)

/-- The code does not depend on anything but the ticker map. -/
def MapOnly {α : Type} (x : Eff (Market F) α) : Prop :=
  ∀ m m' : Market F, m'.stockDataMap = m.stockDataMap → (x m').1 = (x m).1

omit [Fl F] in
theorem MapOnly.bind {α β : Type} {x : Eff (Market F) α} {f : α → Eff (Market F) β}
    (hx : MapOnly x) (hb : Benign x) (hf : ∀ a, MapOnly (f a)) : MapOnly (x >>= f) := by
  intro m m' h
  have h1 := hx m m' h
  obtain ⟨b1, -, -⟩ := hb m
  obtain ⟨b2, -, -⟩ := hb m'
  rcases e : x m with ⟨r, s⟩
  rcases e' : x m' with ⟨r', s'⟩
  rw [e, e'] at h1
  rw [e] at b1
  rw [e'] at b2
  dsimp only at h1 b1 b2
  subst h1 b1 b2
  cases r' with
  | ok a => rw [Eff.bind_of_ok e, Eff.bind_of_ok e']; exact hf a _ _ h
  | throw x => rw [Eff.bind_of_throw e, Eff.bind_of_throw e']
  | ub => rw [Eff.bind_of_ub e, Eff.bind_of_ub e']

omit [Fl F] in
theorem MapOnly.lift {α : Type} (x : Res α) : MapOnly (Eff.lift x : Eff (Market F) α) :=
  fun _ _ _ => rfl

theorem mapOnly_construct (cls : OptClass) (t : String) (p : Payoff F) (T : F)
    (b : Option (F × BarrierDirection)) : MapOnly (OptionModel.construct cls t p T b) := by
  unfold OptionModel.construct
  split
  · exact .lift _
  · refine MapOnly.bind ?_ (OptionModel.benign_getStockData t) (fun _ _ _ _ => rfl)
    intro m m' h
    unfold Market.getStockData
    rw [h]
    cases mapFind t m.stockDataMap <;> rfl

theorem mapOnly_createBody (f : Factory) (ordP ordO : List Arg) (p : ParameterObject F)
    (ty : PayoffType) : MapOnly (OptionModel.createBody f ordP ordO p ty) := by
  have hpar : ∀ {α : Type} (proj : Param F → Option α) (name : String),
      Benign (Eff.lift (ParameterObject.getParameter proj p name) : Eff (Market F) α) :=
    fun proj name => Benign.lift (OptionModel.benign_getParameter proj p name)
  refine (MapOnly.lift _).bind (Benign.lift (OptionModel.benign_createSpecificPayoff f ordP p ty))
    (fun pay => ?_)
  refine (MapOnly.lift _).bind (Benign.lift (OptionModel.benign_checkArgs p ordO)) (fun _ => ?_)
  refine (MapOnly.lift _).bind (hpar _ _) (fun _ => ?_)
  refine (MapOnly.lift _).bind (hpar _ _) (fun _ => ?_)
  cases f <;> dsimp only
  all_goals first
    | exact mapOnly_construct _ _ _ _ _
    | exact (MapOnly.lift _).bind (hpar _ _) (fun _ =>
        (MapOnly.lift _).bind (hpar _ _) (fun _ => mapOnly_construct _ _ _ _ _))

/-- C68 fails, options: an observer that creates an option from inside its `update()` (with
parameters with which the creation succeeds) makes every update of its ticker undefined behaviour,
because the new option registers itself. -/
theorem C68_createOption_fails (n : Nat) (w : Nat) (f : Factory) (ordP ordO : List Arg)
    (ps : List (String × Param F)) (ty : PayoffType) (t : String) (S : F) (m : Market F) {q : Nat}
    {d : StockData F} (hq : mapFind t m.stockDataMap = some q) (hh : m.heap[q]? = some d)
    (hacc : Accepted S d.sigma d.coupon) (hw : w ∈ m.observers) (hwt : Watches m t w)
    (hcreate : (World.outcome m (.createOption f ordP ordO ps ty)).IsOk) :
    (exec (onlyAt w (.call (.createOption f ordP ordO ps ty) fun _ _ => .done)) (n + 1)
      (.updatePrice t S) (start m)).1 = .ub := by
  refine register_ub n w _ (fun _ _ _ _ => rfl) t S m hq hh hacc hw hwt ?_
  intro m' hm' _ _
  have hout : ∀ m : Market F, World.outcome m (.createOption f ordP ordO ps ty) =
      ((OptionModel.createOption f ordP ordO (World.mkParams ps) ty m).1 >>=
        fun o => .ok (.object o)) := by
    intro m
    rw [World.outcome, World.exec, World.exec_eq]
  have hmap := mapOnly_createBody f ordP ordO (World.mkParams ps) ty m m' hm'
  obtain ⟨v, hv⟩ := hcreate
  rw [hout] at hv
  rcases OptionModel.createOption_cases f ordP ordO (World.mkParams ps) ty m with
    ⟨o, h1, -⟩ | ⟨msg, -, h2⟩
  swap
  · rw [h2] at hv
    simp [invalidArg] at hv
  rcases OptionModel.createOption_cases f ordP ordO (World.mkParams ps) ty m' with
    ⟨o', h3, h4⟩ | ⟨msg, h3, -⟩
  swap
  · rw [h1, h3] at hmap
    simp [invalidArg] at hmap
  refine ⟨.object m'.objs.length, by rw [hout, h4]; rfl, ?_⟩
  rw [World.step_createOption, h4]
  simp [OptionModel.withOption]

/-- C68 fails, destruction: an observer that lets go of the last reference to a registered option from
inside its `update()` makes every update of its ticker undefined behaviour, because the destructor
of the option erases its entry from the list of observers. -/
theorem C68_release_fails (n : Nat) (w o : Nat) (t : String) (S : F) (m : Market F) {q : Nat}
    {d : StockData F} (hq : mapFind t m.stockDataMap = some q) (hh : m.heap[q]? = some d)
    (hacc : Accepted S d.sigma d.coupon) (hw : w ∈ m.observers) (hwt : Watches m t w)
    (ho : o ∈ m.observers) (how : o ≠ w) {ob : Observer F} (hob : m.objs[o]? = some ob)
    (hal : ob.alive = true) {opt : OptObj F} (hopt : ob.opt = some opt) :
    (exec (onlyAt w (.call (.release o) fun _ _ => .done)) (n + 1) (.updatePrice t S)
      (start m)).1 = .ub := by
  refine register_ub n w (.release o) ?_ t S m hq hh hacc hw hwt ?_
  · intro ex upd s hs
    change (if o ∈ s.held then ((.ok .unit, { s with dropped := o :: s.dropped }) :
      Res (Val F) × RState F) else Reentrant.plain (.release o) s) = _
    rw [hs, if_neg (by simpa using how)]
  · intro m' _ hobjs hobs
    have hob' : m'.objs[o]? = some ob := by rw [hobjs]; exact hob
    have hrel : OptionModel.release o m' = (.ok (), Market.removeExpired
        { m' with objs := m'.objs.set o { ob with alive := false } }) := by
      unfold OptionModel.release
      simp only [hob', hal, if_true, hopt]
      rfl
    refine ⟨.unit, ?_, ?_⟩
    · rw [World.outcome, World.exec, World.exec_eq, hrel]
      rfl
    · rw [World.step_release, hrel]
      intro h
      have hmem : o ∈ m'.observers := by rw [hobs]; exact ho
      rw [← h] at hmem
      have hlt : o < m'.objs.length := by
        by_contra hcon
        rw [List.getElem?_eq_none (by omega)] at hob'
        cases hob'
      simp only [Market.removeExpired, List.mem_filter] at hmem
      have := hmem.2
      simp [Market.expired, List.getElem?_set_self hlt] at this

/-- C68 fails, exceptions: when the `update()` of one observer throws, the exception leaves
`updateStockPrice` after the price has been changed, and the observers registered behind it are not
told: whatever they knew before, if the price is a new one they are not up to date. -/
theorem C68_throwing_fails (n : Nat) (w : Nat) (e : Exc) (t : String) (S : F) (m : Market F)
    (hm : m.WF) {q : Nat} {d : StockData F} (hq : mapFind t m.stockDataMap = some q)
    (hh : m.heap[q]? = some d) (hacc : Accepted S d.sigma d.coupon) (pre post : List Nat)
    (hobs : m.observers = pre ++ w :: post) (hpre : w ∉ pre) (hwt : Watches m t w) :
    ∃ s', exec (onlyAt w (.throw e)) (n + 1) (.updatePrice t S) (start m) = (.throw e, s') ∧
      s'.m.lookup t = some { d with price := S } ∧
      ∀ o ∈ post, o ∉ pre → o ≠ w → Watches m t o →
        lastSeen s'.m o = lastSeen m o ∧
        (S ≠ d.price → UpToDate m o → ¬ UpToDate s'.m o) := by
  obtain ⟨ob, hob, hal, hid⟩ := hwt
  obtain ⟨l, hl, hb⟩ := update_reaches n w (.throw e) t S (start m)
    rfl hq hh hacc pre post hobs hpre hob hal hid
  have hu := unlock_done w (start m)
    (((m.setHeap q { d with price := S }).addLog l).deliver w t) rfl
  dsimp only [runProg] at hb
  rw [show (start m).m = m from rfl, hu] at hb
  have hlook : m.lookup t = some d := by simp [Market.lookup, hq, hh]
  have hlook' : (((m.setHeap q { d with price := S }).addLog l).deliver w t).lookup t =
      some { d with price := S } := by
    have := Market.lookup_set hm (t' := t) { d with price := S } hq
    rw [if_pos rfl] at this
    exact this
  refine ⟨_, by rw [exec]; dsimp only; rw [hb], hlook', ?_⟩
  intro o _ hopre how ⟨obo, ho1, ho2, ho3⟩
  have hls : lastSeen (((m.setHeap q { d with price := S }).addLog l).deliver w t) o =
      lastSeen m o := by
    rw [Market.deliver_eq, lastSeen_append_ne _ _ _ (by simpa using Ne.symm how),
      lastSeen_append_ne _ _ _ (by
        intro x hx hxo; exact hopre (by rw [← hxo]; exact hl x hx))]
    rfl
  refine ⟨hls, ?_⟩
  rintro hS ⟨ob1, h1, h2⟩ ⟨ob2, h3, h4⟩
  have h3' : m.objs[o]? = some ob2 := h3
  rw [ho1] at h1 h3'
  cases h1
  cases h3'
  change lastSeen (((m.setHeap q { d with price := S }).addLog l).deliver w t) o = _ at h4
  rw [hls, h2, ho3, hlook] at h4
  change some (Note.mk o (some d) m.r) = some ⟨o,
    (((m.setHeap q { d with price := S }).addLog l).deliver w t).lookup t, _⟩ at h4
  rw [hlook'] at h4
  simp only [Option.some.injEq, Note.mk.injEq] at h4
  have := h4.2.1
  apply hS
  have h5 : d.price = S := by
    conv_lhs => rw [this]
  exact h5.symm

/-- The same price set again from inside `update()`, for any depth of the stack. -/
theorem recursion_ub (n : Nat) (w : Nat) (t : String) (S : F) (s : RState F)
    (hd : s.dropped = []) {q : Nat} {d : StockData F} (hq : mapFind t s.m.stockDataMap = some q)
    (hh : s.m.heap[q]? = some d) (hacc : Accepted S d.sigma d.coupon) (hw : w ∈ s.m.observers)
    (hwt : Watches s.m t w) :
    (exec (onlyAt w (.call (.updatePrice t S) fun _ _ => .done)) n (.updatePrice t S) s).1 =
      .ub := by
  induction n generalizing s d with
  | zero => rfl
  | succ n ih =>
    obtain ⟨ob, hob, hal, hid⟩ := id hwt
    obtain ⟨pre, post, hobs, hpre⟩ := List.eq_append_cons_of_mem hw
    obtain ⟨l, hl, hb⟩ := update_reaches n w (.call (.updatePrice t S) fun _ _ => .done) t S s
      hd hq hh hacc pre post hobs hpre hob hal hid
    change (body _ _ _ _).1 = _
    rw [hb]
    set up : Nat → Market F → Prog F := onlyAt w (.call (.updatePrice t S) fun _ _ => .done)
    have hlt : q < s.m.heap.length := by
      by_contra hcon
      rw [List.getElem?_eq_none (by omega)] at hh
      cases hh
    have hub := ih { s with m := (((s.m.setHeap q { d with price := S }).addLog l).deliver w t),
                            held := w :: s.held } hd (d := { d with price := S }) hq
      (by
        change (s.m.heap.set q { d with price := S })[q]? = _
        rw [List.getElem?_set_self hlt]) hacc hw ⟨ob, hob, hal, hid⟩
    rw [runProg]
    rcases hc : exec up n (.updatePrice t S)
      { s with m := (((s.m.setHeap q { d with price := S }).addLog l).deliver w t),
               held := w :: s.held } with ⟨r, s2⟩
    rw [hc] at hub
    change r = .ub at hub
    subst hub
    rfl

/-- C68 fails, recursion: an observer that sets the price of its own ticker from inside its
`update()` overflows the stack, however deep the stack may be, even if it always sets the price that
is already there: the market data notify without looking whether anything has changed. -/
theorem C68_recursion_fails (n : Nat) (w : Nat) (t : String) (S : F) (m : Market F) {q : Nat}
    {d : StockData F} (hq : mapFind t m.stockDataMap = some q) (hh : m.heap[q]? = some d)
    (hacc : Accepted S d.sigma d.coupon) (hw : w ∈ m.observers) (hwt : Watches m t w) :
    (exec (onlyAt w (.call (.updatePrice t S) fun _ _ => .done)) n (.updatePrice t S)
      (start m)).1 = .ub :=
  recursion_ub n w t S (start m) rfl hq hh hacc hw hwt

/-! ## Concrete cases -/

/-- One stock and two observers of it, which are not options. -/
noncomputable def twoObservers : Market ℝ :=
  { heap := [⟨100, 1 / 5, none⟩], stockDataMap := [("A", 0)], r := 1 / 20, observers := [0, 1],
    objs := [⟨"A", true, none⟩, ⟨"A", true, none⟩],
    log := [⟨1, some ⟨100, 1 / 5, none⟩, 1 / 20⟩] }

theorem twoObservers_accepted : Accepted (120 : ℝ) (1 / 5) none := by
  refine ⟨?_, ?_, by simp⟩ <;> simp [Fl.le, Fl.lt] <;> norm_num

theorem twoObservers_wf : twoObservers.WF := by
  constructor
  · intro t p h
    simp only [twoObservers, mapFind, List.find?] at h ⊢
    by_cases ht : ("A" == t) = true
    · simp [ht] at h; simp [← h]
    · simp [ht] at h
  · intro t t' p h h'
    simp only [twoObservers, mapFind, List.find?] at h h'
    by_cases ht : ("A" == t) = true <;> by_cases ht' : ("A" == t') = true
    · simp only [beq_iff_eq] at ht ht'; rw [← ht, ← ht']
    · simp [ht'] at h'
    · simp [ht] at h
    · simp [ht] at h

/-- Observer 0 registers observer 5: undefined behaviour. -/
example (n : Nat) : (exec (onlyAt 0 (.call (.addObserver 5) fun _ _ => .done)) (n + 1)
    (.updatePrice "A" 120) (start twoObservers)).1 = .ub :=
  C68_register_fails n 0 5 "A" 120 twoObservers (q := 0) (d := ⟨100, 1 / 5, none⟩) rfl rfl
    twoObservers_accepted (by simp [twoObservers]) ⟨_, rfl, rfl, rfl⟩

/-- Parameters of a European option on "A". -/
def callParams : List (String × Param ℝ) := [("ticker", .str "A"), ("T", .dbl 1), ("K", .dbl 100)]

/-- Observer 0 creates a European call: undefined behaviour. -/
example (n : Nat) : (exec (onlyAt 0 (.call (.createOption .european [.K] [.ticker, .T] callParams
    .call) fun _ _ => .done)) (n + 1) (.updatePrice "A" 120) (start twoObservers)).1 = .ub := by
  refine C68_createOption_fails n 0 .european [.K] [.ticker, .T] callParams .call "A" 120
    twoObservers (q := 0) (d := ⟨100, 1 / 5, none⟩) rfl rfl twoObservers_accepted
    (by simp [twoObservers]) ⟨_, rfl, rfl, rfl⟩ ?_
  rw [C16_successIff _ _ _ _ (by decide) (by decide) _ _ (.inl rfl)]
  exact ⟨⟨.european, "A", .vanilla .call 100, 1, none⟩,
    by simp [Contract, PayoffOf, BarrierOf, callParams, lastSet, Fl.lt], ⟨_, rfl⟩⟩

/-- Observer 0 lets go of an option registered behind it: undefined behaviour. -/
example (n : Nat) : (exec (onlyAt 0 (.call (.release 1) fun _ _ => .done)) (n + 1)
    (.updatePrice "A" 120) (start { twoObservers with
      objs := [⟨"A", true, none⟩,
        ⟨"A", true, some ⟨.european, "A", .vanilla .call 100, 1, none⟩⟩] })).1 = .ub :=
  C68_release_fails n 0 1 "A" 120 _ (q := 0) (d := ⟨100, 1 / 5, none⟩) rfl rfl
    twoObservers_accepted (by simp [twoObservers]) ⟨_, rfl, rfl, rfl⟩ (by simp [twoObservers])
    (by simp) rfl rfl rfl

/-- Observer 0 sets the price again: the stack overflows. -/
example (n : Nat) : (exec (onlyAt 0 (.call (.updatePrice "A" 120) fun _ _ => .done)) n
    (.updatePrice "A" 120) (start twoObservers)).1 = .ub :=
  C68_recursion_fails n 0 "A" 120 twoObservers (q := 0) (d := ⟨100, 1 / 5, none⟩) rfl rfl
    twoObservers_accepted (by simp [twoObservers]) ⟨_, rfl, rfl, rfl⟩

/-- Observer 0 throws: observer 1, which knew the price 100, is not told of the price 120. -/
example (n : Nat) : ∃ s', exec (onlyAt 0 (.throw ⟨.runtimeError, "no"⟩)) (n + 1)
    (.updatePrice "A" 120) (start twoObservers) = (.throw ⟨.runtimeError, "no"⟩, s') ∧
    UpToDate twoObservers 1 ∧ ¬ UpToDate s'.m 1 := by
  obtain ⟨s', h1, -, h3⟩ := C68_throwing_fails n 0 ⟨.runtimeError, "no"⟩ "A" 120 twoObservers
    twoObservers_wf (q := 0) (d := ⟨100, 1 / 5, none⟩) rfl rfl twoObservers_accepted [] [1] rfl
    (by simp) ⟨_, rfl, rfl, rfl⟩
  have hu : UpToDate twoObservers 1 := ⟨_, rfl, rfl⟩
  exact ⟨s', h1, hu, (h3 1 (by simp) (by simp) (by simp) ⟨_, rfl, rfl, rfl⟩).2 (by norm_num) hu⟩

/-- Observer 0 (of ticker "A") notifies the observers of "B" from inside its `update()`. -/
def forwarding : Nat → Market ℝ → Prog ℝ := onlyAt 0 (.call (.notifyObserver "B") fun _ _ => .done)

/-- The state after registering observers of "A" and "B". -/
noncomputable def forwardingMarket : Market ℝ :=
  { (Market.init : Market ℝ) with
    observers := [0, 1], objs := [⟨"A", true, none⟩, ⟨"B", true, none⟩] }

theorem forwarding_reached : Reached forwarding forwardingMarket := by
  have h1 := Reached.step 1 (.newObserver "A") (Reached.init (upd := forwarding)) (by
    change Res.ok _ ≠ _; simp)
  have h2 := Reached.step 1 (.newObserver "B") h1 (by change Res.ok _ ≠ _; simp)
  have h3 := Reached.step 1 (.addObserver 0) h2 (by change Res.ok _ ≠ _; simp)
  have h4 := Reached.step 1 (.addObserver 1) h3 (by change Res.ok _ ≠ _; simp)
  exact h4

/-- A change of the rate with a nested notification: both observers end up to date. -/
example : ∃ s', exec forwarding 3 (.setR 7) (start forwardingMarket) = (.ok .unit, s') ∧
    s'.m.log.map Note.obs = [0, 1, 1] ∧ UpToDate s'.m 0 ∧ UpToDate s'.m 1 := by
  refine ⟨_, rfl, rfl, ?_⟩
  have h := (C68_callbacks_partial forwarding forwarding_reached 3 (.setR 7) .unit _ rfl (by
    intro e he
    change e ∈ [(Call.notifyObserver "B", Res.ok Val.unit), (Call.setR (7 : ℝ), Res.ok Val.unit)]
      at he
    simp only [List.mem_cons, List.not_mem_nil, or_false] at he
    rcases he with rfl | rfl <;> exact ⟨_, rfl⟩)).1
  exact ⟨h "A" 0 trivial (by simp [forwardingMarket]) ⟨_, rfl, rfl, rfl⟩ ⟨_, rfl, rfl⟩,
    h "B" 1 trivial (by simp [forwardingMarket]) ⟨_, rfl, rfl, rfl⟩ ⟨_, rfl, rfl⟩⟩

/-- An observer that reads its stock and the rate. -/
example : OnlyReads (F := ℝ) (.call (.getStockData "A") fun _ _ => .call .getR fun _ _ => .done) :=
  .getStockData _ _ fun _ _ => .getR _ fun _ _ => .done

end Verif.Props
