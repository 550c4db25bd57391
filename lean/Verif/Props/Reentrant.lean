import Verif.Lemmas.Reentrant

/-!
# Property C68: observers that call back into the market data
-/

namespace Verif.Props
open Spec Reentrant

variable {F : Type} [Fl F]

/-! ## Every call keeps the state well formed -/

/-- The executor of nested calls keeps well-formed states well formed. -/
def KeepsWF (ex : Call F → Eff (RState F) (Val F)) : Prop := ∀ c s, s.m.WF → (ex c s).2.m.WF

theorem unlock_wf (o : Nat) (s : RState F) (h : s.m.WF) : (unlock o s).m.WF :=
  (keeps_unlock o s).wf h

theorem runProg_wf {ex : Call F → Eff (RState F) (Val F)} (hex : KeepsWF ex) (p : Prog F)
    (s : RState F) (h : s.m.WF) : (runProg ex p s).2.m.WF := by
  induction p generalizing s with
  | done => exact h
  | throw e => exact h
  | call c k ih =>
    have := hex c s h
    rw [runProg]
    rcases hc : ex c s with ⟨rc, s1⟩
    rw [hc] at this
    cases rc with
    | ub => exact this
    | ok v => exact ih _ _ s1 this
    | throw v => exact ih _ _ s1 this

theorem deliver_wf (m : Market F) (o : Nat) (id : String) (h : m.WF) : (m.deliver o id).WF :=
  ⟨h.bound, h.inj⟩

theorem notifyLoop_wf {ex : Call F → Eff (RState F) (Val F)} (hex : KeepsWF ex)
    (upd : Nat → Market F → Prog F) (sel : String → Bool) (v : Nat) (os : List Nat)
    (s : RState F) (h : s.m.WF) : (notifyLoop ex upd sel v os s).2.m.WF := by
  induction os generalizing s with
  | nil => exact h
  | cons o os ih =>
    rw [notifyLoop]
    cases ho : s.m.objs[o]? with
    | none => exact ih s h
    | some ob =>
      dsimp only
      by_cases hs : (ob.alive && sel ob.id) = true
      · rw [if_pos hs]
        have := runProg_wf hex (upd o (s.m.deliver o ob.id))
          { s with m := s.m.deliver o ob.id, held := o :: s.held } (deliver_wf _ _ _ h)
        rcases hp : runProg ex (upd o (s.m.deliver o ob.id))
          { s with m := s.m.deliver o ob.id, held := o :: s.held } with ⟨rp, s2⟩
        rw [hp] at this
        cases rp with
        | ub => exact this
        | throw e => exact unlock_wf o s2 this
        | ok u =>
          dsimp only
          by_cases hv : (unlock o s2).changes = v
          · rw [if_pos hv]; exact ih _ (unlock_wf o s2 this)
          · rw [if_neg hv]; exact unlock_wf o s2 this
      · rw [if_neg hs]
        exact ih s h

theorem notify_wf {ex : Call F → Eff (RState F) (Val F)} (hex : KeepsWF ex)
    (upd : Nat → Market F → Prog F) (sel : String → Bool) (s : RState F) (h : s.m.WF) :
    (notify ex upd sel s).2.m.WF := by
  have := notifyLoop_wf hex upd sel s.changes s.m.observers s h
  unfold notify
  rcases hl : notifyLoop ex upd sel s.changes s.m.observers s with ⟨rl, s1⟩
  rw [hl] at this
  cases rl <;> exact this

theorem updateWith_wf {ex : Call F → Eff (RState F) (Val F)} (hex : KeepsWF ex)
    (upd : Nat → Market F → Prog F) (err t : String) (setter : Eff (StockData F) Unit)
    (s : RState F) (h : s.m.WF) : (updateWith ex upd err t setter s).2.m.WF := by
  unfold updateWith
  cases mapFind t s.m.stockDataMap with
  | none => exact h
  | some p =>
    dsimp only
    cases s.m.heap[p]? with
    | none => exact h
    | some d =>
      dsimp only
      rcases setter d with ⟨rs, d'⟩
      have h' : (s.m.setHeap p d').WF := h.set p d'
      cases rs with
      | ub => exact h'
      | throw e => exact h'
      | ok u => exact notify_wf hex upd _ _ h'

theorem exec_wf (upd : Nat → Market F → Prog F) (n : Nat) : KeepsWF (exec upd n) := by
  induction n with
  | zero => intro c s h; exact h
  | succ n ih =>
    intro c s h
    change (body (exec upd n) upd c s).2.m.WF
    have hplain : ∀ c : Call F, (plain c s).2.m.WF := fun c => World.step_wf h c
    cases c with
    | updatePrice t S => exact updateWith_wf ih upd _ _ _ s h
    | updateSigma t S => exact updateWith_wf ih upd _ _ _ s h
    | updateCoupon t S => exact updateWith_wf ih upd _ _ _ s h
    | setR x => exact notify_wf ih upd _ _ ⟨h.bound, h.inj⟩
    | notifyObserver t => exact notify_wf ih upd _ _ h
    | notifyObservers => exact notify_wf ih upd _ _ h
    | release o =>
      change (if o ∈ s.held then ((.ok .unit, { s with dropped := o :: s.dropped }) :
        Res (Val F) × RState F) else plain (.release o) s).2.m.WF
      split
      · exact h
      · exact hplain _
    | addStock t S sg cp => exact hplain _
    | getStockData t => exact hplain _
    | getR => exact hplain _
    | addObserver o => exact hplain _
    | removeObserver => exact hplain _
    | newObserver t => exact hplain _
    | createOption f ordP ordO ps ty => exact hplain _

/-- The market data after some sequence of calls made by a program whose observers behave as
`upd` says; the program catches exceptions and goes on. -/
inductive Reached (upd : Nat → Market F → Prog F) : Market F → Prop
  | init : Reached upd Market.init
  | step {m : Market F} (n : Nat) (c : Call F) (h : Reached upd m)
      (hub : (exec upd n c (start m)).1 ≠ .ub) : Reached upd (exec upd n c (start m)).2.m

theorem Reached.wf {upd : Nat → Market F → Prog F} {m : Market F} (h : Reached upd m) : m.WF := by
  induction h with
  | init => exact Market.init_wf
  | step n c _ _ ih => exact exec_wf upd n c _ ih

/-! ## C68 -/

/-- C68: whatever the observers do in their `update()` (any nested calls, to any depth, depending on
all they see), if the outermost call returns and neither it nor a nested call left its notifications
incomplete (no update ended with an exception, no `addStock` was made), then afterwards every live
observer that the call notifies has seen the present data: its last `update()` came when its ticker
and the rate had their present values.  Observers that were up to date before stay so.

Missing from the full property: calls that end with an exception (see `C68_throwing_fails`) and
observers whose nested calls change the list of observers (see `C68_register_fails`). -/
theorem C68_callbacks_partial (upd : Nat → Market F → Prog F) {m : Market F}
    (hm : Reached upd m) (n : Nat) (c : Call F) (v : Val F) (s' : RState F)
    (h : exec upd n c (start m) = (.ok v, s')) (ht : ∀ e ∈ s'.trace, Completes e) :
    (∀ t o, NotifiesTicker t c → o ∈ m.observers → Watches m t o → Alive s'.m o →
      UpToDate s'.m o) ∧
    (∀ o ∈ m.observers, UpToDate m o → Alive s'.m o → UpToDate s'.m o) := by
  cases n with
  | zero => simp [exec] at h
  | succ n =>
    obtain ⟨⟨-, g2⟩, g3⟩ := exec_callGood upd n (exec_good upd n) c (start m) s' _ h (by simp)
    obtain ⟨k1, k2⟩ := g2 ht (ht _ g3)
    refine ⟨?_, fun o ho hu ha => k1.fresh hm.wf o ho hu ha⟩
    rintro t o hn ho ⟨ob, h1, -, h3⟩ ha
    exact k2 ⟨v, rfl⟩ hm.wf t o ob hn ho h1 h3 ha

/-- The body of an `update()` that only reads: it calls `getStockData` and `getR`, catches their
exceptions, and returns. -/
inductive OnlyReads : Prog F → Prop
  | done : OnlyReads .done
  | getStockData (t : String) (k : Res (Val F) → Market F → Prog F)
      (h : ∀ r m, OnlyReads (k r m)) : OnlyReads (.call (.getStockData t) k)
  | getR (k : Res (Val F) → Market F → Prog F) (h : ∀ r m, OnlyReads (k r m)) :
      OnlyReads (.call .getR k)

theorem exec_read (upd : Nat → Market F → Prog F) (n : Nat) (c : Call F) (s : RState F)
    (hc : (∃ t, c = .getStockData t) ∨ c = .getR) :
    ∃ r tr, r ≠ .ub ∧ exec upd (n + 1) c s = (r, { s with trace := tr }) := by
  have hp : body (exec upd n) upd c = plain c := by
    rcases hc with ⟨t, rfl⟩ | rfl <;> rfl
  have hst : (World.exec c s.m).2 = s.m := by
    rcases hc with ⟨t, rfl⟩ | rfl
    · exact World.step_getStockData s.m t
    · rfl
  have hout : (World.exec c s.m).1 ≠ .ub := by
    rcases hc with ⟨t, rfl⟩ | rfl
    · change World.outcome s.m (.getStockData t) ≠ .ub
      rw [World.outcome_getStockData]
      cases mapFind t s.m.stockDataMap <;> simp [invalidArg]
    · simp [World.exec, Market.getR, Eff.bind_apply]
  refine ⟨(World.exec c s.m).1, s.trace ++ [(c, (World.exec c s.m).1)], hout, ?_⟩
  rw [exec]
  dsimp only
  rw [hp]
  simp only [plain, withMarket, hst, if_true]

theorem runProg_reads (upd : Nat → Market F → Prog F) (n : Nat) {p : Prog F} (hp : OnlyReads p)
    (s : RState F) : ∃ tr, runProg (exec upd (n + 1)) p s = (.ok (), { s with trace := tr }) := by
  induction hp generalizing s with
  | done => exact ⟨s.trace, rfl⟩
  | getStockData t k h ih =>
    obtain ⟨r, tr, hr, he⟩ := exec_read upd n (.getStockData t) s (.inl ⟨t, rfl⟩)
    rw [runProg, he]
    cases r with
    | ub => exact absurd rfl hr
    | ok v => exact ih _ _ _
    | throw e => exact ih _ _ _
  | getR k h ih =>
    obtain ⟨r, tr, hr, he⟩ := exec_read upd n .getR s (.inr rfl)
    rw [runProg, he]
    cases r with
    | ub => exact absurd rfl hr
    | ok v => exact ih _ _ _
    | throw e => exact ih _ _ _

theorem notifyLoop_reads (upd : Nat → Market F → Prog F) (hupd : ∀ o m, OnlyReads (upd o m))
    (n : Nat) (id : String) (os : List Nat) (s : RState F) (hd : s.dropped = []) :
    ∃ tr, notifyLoop (exec upd (n + 1)) upd (fun i => i == id) s.changes os s =
      (.ok (), { s with m := Market.notifyObserverLoop id os s.m, trace := tr }) := by
  induction os generalizing s with
  | nil => exact ⟨s.trace, rfl⟩
  | cons o os ih =>
    rw [notifyLoop, Market.notifyObserverLoop]
    cases ho : s.m.objs[o]? with
    | none => exact ih s hd
    | some ob =>
      dsimp only
      cases ha : ob.alive with
      | false => simpa using ih s hd
      | true =>
        by_cases hi : (ob.id == id) = true
        · simp only [hi, Bool.and_self, if_true]
          obtain ⟨tr, hp⟩ := runProg_reads upd n (hupd o (s.m.deliver o ob.id))
            { s with m := s.m.deliver o ob.id, held := o :: s.held }
          rw [hp]
          have hu : unlock o { s with m := s.m.deliver o ob.id, held := o :: s.held, trace := tr } =
              { s with m := s.m.deliver o ob.id, trace := tr } := by
            unfold unlock
            rw [if_neg (by simp [hd])]
            simp
          dsimp only
          rw [hu, if_pos rfl]
          exact ih { s with m := s.m.deliver o ob.id, trace := tr } hd
        · simp only [hi, Bool.and_false, Bool.false_eq_true, if_false, if_true]
          exact ih s hd

theorem notifyLoopAll_reads (upd : Nat → Market F → Prog F) (hupd : ∀ o m, OnlyReads (upd o m))
    (n : Nat) (os : List Nat) (s : RState F) (hd : s.dropped = []) :
    ∃ tr, notifyLoop (exec upd (n + 1)) upd (fun _ => true) s.changes os s =
      (.ok (), { s with m := Market.notifyObserversLoop os s.m, trace := tr }) := by
  induction os generalizing s with
  | nil => exact ⟨s.trace, rfl⟩
  | cons o os ih =>
    rw [notifyLoop, Market.notifyObserversLoop]
    cases ho : s.m.objs[o]? with
    | none => exact ih s hd
    | some ob =>
      dsimp only
      cases ha : ob.alive with
      | false => simpa using ih s hd
      | true =>
        simp only [Bool.and_self, if_true]
        obtain ⟨tr, hp⟩ := runProg_reads upd n (hupd o (s.m.deliver o ob.id))
          { s with m := s.m.deliver o ob.id, held := o :: s.held }
        rw [hp]
        have hu : unlock o { s with m := s.m.deliver o ob.id, held := o :: s.held, trace := tr } =
            { s with m := s.m.deliver o ob.id, trace := tr } := by
          unfold unlock
          rw [if_neg (by simp [hd])]
          simp
        dsimp only
        rw [hu, if_pos rfl]
        exact ih { s with m := s.m.deliver o ob.id, trace := tr } hd

theorem updateWith_reads (upd : Nat → Market F → Prog F) (hupd : ∀ o m, OnlyReads (upd o m))
    (n : Nat) (err t : String) (setter : Eff (StockData F) Unit) (s : RState F)
    (hd : s.dropped = []) :
    ((updateWith (exec upd (n + 1)) upd err t setter s).1,
      (updateWith (exec upd (n + 1)) upd err t setter s).2.m) =
    ((Market.updateWith err t setter s.m).1 >>= fun _ => .ok .unit,
      (Market.updateWith err t setter s.m).2) := by
  unfold updateWith Market.updateWith
  cases mapFind t s.m.stockDataMap with
  | none => rfl
  | some p =>
    dsimp only
    cases s.m.heap[p]? with
    | none => rfl
    | some d =>
      dsimp only
      rcases setter d with ⟨rs, d'⟩
      cases rs with
      | ub => rfl
      | throw e => rfl
      | ok u =>
        obtain ⟨tr, hl⟩ := notifyLoop_reads upd hupd n t s.m.observers
          { s with m := { s.m with heap := s.m.heap.set p d' } } hd
        dsimp only at hl ⊢
        simp only [notify, hl]
        rfl

/-- C68, observers that only read (in particular options, whose `update()` does nothing): every call
behaves as in the model without callbacks, with the same outcome, data and notifications; so all
properties of that model (C01-C07) hold for programs with such observers. -/
theorem C68_readers (upd : Nat → Market F → Prog F) (hupd : ∀ o m, OnlyReads (upd o m))
    (n : Nat) (c : Call F) (m : Market F) :
    ((exec upd (n + 2) c (start m)).1, (exec upd (n + 2) c (start m)).2.m) =
      (World.outcome m c, World.step m c) := by
  change ((body (exec upd (n + 1)) upd c (start m)).1,
    (body (exec upd (n + 1)) upd c (start m)).2.m) = _
  cases c with
  | updatePrice t S =>
    refine (updateWith_reads upd hupd n _ t _ (start m) rfl).trans ?_
    rw [World.step, World.outcome, World.exec, World.exec_eq]
    rfl
  | updateSigma t S =>
    refine (updateWith_reads upd hupd n _ t _ (start m) rfl).trans ?_
    rw [World.step, World.outcome, World.exec, World.exec_eq]
    rfl
  | updateCoupon t S =>
    refine (updateWith_reads upd hupd n _ t _ (start m) rfl).trans ?_
    rw [World.step, World.outcome, World.exec, World.exec_eq]
    rfl
  | setR x =>
    obtain ⟨tr, hl⟩ := notifyLoopAll_reads upd hupd n m.observers
      { start m with m := { m with r := x } } rfl
    change ((notify (exec upd (n + 1)) upd (fun _ => true) { start m with m := { m with r := x } }).1,
      (notify (exec upd (n + 1)) upd (fun _ => true)
        { start m with m := { m with r := x } }).2.m) = _
    simp only [notify]
    dsimp only [start] at hl ⊢
    simp only [hl]
    rfl
  | notifyObserver t =>
    obtain ⟨tr, hl⟩ := notifyLoop_reads upd hupd n t m.observers (start m) rfl
    change ((notify (exec upd (n + 1)) upd (fun i => i == t) (start m)).1,
      (notify (exec upd (n + 1)) upd (fun i => i == t) (start m)).2.m) = _
    simp only [notify]
    dsimp only [start] at hl ⊢
    simp only [hl]
    rfl
  | notifyObservers =>
    obtain ⟨tr, hl⟩ := notifyLoopAll_reads upd hupd n m.observers (start m) rfl
    change ((notify (exec upd (n + 1)) upd (fun _ => true) (start m)).1,
      (notify (exec upd (n + 1)) upd (fun _ => true) (start m)).2.m) = _
    simp only [notify]
    dsimp only [start] at hl ⊢
    simp only [hl]
    rfl
  | release o => rfl
  | addStock t S sg cp => rfl
  | getStockData t => rfl
  | getR => rfl
  | addObserver o => rfl
  | removeObserver => rfl
  | newObserver t => rfl
  | createOption f ordP ordO ps ty => rfl

end Verif.Props
