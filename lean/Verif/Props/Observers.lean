import Verif.Props.Market

/-!
# Properties C04-C07 and C09: observers, handles, tickers, equality of stock data
-/

set_option linter.unusedSectionVars false

namespace Verif.Props
open World Market Spec Res

variable {F : Type} [Fl F]

/-! ## C04 -/

@[simp] theorem setHeap_watchers (m : Market F) (p : Nat) (d : StockData F) (t : String) :
    watchers (m.setHeap p d) t = watchers m t := rfl

/-- C04, updates: a successful update of ticker `t` delivers one `update()` per registration of a
live observer of `t`, in registration order, each seeing the new data; nothing else is delivered.
A throwing update delivers nothing. -/
theorem C04_update (h : List (Call F)) (c : Call F) (t : String) (ht : IsUpdateOf t c) :
    (IsOk (outcome (run init h) c) →
      (run init (h ++ [c])).log = (run init h).log ++
        (watchers (run init h) t).map
          (fun o => ⟨o, data (h ++ [c]).reverse t, rate h.reverse⟩)) ∧
    (¬ IsOk (outcome (run init h) c) → (run init (h ++ [c])).log = (run init h).log) := by
  have hwf := run_wf (F := F) init_wf h
  rw [← run_lookup, ← run_rate]
  simp only [run_snoc]
  rcases step_update_cases hwf ht with ⟨hn, ⟨msg, ho⟩, hs⟩ | ⟨p, d, hp, -, hld, ⟨ha, ho, hs⟩ | ⟨ha, ⟨msg, ho⟩, hs⟩⟩
  · rw [ho, hs]; simp
  · rw [ho, hs, notifyObserver_log]; exact ⟨fun _ => rfl, fun hx => absurd ⟨_, rfl⟩ hx⟩
  · rw [ho, hs]; simp [setHeap]

/-- C04, rate: `setR` notifies every live registered observer once per registration, in order, and
each sees the new rate and the current data of its own ticker. -/
theorem C04_setR (h : List (Call F)) (r : F) :
    (run init (h ++ [.setR r])).log = (run init h).log ++
      (liveObservers (run init h)).map (fun o =>
        ⟨o, ((run init h).objs[o]?).bind (fun ob => data h.reverse ob.id), r⟩) := by
  simp only [← run_lookup]
  rw [run_snoc, step_setR, notifyObservers_log]
  rfl

/-- C04, explicit notification calls. -/
theorem C04_notify (h : List (Call F)) (t : String) :
    (run init (h ++ [.notifyObservers])).log = (run init h).log ++
      (liveObservers (run init h)).map (fun o =>
        ⟨o, ((run init h).objs[o]?).bind (fun ob => data h.reverse ob.id), rate h.reverse⟩) ∧
    (run init (h ++ [.notifyObserver t])).log = (run init h).log ++
      (watchers (run init h) t).map (fun o => ⟨o, data h.reverse t, rate h.reverse⟩) := by
  simp only [← run_lookup, ← run_rate]
  rw [run_snoc, run_snoc, step_notifyObservers, step_notifyObserver, notifyObservers_log,
    notifyObserver_log]
  exact ⟨rfl, rfl⟩

/-- The calls that may deliver notifications. -/
def Notifies : Call F → Prop
  | .updatePrice .. | .updateSigma .. | .updateCoupon .. | .setR .. | .notifyObserver ..
  | .notifyObservers => True
  | _ => False

theorem release_log (m : Market F) (o : Nat) : (OptionModel.release o m).2.log = m.log := by
  unfold OptionModel.release
  split
  · split
    · dsimp only; split <;> rfl
    · rfl
  · rfl

/-- C04, everything else: no other call delivers a notification. -/
theorem C04_noOther (h : List (Call F)) (c : Call F) (hc : ¬ Notifies c) :
    (run init (h ++ [c])).log = (run init h).log := by
  rw [run_snoc]
  cases c with
  | addStock t S s cc =>
    rcases step_addStock_cases (run init h) t S s cc with ⟨-, -, hs⟩ | ⟨-, -, hs⟩ <;> rw [hs]
    rfl
  | getStockData t => rw [step_getStockData]
  | getR => rfl
  | addObserver o => rfl
  | removeObserver => rfl
  | newObserver => rfl
  | createOption f oP oO ps ty =>
    rcases createOption_step_cases (run init h) f oP oO ps ty with hs | ⟨o, hs⟩ <;> rw [hs]
    rfl
  | release o => rw [step_release, release_log]
  | _ => exact absurd trivial hc

/-- Two observers of "A" (one registered twice), one of "B", one of "A" destroyed. -/
def observedHistory : List (Call ℝ) :=
  [.newObserver "A", .newObserver "B", .newObserver "A", .newObserver "A", .addObserver 0,
   .addObserver 1, .addObserver 2, .addObserver 0, .addObserver 3, .release 2,
   .addStock "A" 1 1 none]

example : watchers (run init observedHistory) "A" = [0, 0, 3] ∧
    liveObservers (run init observedHistory) = [0, 1, 0, 3] ∧
    IsOk (outcome (run init observedHistory) (.updatePrice "A" (2 : ℝ))) := by
  have hs : (run init observedHistory).observers = [0, 1, 2, 0, 3] ∧
      (run init observedHistory).objs = [⟨"A", true, none⟩, ⟨"B", true, none⟩, ⟨"A", false, none⟩,
        ⟨"A", true, none⟩] := by
    have : step (run init observedHistory.dropLast) (.addStock "A" (1 : ℝ) 1 none) =
        (run init observedHistory.dropLast).addObj "A" ⟨1, 1, none⟩ := by
      rcases step_addStock_cases (run init observedHistory.dropLast) "A" (1 : ℝ) 1 none with
        ⟨-, -, h⟩ | ⟨h, -⟩
      · exact h
      · exact absurd (by simp [Accepted]) h
    have h2 : run init observedHistory = step (run init observedHistory.dropLast)
        (.addStock "A" (1 : ℝ) 1 none) := by rw [← run_snoc]; rfl
    rw [h2, this]
    exact ⟨rfl, rfl⟩
  refine ⟨?_, ?_, ?_⟩
  · simp [watchers, Watches, hs.1, hs.2]
  · simp [liveObservers, Alive, hs.1, hs.2]
  · rw [(outcome_update _ _ "A" (by exact rfl)).1]
    exact ⟨⟨2, 1, none⟩, by simp [observedHistory, data, Accepted], by simp [Accepted]⟩
example : ¬ Notifies (F := ℝ) (.addStock "A" 1 1 none) := id

/-! ## C05 -/

/-- The call does not construct or register observers by hand (observers that are not options). -/
def OnlyOptions : Call F → Prop
  | .newObserver .. => False
  | .addObserver .. => False
  | _ => True

open Classical in
/-- Indices of the live options, in creation order. -/
noncomputable def liveOptions (m : Market F) : List Nat :=
  (List.range m.objs.length).filter (fun o => decide (Alive m o))

/-- Expiry of a weak reference is the negation of being alive. -/
theorem expired_iff (m : Market F) (o : Nat) : m.expired o = true ↔ ¬ Alive m o := by
  unfold expired Alive
  cases h : m.objs[o]? with
  | none => simp
  | some ob => simp

theorem removeExpired_observers (m : Market F) :
    m.removeExpired.observers = liveObservers m := by
  unfold removeExpired liveObservers
  simp only
  apply List.filter_congr
  intro o _
  have := expired_iff m o
  by_cases ha : Alive m o
  · have hx : m.expired o = false := by
      by_contra hc; exact (this.mp (by simpa using hc)) ha
    simp [ha, hx]
  · have hx : m.expired o = true := this.mpr ha
    simp [ha, hx]

/-- Observer `o` (an object equal to `ob`) dies. -/
def killed (m : Market F) (o : Nat) (ob : Observer F) : Market F :=
  { m with objs := m.objs.set o { ob with alive := false } }

/-- Shape of the state after a release. -/
theorem release_cases (m : Market F) (o : Nat) :
    (OptionModel.release o m = (.ok (), m) ∧ ¬ Alive m o) ∨
    ∃ ob, m.objs[o]? = some ob ∧ ob.alive = true ∧
      ((ob.opt = none ∧ (OptionModel.release o m).2 =
          killed m o ob) ∨
       (ob.opt ≠ none ∧ (OptionModel.release o m).2 =
          removeExpired (killed m o ob))) := by
  unfold OptionModel.release Alive
  cases h : m.objs[o]? with
  | none => left; simp
  | some ob =>
    cases ha : ob.alive with
    | false => left; simp [ha]
    | true =>
      right
      refine ⟨ob, rfl, ha, ?_⟩
      simp only [ha, if_true]
      cases ho : ob.opt with
      | none => left; simp [killed, ho]
      | some x => right; simp [removeObserver, killed, ho]

theorem alive_set_false (m : Market F) (o : Nat) (ob : Observer F) (o' : Nat) :
    Alive (killed m o ob) o' ↔ o' ≠ o ∧ Alive m o' := by
  unfold Alive killed
  by_cases h : o' = o
  · subst h
    constructor
    · rintro ⟨ob', h1, h2⟩
      exfalso
      simp only [List.getElem?_set] at h1
      split at h1
      · split at h1
        · simp only [Option.some.injEq] at h1; rw [← h1] at h2; cases h2
        · cases h1
      · simp_all
    · rintro ⟨h1, -⟩; exact absurd rfl h1
  · rw [List.getElem?_set_ne (Ne.symm h)]; simp [h]

/-- All observer objects are options. -/
def AllOptions (m : Market F) : Prop := ∀ ob ∈ m.objs, ob.opt ≠ none

/-- The observer part of the state is unchanged. -/
def SameObs (m m' : Market F) : Prop := m'.objs = m.objs ∧ m'.observers = m.observers

theorem step_obs_cases {m : Market F} (hm : m.WF) (c : Call F) (hc : OnlyOptions c) :
    SameObs m (step m c) ∨ (step m c = m.removeExpired) ∨
    (∃ o, step m c = OptionModel.withOption m o) ∨
    ∃ o, step m c = (OptionModel.release o m).2 := by
  have hupd : ∀ t, IsUpdateOf t c → SameObs m (step m c) := by
    intro t ht
    rcases step_update_cases hm ht with ⟨-, -, hs⟩ | ⟨p, d, -, -, -, ⟨-, -, hs⟩ | ⟨-, -, hs⟩⟩
    · rw [hs]; exact ⟨rfl, rfl⟩
    · rw [hs, notifyObserver_log]; exact ⟨rfl, rfl⟩
    · rw [hs]; exact ⟨rfl, rfl⟩
  cases c with
  | addStock t S s cc =>
    left
    rcases step_addStock_cases m t S s cc with ⟨-, -, hs⟩ | ⟨-, -, hs⟩ <;> rw [hs] <;>
      exact ⟨rfl, rfl⟩
  | updatePrice t S => exact .inl (hupd t rfl)
  | updateSigma t S => exact .inl (hupd t rfl)
  | updateCoupon t S => exact .inl (hupd t rfl)
  | getStockData t => left; rw [step_getStockData]; exact ⟨rfl, rfl⟩
  | getR => left; exact ⟨rfl, rfl⟩
  | setR r => left; rw [step_setR, notifyObservers_log]; exact ⟨rfl, rfl⟩
  | addObserver o => exact hc.elim
  | removeObserver => exact .inr (.inl rfl)
  | notifyObserver t => left; rw [step_notifyObserver, notifyObserver_log]; exact ⟨rfl, rfl⟩
  | notifyObservers => left; rw [step_notifyObservers, notifyObservers_log]; exact ⟨rfl, rfl⟩
  | newObserver => exact hc.elim
  | createOption f oP oO ps ty =>
    rcases createOption_step_cases m f oP oO ps ty with hs | ⟨o, hs⟩
    · left; rw [hs]; exact ⟨rfl, rfl⟩
    · exact .inr (.inr (.inl ⟨o, hs⟩))
  | release o => exact .inr (.inr (.inr ⟨o, step_release m o⟩))

theorem filter_live_removeExpired (m : Market F) (h : m.observers = liveOptions m) :
    m.removeExpired.observers = liveOptions m := by
  rw [removeExpired_observers, liveObservers, h, liveOptions, List.filter_filter]
  simp

/-- C05, exactness: when all observers are options made by the factories, the observer list is
exactly the list of the options still alive, in creation order. -/
theorem C05_exactRegistrations (h : List (Call F)) (hh : ∀ c ∈ h, OnlyOptions c) :
    (run init h).observers = liveOptions (run init h) := by
  suffices hs : (run init h).observers = liveOptions (run init h) ∧ AllOptions (run init h) from hs.1
  induction h using List.reverseRecOn with
  | nil => constructor <;> simp [run, init, liveOptions, AllOptions]
  | append_singleton h c ih =>
    obtain ⟨ih1, ih2⟩ := ih (fun c' hc' => hh c' (by simp [hc']))
    rw [run_snoc]
    set m := run init h with hm
    rcases step_obs_cases (hm ▸ run_wf init_wf h : m.WF) c (hh c (by simp)) with
      ⟨h1, h2⟩ | hs | ⟨o, hs⟩ | ⟨o, hs⟩
    · refine ⟨?_, by unfold AllOptions; rw [h1]; exact ih2⟩
      rw [h2, ih1]; unfold liveOptions Alive; rw [h1]
    · rw [hs]; exact ⟨filter_live_removeExpired m ih1, ih2⟩
    · rw [hs]
      refine ⟨?_, ?_⟩
      · show m.observers ++ [m.objs.length] = _
        rw [ih1]
        unfold liveOptions OptionModel.withOption
        simp only [List.length_append, List.length_cons, List.length_nil, zero_add,
          List.range_succ, List.filter_append]
        congr 1
        · apply List.filter_congr
          intro x hx
          have hx' : x < m.objs.length := List.mem_range.mp hx
          apply decide_eq_decide.mpr
          simp only [Alive, List.getElem?_append_left hx']
        · simp [Alive]
      · intro ob hob
        simp only [OptionModel.withOption, List.mem_append, List.mem_singleton] at hob
        rcases hob with hob | hob
        · exact ih2 ob hob
        · simp [hob]
    · rw [hs]
      rcases release_cases m o with ⟨h1, -⟩ | ⟨ob, h1, h2, ⟨h3, -⟩ | ⟨h3, h4⟩⟩
      · rw [h1]; exact ⟨ih1, ih2⟩
      · exact absurd h3 (ih2 ob (List.mem_of_getElem? h1))
      · rw [h4]
        constructor
        · rw [removeExpired_observers, liveObservers]
          show List.filter _ m.observers = _
          rw [ih1, liveOptions, liveOptions, List.filter_filter]
          have hl : (removeExpired (killed m o ob)).objs.length = m.objs.length := by
            simp [removeExpired, killed]
          rw [hl]
          apply List.filter_congr
          intro x _
          have h5 : Alive (removeExpired (killed m o ob)) x ↔ x ≠ o ∧ Alive m x :=
            alive_set_false m o ob x
          have h6 := alive_set_false m o ob x
          by_cases hx : x = o <;> by_cases hy : Alive m x <;> simp_all
        · intro ob' hob'
          have hob'' : ob' ∈ m.objs.set o { ob with alive := false } := hob'
          rcases List.mem_or_eq_of_mem_set hob'' with hb | hb
          · exact ih2 ob' hb
          · rw [hb]; exact h3

/-- C05, safety of removal: `removeObserver` keeps every registration of a live observer, in
order, in every state (also with hand-made observers), and touches nothing else. -/
theorem C05_removeKeepsLive (m : Market F) :
    (step m .removeObserver).observers = liveObservers m ∧
    (step m .removeObserver).objs = m.objs ∧ (step m .removeObserver).log = m.log ∧
    ∀ o, Alive m o → (step m .removeObserver).observers.count o = m.observers.count o := by
  refine ⟨removeExpired_observers m, rfl, rfl, fun o ho => ?_⟩
  rw [step_removeObserver, removeExpired_observers, liveObservers, List.count_filter]
  simp [ho]

/-- The object existed and is destroyed. -/
def Dead (m : Market F) (o : Nat) : Prop := o < m.objs.length ∧ ¬ Alive m o

theorem dead_step {m : Market F} (hm : m.WF) (c : Call F) (o : Nat) (hd : Dead m o) :
    Dead (step m c) o ∧ ∃ l, (step m c).log = m.log ++ l ∧ ∀ n ∈ l, n.obs ≠ o := by
  have happ : ∀ (m' : Market F) ob, m'.objs = m.objs ++ [ob] → Dead m' o := by
    intro m' ob h
    refine ⟨by rw [h]; simp; have := hd.1; omega, ?_⟩
    unfold Alive
    rw [h, List.getElem?_append_left hd.1]
    exact hd.2
  have hsame : ∀ m' : Market F, m'.objs = m.objs → Dead m' o := by
    intro m' h
    unfold Dead Alive
    rw [h]; exact hd
  have hlog : ∀ m' : Market F, m'.log = m.log → ∃ l, m'.log = m.log ++ l ∧ ∀ n ∈ l, n.obs ≠ o :=
    fun m' h => ⟨[], by simp [h], by simp⟩
  have hno : ∀ (m' : Market F) (t : String), m'.objs = m.objs → m'.log = m.log →
      Dead (notifyObserver t m') o ∧
        ∃ l, (notifyObserver t m').log = m.log ++ l ∧ ∀ n ∈ l, n.obs ≠ o := by
    intro m' t h1 h2
    rw [notifyObserver_log]
    refine ⟨hsame _ h1, _, by rw [addLog_log, h2], ?_⟩
    intro n hn
    simp only [List.mem_map, watchers, List.mem_filter, decide_eq_true_eq] at hn
    obtain ⟨o', ⟨-, ob, h3, h4, -⟩, rfl⟩ := hn
    rintro rfl
    exact hd.2 ⟨ob, by rw [← h1]; exact h3, h4⟩
  have hns : ∀ (m' : Market F), m'.objs = m.objs → m'.log = m.log →
      Dead (notifyObservers m') o ∧
        ∃ l, (notifyObservers m').log = m.log ++ l ∧ ∀ n ∈ l, n.obs ≠ o := by
    intro m' h1 h2
    rw [notifyObservers_log]
    refine ⟨hsame _ h1, _, by rw [addLog_log, h2], ?_⟩
    intro n hn
    simp only [List.mem_map, liveObservers, List.mem_filter, decide_eq_true_eq] at hn
    obtain ⟨o', ⟨-, ob, h3, h4⟩, rfl⟩ := hn
    rintro rfl
    exact hd.2 ⟨ob, by rw [← h1]; exact h3, h4⟩
  have hupd : ∀ t, IsUpdateOf t c → Dead (step m c) o ∧
      ∃ l, (step m c).log = m.log ++ l ∧ ∀ n ∈ l, n.obs ≠ o := by
    intro t ht
    rcases step_update_cases hm ht with ⟨-, -, hs⟩ | ⟨p, d, -, -, -, ⟨-, -, hs⟩ | ⟨-, -, hs⟩⟩
    · rw [hs]; exact ⟨hd, hlog _ rfl⟩
    · rw [hs]; exact hno _ _ rfl rfl
    · rw [hs]; exact ⟨hsame _ rfl, hlog _ rfl⟩
  cases c with
  | addStock t S s cc =>
    rcases step_addStock_cases m t S s cc with ⟨-, -, hs⟩ | ⟨-, -, hs⟩ <;> rw [hs]
    · exact ⟨hsame _ rfl, hlog _ rfl⟩
    · exact ⟨hd, hlog _ rfl⟩
  | updatePrice t S => exact hupd t rfl
  | updateSigma t S => exact hupd t rfl
  | updateCoupon t S => exact hupd t rfl
  | getStockData t => rw [step_getStockData]; exact ⟨hd, hlog _ rfl⟩
  | getR => exact ⟨hd, hlog _ rfl⟩
  | setR r => rw [step_setR]; exact hns _ rfl rfl
  | addObserver o => exact ⟨hsame _ rfl, hlog _ rfl⟩
  | removeObserver => exact ⟨hsame _ rfl, hlog _ rfl⟩
  | notifyObserver t => exact hno _ _ rfl rfl
  | notifyObservers => exact hns _ rfl rfl
  | newObserver t => exact ⟨happ _ _ rfl, hlog _ rfl⟩
  | createOption f oP oO ps ty =>
    rcases createOption_step_cases m f oP oO ps ty with hs | ⟨ob, hs⟩ <;> rw [hs]
    · exact ⟨hd, hlog _ rfl⟩
    · exact ⟨happ _ _ rfl, hlog _ rfl⟩
  | release o' =>
    rw [step_release]
    refine ⟨?_, hlog _ (release_log m o')⟩
    have hk : ∀ ob, Dead (killed m o' ob) o := fun ob =>
      ⟨by simp [killed]; exact hd.1, by rw [alive_set_false]; exact fun hx => hd.2 hx.2⟩
    rcases release_cases m o' with ⟨h1, -⟩ | ⟨ob, -, -, ⟨-, h4⟩ | ⟨-, h4⟩⟩
    · rw [h1]; exact hd
    · rw [h4]; exact hk ob
    · rw [h4]; exact hk ob

theorem dead_run {m : Market F} (hm : m.WF) (h : List (Call F)) (o : Nat) (hd : Dead m o) :
    Dead (run m h) o ∧ ∃ l, (run m h).log = m.log ++ l ∧ ∀ n ∈ l, n.obs ≠ o := by
  induction h generalizing m with
  | nil => exact ⟨hd, [], by simp [run], by simp⟩
  | cons c h ih =>
    obtain ⟨h1, l1, h2, h3⟩ := dead_step hm c o hd
    obtain ⟨h4, l2, h5, h6⟩ := ih (step_wf hm c) h1
    refine ⟨h4, l1 ++ l2, ?_, ?_⟩
    · show (run (step m c) h).log = _
      rw [h5, h2, List.append_assoc]
    · intro n hn
      rcases List.mem_append.mp hn with hn | hn
      · exact h3 n hn
      · exact h6 n hn

/-- C05, no notification after destruction: after `release o`, whatever calls follow (including
registering the dangling reference again), the object never receives `update()`. -/
theorem C05_noNotificationAfterRelease (h h' : List (Call F)) (o : Nat)
    (ho : o < (run init h).objs.length) :
    ∃ l, (run init (h ++ .release o :: h')).log = (run init h).log ++ l ∧ ∀ n ∈ l, n.obs ≠ o := by
  have hwf := run_wf (F := F) init_wf h
  have hd : Dead (step (run init h) (.release o)) o := by
    rw [step_release]
    rcases release_cases (run init h) o with ⟨h1, h2⟩ | ⟨ob, -, -, ⟨-, h4⟩ | ⟨-, h4⟩⟩
    · rw [h1]; exact ⟨ho, h2⟩
    · rw [h4]; exact ⟨by simp [killed]; exact ho, by rw [alive_set_false]; simp⟩
    · rw [h4]; exact ⟨by simp [killed, removeExpired]; exact ho, by
        show ¬ Alive (killed (run init h) o ob) o
        rw [alive_set_false]; simp⟩
  have h0 : run init (h ++ .release o :: h') = run (step (run init h) (.release o)) h' := by
    rw [run_append]; rfl
  rw [h0]
  obtain ⟨-, l, h1, h2⟩ := dead_run (step_wf hwf _) h' o hd
  exact ⟨l, by rw [h1, step_release, release_log], h2⟩

/-- Two options on "A" are created, the first one is released. -/
def optionHistory : List (Call ℝ) :=
  [.addStock "A" 1 1 none,
   .createOption .european [.K] [.ticker, .T] [("ticker", .str "A"), ("K", .dbl 1), ("T", .dbl 1)]
     .call,
   .createOption .european [.K] [.T, .ticker] [("ticker", .str "A"), ("K", .dbl 1), ("T", .dbl 1)]
     .put,
   .release 0]

example : ∀ c ∈ optionHistory, OnlyOptions c := by simp [optionHistory, OnlyOptions]

/-! ## C06 -/

theorem addStock_map_ne (m : Market F) (t t' : String) (S s : F) (c : Option F) (h : t' ≠ t) :
    mapFind t (step m (.addStock t' S s c)).stockDataMap = mapFind t m.stockDataMap := by
  rcases step_addStock_cases m t' S s c with ⟨-, -, hs⟩ | ⟨-, -, hs⟩ <;> rw [hs]
  simp [addObj, mapFind_mapAssign, h]

theorem step_map_keep {m : Market F} (hm : m.WF) (c : Call F)
    (hc : ∀ t S s cc, c ≠ .addStock t S s cc) : (step m c).stockDataMap = m.stockDataMap := by
  have hupd : ∀ t, IsUpdateOf t c → (step m c).stockDataMap = m.stockDataMap := by
    intro t ht
    rcases step_update_cases hm ht with ⟨-, -, hs⟩ | ⟨p, d, -, -, -, ⟨-, -, hs⟩ | ⟨-, -, hs⟩⟩
    · rw [hs]
    · rw [hs, notifyObserver_log]; rfl
    · rw [hs]; rfl
  cases c with
  | addStock t S s cc => exact absurd rfl (hc t S s cc)
  | updatePrice t S => exact hupd t rfl
  | updateSigma t S => exact hupd t rfl
  | updateCoupon t S => exact hupd t rfl
  | setR r => rw [step_setR, notifyObservers_log]; rfl
  | _ =>
    refine And.left (And.right (step_keepsCore m _ ?_))
    trivial

/-- C06 is false: adding a ticker again replaces the object, and an older handle (for instance the
one held by a stock model) goes on showing the old data. -/
theorem C06_fails (R : Rounding) :
    ∃ (h h' : List (Call (Dbl R))) (p : Nat) (d d' : StockData (Dbl R)),
      outcome (run init h) (.getStockData "A") = .ok (.handle p) ∧
      (deref p (run init (h ++ h'))).1 = .ok d ∧
      Reads (run init (h ++ h')) "A" d' ∧ d ≠ d' := by
  have h1 : run (init : Market (Dbl R)) [.addStock "A" (.num 1) (.num 0) none] =
      init.addObj "A" ⟨.num 1, .num 0, none⟩ := by
    rcases step_addStock_cases (init : Market (Dbl R)) "A" (.num 1) (.num 0) none with
        ⟨-, -, h⟩ | ⟨h, -⟩
    · exact h
    · exact absurd (by simp [Accepted]) h
  have h2 : run (init : Market (Dbl R)) ([.addStock "A" (.num 1) (.num 0) none] ++
      [.addStock "A" (.num 1) (.num 1) none]) =
      (init.addObj "A" ⟨.num 1, .num 0, none⟩).addObj "A" ⟨.num 1, .num 1, none⟩ := by
    rw [run_snoc, h1]
    rcases step_addStock_cases (init.addObj "A" ⟨.num 1, .num 0, none⟩ : Market (Dbl R)) "A"
      (.num 1) (.num 1) none with ⟨-, -, h⟩ | ⟨h, -⟩
    · exact h
    · exact absurd (by simp [Accepted]) h
  refine ⟨[.addStock "A" (.num 1) (.num 0) none], [.addStock "A" (.num 1) (.num 1) none], 0,
    ⟨.num 1, .num 0, none⟩, ⟨.num 1, .num 1, none⟩, ?_, ?_, ?_, ?_⟩
  · rw [outcome_getStockData, h1]; rfl
  · rw [h2]; rfl
  · rw [(C01_lastWriteWins _ _).1]; simp [data, Accepted]
  · intro h; simp only [StockData.mk.injEq, Dbl.num.injEq] at h
    exact absurd h.2.1 (by simp)

/-- C06, what holds: as long as the ticker is not successfully added again, a handle is the object
a fresh `getStockData` returns, so both always show the same values.  Missing: re-adding (refuted
above). -/
theorem C06_handleCurrent_partial (h h' : List (Call F)) (t : String) (p : Nat)
    (hp : outcome (run init h) (.getStockData t) = .ok (.handle p))
    (hn : ¬ EverAdded h' t) :
    outcome (run init (h ++ h')) (.getStockData t) = .ok (.handle p) ∧
    ∀ d, (deref p (run init (h ++ h'))).1 = .ok d ↔ Reads (run init (h ++ h')) t d := by
  have main : mapFind t (run init (h ++ h')).stockDataMap = some p := by
    induction h' using List.reverseRecOn with
    | nil =>
      rw [List.append_nil]
      rw [outcome_getStockData] at hp
      cases hx : mapFind t (run init h).stockDataMap with
      | none => rw [hx] at hp; simp at hp
      | some q => rw [hx] at hp; simpa using hp
    | append_singleton h' c ih =>
      have ih' := ih (by
        rintro ⟨S, s, cc, h1, h2⟩
        exact hn ⟨S, s, cc, by simp [h1], h2⟩)
      rw [← List.append_assoc, run_snoc]
      by_cases hc : ∃ t' S s cc, c = .addStock t' S s cc
      · obtain ⟨t', S, s, cc, rfl⟩ := hc
        by_cases htt : t' = t
        · subst htt
          rcases step_addStock_cases (run init (h ++ h')) t' S s cc with ⟨ha, -, hs⟩ | ⟨-, -, hs⟩
          · exact absurd ⟨S, s, cc, by simp, ha⟩ hn
          · rw [hs]; exact ih'
        · rw [addStock_map_ne _ _ _ _ _ _ htt]; exact ih'
      · rw [step_map_keep (run_wf init_wf _) c (by
          intro t' S s cc he; exact hc ⟨t', S, s, cc, he⟩)]
        exact ih'
  have ho : outcome (run init (h ++ h')) (.getStockData t) = .ok (.handle p) := by
    rw [outcome_getStockData, main]
  refine ⟨ho, fun d => ?_⟩
  constructor
  · intro hd
    refine ⟨p, ho, ?_⟩
    unfold deref at hd ⊢
    split at hd
    · cases hd; simp_all
    · cases hd
  · rintro ⟨q, h1, h2⟩
    rw [ho] at h1
    cases h1
    rw [h2]

/-- No ticker points to object `p`. -/
def Orphan (m : Market F) (p : Nat) : Prop :=
  p < m.heap.length ∧ ∀ t, mapFind t m.stockDataMap ≠ some p

theorem orphan_step {m : Market F} (hm : m.WF) (c : Call F) (p : Nat) (ho : Orphan m p) :
    Orphan (step m c) p ∧ (step m c).heap[p]? = m.heap[p]? := by
  have hsame : SameCore m (step m c) → Orphan (step m c) p ∧ (step m c).heap[p]? = m.heap[p]? := by
    rintro ⟨h1, h2, -⟩
    exact ⟨⟨by rw [h1]; exact ho.1, by rw [h2]; exact ho.2⟩, by rw [h1]⟩
  have hupd : ∀ t, IsUpdateOf t c → Orphan (step m c) p ∧ (step m c).heap[p]? = m.heap[p]? := by
    intro t ht
    have hset : ∀ q d, mapFind t m.stockDataMap = some q →
        Orphan (m.setHeap q d) p ∧ (m.setHeap q d).heap[p]? = m.heap[p]? := by
      intro q d hq
      have hne : q ≠ p := fun h => ho.2 t (h ▸ hq)
      exact ⟨⟨by simp [setHeap]; exact ho.1, ho.2⟩, by simp [setHeap, hne]⟩
    rcases step_update_cases hm ht with ⟨-, -, hs⟩ | ⟨q, d, hq, -, -, ⟨-, -, hs⟩ | ⟨-, -, hs⟩⟩
    · rw [hs]; exact ⟨ho, rfl⟩
    · rw [hs, notifyObserver_log]; exact hset q _ hq
    · rw [hs]; exact hset q _ hq
  cases c with
  | addStock t S s cc =>
    rcases step_addStock_cases m t S s cc with ⟨-, -, hs⟩ | ⟨-, -, hs⟩ <;> rw [hs]
    · refine ⟨⟨by simp [addObj]; have := ho.1; omega, fun t' => ?_⟩, ?_⟩
      · simp only [addObj, mapFind_mapAssign]
        split
        · have := ho.1; simp; omega
        · exact ho.2 t'
      · simp only [addObj]; rw [List.getElem?_append_left ho.1]
    · exact ⟨ho, rfl⟩
  | updatePrice t S => exact hupd t rfl
  | updateSigma t S => exact hupd t rfl
  | updateCoupon t S => exact hupd t rfl
  | setR r => rw [step_setR, notifyObservers_log]; exact ⟨ho, rfl⟩
  | _ => exact hsame (step_keepsCore m _ trivial)

/-- C06, extent of the failure: once the ticker has been added again, every handle taken before is
frozen: no later call changes what it shows. -/
theorem C06_staleHandleFrozen (h h' : List (Call F)) (t : String) (S s : F) (c : Option F) (p : Nat)
    (hp : outcome (run init h) (.getStockData t) = .ok (.handle p)) (ha : Accepted S s c) :
    (deref p (run init (h ++ .addStock t S s c :: h'))).1 = (deref p (run init h)).1 := by
  have hwf := run_wf (F := F) init_wf h
  have hq : mapFind t (run init h).stockDataMap = some p := by
    rw [outcome_getStockData] at hp
    cases hx : mapFind t (run init h).stockDataMap with
    | none => rw [hx] at hp; simp at hp
    | some q => rw [hx] at hp; simpa using hp
  have hb := hwf.bound t p hq
  have hs : step (run init h) (.addStock t S s c) = (run init h).addObj t ⟨S, s, c⟩ := by
    rcases step_addStock_cases (run init h) t S s c with ⟨-, -, hs⟩ | ⟨hx, -⟩
    · exact hs
    · exact absurd ha hx
  have ho : Orphan ((run init h).addObj t ⟨S, s, c⟩) p := by
    refine ⟨by simp [addObj]; omega, fun t' => ?_⟩
    simp only [addObj, mapFind_mapAssign]
    split
    · simp; omega
    · rename_i hne
      intro hx; exact hne (hwf.inj t t' p hq hx)
  have h0 : run init (h ++ .addStock t S s c :: h') = run ((run init h).addObj t ⟨S, s, c⟩) h' := by
    rw [run_append, ← hs]; rfl
  have main : ∀ (m : Market F), m.WF → Orphan m p → (run m h').heap[p]? = m.heap[p]? := by
    induction h' with
    | nil => intro m _ _; rfl
    | cons c h' ih =>
      intro m hm hom
      obtain ⟨h1, h2⟩ := orphan_step hm c p hom
      rw [← h2]
      exact ih (by
        have := hs
        rw [run_append, ← hs]; rfl) _ (step_wf hm c) h1
  rw [h0]
  have hm := main _ (hwf.add t ⟨S, s, c⟩) ho
  have he : ((run init h).addObj t ⟨S, s, c⟩).heap[p]? = (run init h).heap[p]? := by
    simp only [addObj]; rw [List.getElem?_append_left hb]
  unfold deref
  rw [hm, he]
  split <;> rfl

example : outcome (run init [.addStock "A" (1 : ℝ) 1 none, .addStock "B" 1 1 none])
      (.getStockData "B") = .ok (.handle 1) ∧
    ¬ EverAdded [.updatePrice "B" (2 : ℝ), .addStock "A" 1 1 none, .addStock "B" (-1) 1 none] "B" := by
  constructor
  · have h1 : run (init : Market ℝ) [.addStock "A" 1 1 none, .addStock "B" 1 1 none] =
      (init.addObj "A" ⟨1, 1, none⟩).addObj "B" ⟨1, 1, none⟩ := by
      show step (step init (.addStock "A" 1 1 none)) (.addStock "B" 1 1 none) = _
      have ha : Accepted (1 : ℝ) 1 none := by simp [Accepted]
      rcases step_addStock_cases (init : Market ℝ) "A" 1 1 none with ⟨-, -, h⟩ | ⟨h, -⟩
      · rw [h]
        rcases step_addStock_cases (init.addObj "A" ⟨1, 1, none⟩ : Market ℝ) "B" 1 1 none with
          ⟨-, -, h⟩ | ⟨h, -⟩
        · exact h
        · exact absurd ha h
      · exact absurd ha h
    rw [outcome_getStockData, h1]; rfl
  · rintro ⟨S, s, c, h1, h2⟩
    simp at h1
    obtain ⟨rfl, rfl, rfl⟩ := h1
    simp [Accepted] at h2
    linarith

/-! ## C07 -/

/-- C07: `getStockData(t)` returns exactly when an accepted `addStock` of `t` is in the history and
throws `invalid_argument` otherwise. -/
theorem C07_getStockData (h : List (Call F)) (t : String) :
    (IsOk (outcome (run init h) (.getStockData t)) ↔ EverAdded h t) ∧
    (¬ EverAdded h t → Throws .invalidArgument (outcome (run init h) (.getStockData t))) ∧
    run init (h ++ [.getStockData t]) = run init h := by
  have h1 := data_ne_none_iff h.reverse t
  rw [everAdded_reverse, ← run_lookup] at h1
  have h2 := (run_wf (F := F) init_wf h).lookup_isSome t
  rw [← h1, outcome_getStockData, run_snoc, step_getStockData]
  cases hp : mapFind t (run init h).stockDataMap with
  | none =>
    rw [hp] at h2
    have : (run init h).lookup t = none := by simpa using h2
    simp [this]
  | some p =>
    rw [hp] at h2
    have : (run init h).lookup t ≠ none := by intro hx; simp [hx] at h2
    simp [this]

/-- C07, updates: an update of `t` succeeds exactly when `t` was added and the resulting data are
accepted; otherwise it throws `invalid_argument`; for an unknown ticker nothing at all changes. -/
theorem C07_update (h : List (Call F)) (c : Call F) (t : String) (ht : IsUpdateOf t c) :
    (IsOk (outcome (run init h) c) ↔ EverAdded h t ∧
      ∀ d, data (h ++ [c]).reverse t = some d → Accepted d.price d.sigma d.coupon) ∧
    (¬ IsOk (outcome (run init h) c) → Throws .invalidArgument (outcome (run init h) c)) ∧
    (¬ EverAdded h t → run init (h ++ [c]) = run init h) := by
  have h1 := outcome_update h c t ht
  have hk : data (h ++ [c]).reverse t ≠ none ↔ EverAdded h t := by
    rw [data_ne_none_iff, everAdded_reverse]
    constructor
    · rintro ⟨S, s, cc, h2, h3⟩
      rcases List.mem_append.mp h2 with h2 | h2
      · exact ⟨S, s, cc, h2, h3⟩
      · simp only [List.mem_singleton] at h2; rw [← h2] at ht; exact ht.elim
    · rintro ⟨S, s, cc, h2, h3⟩; exact ⟨S, s, cc, by simp [h2], h3⟩
  refine ⟨?_, fun hx => h1.2.resolve_left hx, fun hx => ?_⟩
  · rw [h1.1, ← hk]
    constructor
    · rintro ⟨d, h2, h3⟩; exact ⟨by rw [h2]; exact Option.some_ne_none d, fun d' h4 => by rw [h2] at h4; cases h4; exact h3⟩
    · rintro ⟨h2, h3⟩
      obtain ⟨d, hd⟩ := Option.ne_none_iff_exists'.mp h2
      exact ⟨d, hd, h3 d hd⟩
  · rw [← everAdded_reverse, ← data_ne_none_iff, not_not, ← run_lookup] at hx
    rw [run_snoc]
    rcases step_update_cases (run_wf init_wf h) ht with ⟨hn, ⟨msg, ho⟩, hs⟩ | ⟨p, d, hp, -, hld, -⟩
    · exact hs
    · rw [hx] at hld; cases hld

/-- C07, persistence: a known ticker stays known whatever happens later. -/
theorem C07_staysKnown (h h' : List (Call F)) (t : String)
    (hk : IsOk (outcome (run init h) (.getStockData t))) :
    IsOk (outcome (run init (h ++ h')) (.getStockData t)) := by
  rw [(C07_getStockData _ _).1] at hk ⊢
  obtain ⟨S, s, c, h1, h2⟩ := hk
  exact ⟨S, s, c, by simp [h1], h2⟩

example : EverAdded [.addStock "A" (1 : ℝ) 1 (some 1), .updatePrice "A" (-1)] "A" ∧
    ¬ EverAdded [.addStock "A" (1 : ℝ) 1 (some 2)] "A" := by
  constructor
  · exact ⟨1, 1, some 1, by simp, by simp [Accepted]⟩
  · rintro ⟨S, s, c, h1, h2⟩
    simp at h1
    obtain ⟨rfl, rfl, rfl⟩ := h1
    simp [Accepted] at h2

/-! ## C09 -/

/-- C09: `==` on stock data is equality of all fields (as numbers; a NaN equals nothing), `!=` its
negation. -/
theorem C09_fieldEquality {R : Rounding} (a b : StockData (Dbl R)) :
    (StockData.beq a b = true ↔
      NumEq a.price b.price ∧ NumEq a.sigma b.sigma ∧
        ((a.coupon = none ∧ b.coupon = none) ∨
          ∃ x y, a.coupon = some x ∧ b.coupon = some y ∧ NumEq x y)) ∧
    (StockData.bne a b = true ↔ ¬ StockData.beq a b = true) := by
  have hEq : ∀ x y : Dbl R, Fl.eqb x y = true ↔ NumEq x y := by
    intro x y
    unfold NumEq
    cases x with
    | nan => simp
    | num e =>
      cases y with
      | nan => simp
      | num e' =>
        simp only [Dbl.eqb_num, Dbl.num.injEq]
        exact ⟨fun h => ⟨e, rfl, h.symm⟩, fun ⟨_, h1, h2⟩ => h1.trans h2.symm⟩
  refine ⟨?_, by simp [StockData.bne]⟩
  rcases a with ⟨p, s, c⟩
  rcases b with ⟨p', s', c'⟩
  rw [← hEq, ← hEq]
  unfold StockData.beq
  simp only
  cases h1 : Fl.eqb p p' <;> cases h2 : Fl.eqb s s' <;> cases c <;> cases c' <;> simp [← hEq]

/-- C09: `==` is symmetric and transitive on all data, and reflexive exactly on data without NaN. -/
theorem C09_equivalence {R : Rounding} (a b c : StockData (Dbl R)) :
    (StockData.beq a a = true ↔
      a.price ≠ .nan ∧ a.sigma ≠ .nan ∧ a.coupon ≠ some .nan) ∧
    (StockData.beq a b = true → StockData.beq b a = true) ∧
    (StockData.beq a b = true → StockData.beq b c = true → StockData.beq a c = true) := by
  have hrefl : ∀ x : Dbl R, NumEq x x ↔ x ≠ .nan := by
    intro x; unfold NumEq; cases x <;> simp
  have hsymm : ∀ {x y : Dbl R}, NumEq x y → NumEq y x := fun ⟨e, h1, h2⟩ => ⟨e, h2, h1⟩
  have htrans : ∀ {x y z : Dbl R}, NumEq x y → NumEq y z → NumEq x z := by
    rintro x y z ⟨e, rfl, rfl⟩ ⟨e', h, rfl⟩; cases h; exact ⟨e, rfl, rfl⟩
  simp only [(C09_fieldEquality _ _).1]
  refine ⟨?_, ?_, ?_⟩
  · rw [hrefl, hrefl]
    cases hc : a.coupon with
    | none => simp
    | some x => simp [hrefl]
  · rintro ⟨h1, h2, h3⟩
    refine ⟨hsymm h1, hsymm h2, ?_⟩
    rcases h3 with ⟨h3, h4⟩ | ⟨x, y, h3, h4, h5⟩
    · exact .inl ⟨h4, h3⟩
    · exact .inr ⟨y, x, h4, h3, hsymm h5⟩
  · rintro ⟨h1, h2, h3⟩ ⟨g1, g2, g3⟩
    refine ⟨htrans h1 g1, htrans h2 g2, ?_⟩
    rcases h3 with ⟨h3, h4⟩ | ⟨x, y, h3, h4, h5⟩
    · rcases g3 with ⟨g3, g4⟩ | ⟨x', y', g3, g4, g5⟩
      · exact .inl ⟨h3, g4⟩
      · rw [h4] at g3; cases g3
    · rcases g3 with ⟨g3, g4⟩ | ⟨x', y', g3, g4, g5⟩
      · rw [h4] at g3; cases g3
      · rw [h4] at g3; cases g3
        exact .inr ⟨x, y', h3, g4, htrans h5 g5⟩

example (R : Rounding) : StockData.beq (F := Dbl R) ⟨.num 1, .num 0, some (.num 1)⟩
    ⟨.num 1, .num 0, some (.num 1)⟩ = true ∧
    StockData.beq (F := Dbl R) ⟨.num 1, .num 0, none⟩ ⟨.num 1, .num 0, some (.num 1)⟩ = false := by
  constructor
  · rw [(C09_fieldEquality _ _).1]
    exact ⟨⟨_, rfl, rfl⟩, ⟨_, rfl, rfl⟩, .inr ⟨_, _, rfl, rfl, _, rfl, rfl⟩⟩
  · rw [← Bool.not_eq_true, (C09_fieldEquality _ _).1]
    rintro ⟨-, -, ⟨-, h⟩ | ⟨x, y, h, -⟩⟩ <;> cases h

end Verif.Props
