import Verif.Lemmas.World
import Verif.Spec.ReentrantSpec

/-!
# Helper lemmas on observers that call back
-/

namespace Verif
namespace Reentrant
variable {F : Type} [Fl F]
open Spec

/-- What a stretch of execution keeps: the state stays well formed, no object comes back to life or
changes its id, the live observers stay registered, those that are up to date and stay alive stay up
to date. -/
structure Keeps (s s' : RState F) : Prop where
  wf : s.m.WF → s'.m.WF
  objs : ∀ (o : Nat) (ob : Observer F), s.m.objs[o]? = some ob →
    ∃ ob' : Observer F, s'.m.objs[o]? = some ob' ∧ ob'.id = ob.id ∧ (ob'.alive = true → ob.alive = true)
  reg : ∀ (o : Nat) (ob : Observer F), s.m.objs[o]? = some ob → o ∈ s.m.observers → Alive s'.m o → o ∈ s'.m.observers
  fresh : s.m.WF → ∀ o, o ∈ s.m.observers → UpToDate s.m o → Alive s'.m o → UpToDate s'.m o

theorem Keeps.alive {s s' : RState F} (h : Keeps s s') {o : Nat} {ob : Observer F}
    (ho : s.m.objs[o]? = some ob) (ha : Alive s'.m o) : ob.alive = true := by
  obtain ⟨ob', h1, h2, h3⟩ := h.objs o ob ho
  obtain ⟨ob2, h4, h5⟩ := ha
  rw [h1] at h4
  cases h4
  exact h3 h5

theorem Keeps.refl (s : RState F) : Keeps s s :=
  ⟨id, fun _ ob h => ⟨ob, h, rfl, id⟩, fun _ _ _ h _ => h, fun _ _ _ h _ => h⟩

theorem Keeps.trans {s s' s'' : RState F} (h : Keeps s s') (h' : Keeps s' s'') : Keeps s s'' := by
  refine ⟨fun hw => h'.wf (h.wf hw), ?_, ?_, ?_⟩
  · intro o ob ho
    obtain ⟨ob', h1, h2, h3⟩ := h.objs o ob ho
    obtain ⟨ob'', h4, h5, h6⟩ := h'.objs o ob' h1
    exact ⟨ob'', h4, h5.trans h2, fun ha => h3 (h6 ha)⟩
  · intro o ob ho hr ha
    obtain ⟨ob', h1, h2, h3⟩ := h.objs o ob ho
    have ha' : Alive s'.m o := ⟨ob', h1, h'.alive h1 ha⟩
    exact h'.reg o ob' h1 (h.reg o ob ho hr ha') ha
  · intro hw o hr hu ha
    obtain ⟨ob, ho, -⟩ := id hu
    obtain ⟨ob', h1, h2, h3⟩ := h.objs o ob ho
    have ha' : Alive s'.m o := ⟨ob', h1, h'.alive h1 ha⟩
    exact h'.fresh (h.wf hw) o (h.reg o ob ho hr ha') (h.fresh hw o hr hu ha') ha

/-- Only the market matters. -/
theorem Keeps.congr {s s' t t' : RState F} (h : Keeps s s') (e : t.m = s.m) (e' : t'.m = s'.m) :
    Keeps t t' := by
  constructor
  · rw [e, e']; exact h.wf
  · rw [e, e']; exact h.objs
  · rw [e, e']; exact h.reg
  · rw [e, e']; exact h.fresh

/-- A step that keeps the core, the log and the objects (up to death), and the live registrations.-/
theorem Keeps.of_core {s s' : RState F} (hc : Market.SameCore s.m s'.m) (hl : s'.m.log = s.m.log)
    (ho : ∀ (o : Nat) (ob : Observer F), s.m.objs[o]? = some ob →
      ∃ ob' : Observer F, s'.m.objs[o]? = some ob' ∧ ob'.id = ob.id ∧ (ob'.alive = true → ob.alive = true))
    (hr : ∀ (o : Nat) (ob : Observer F), s.m.objs[o]? = some ob → o ∈ s.m.observers → Alive s'.m o →
      o ∈ s'.m.observers) : Keeps s s' := by
  refine ⟨fun hw => hc.wf hw, ho, hr, ?_⟩
  rintro - o - ⟨ob, h1, h2⟩ -
  obtain ⟨ob', h3, h4, -⟩ := ho o ob h1
  refine ⟨ob', h3, ?_⟩
  rw [h4, hc.lookup, hc.2.2, ← h2]
  simp [lastSeen, hl]

theorem keeps_release (o : Nat) (s s' : RState F) (hs : s'.m = (OptionModel.release o s.m).2) :
    Keeps s s' := by
  have hc : Market.SameCore s.m s'.m := by rw [hs]; exact World.release_core s.m o
  unfold OptionModel.release at hs
  cases hob : s.m.objs[o]? with
  | none =>
    simp only [hob] at hs
    exact (Keeps.refl s).congr rfl hs
  | some ob =>
    simp only [hob] at hs
    have hlt : o < s.m.objs.length := by
      by_contra h
      rw [List.getElem?_eq_none (by omega)] at hob
      cases hob
    have hobjs : ∀ (i : Nat) (ob' : Observer F), s.m.objs[i]? = some ob' →
        ∃ ob'' : Observer F, (s.m.objs.set o { ob with alive := false })[i]? = some ob'' ∧
          ob''.id = ob'.id ∧ (ob''.alive = true → ob'.alive = true) := by
      intro i ob' hi
      by_cases h : o = i
      · subst h
        rw [hob] at hi
        cases hi
        exact ⟨{ ob with alive := false }, by rw [List.getElem?_set_self hlt], rfl, by simp⟩
      · exact ⟨ob', by rw [List.getElem?_set_ne h]; exact hi, rfl, id⟩
    cases ha : ob.alive with
    | false =>
      simp only [ha] at hs
      exact (Keeps.refl s).congr rfl hs
    | true =>
      simp only [ha, if_true] at hs
      cases hopt : ob.opt with
      | none =>
        simp only [hopt] at hs
        refine Keeps.of_core hc (by rw [hs]) ?_ ?_
        · rw [hs]; rw [hopt] at hobjs; exact hobjs
        · intro i ob' _ hr _; rw [hs]; exact hr
      | some p =>
        simp only [hopt, Market.removeObserver, Market.removeExpired] at hs
        refine Keeps.of_core hc (by rw [hs]) ?_ ?_
        · rw [hs]; rw [hopt] at hobjs; exact hobjs
        · intro i ob' _ hr hal
          rw [hs] at hal ⊢
          obtain ⟨ob'', h1, h2⟩ := hal
          simp only at h1
          simp only [List.mem_filter]
          refine ⟨hr, ?_⟩
          simp only [Market.expired, h1, h2]
          rfl

theorem keeps_unlock (o : Nat) (s : RState F) : Keeps s (unlock o s) := by
  unfold unlock
  split
  · exact keeps_release o s _ rfl
  · exact (Keeps.refl s).congr rfl rfl

theorem lastSeen_append_ne (m : Market F) (l : List (Note F)) (o : Nat)
    (h : ∀ n ∈ l, n.obs ≠ o) : lastSeen (m.addLog l) o = lastSeen m o := by
  simp only [lastSeen, Market.addLog_log, List.filter_append]
  have : l.filter (fun n => n.obs == o) = [] := by
    rw [List.filter_eq_nil_iff]
    intro n hn
    simpa using h n hn
  rw [this, List.append_nil]

/-- Delivery of a notification. -/
theorem keeps_deliver (o : Nat) (ob : Observer F) (s s' : RState F) (ho : s.m.objs[o]? = some ob)
    (hs : s'.m = s.m.deliver o ob.id) : Keeps s s' ∧ UpToDate s'.m o := by
  have hu : UpToDate s'.m o := by
    rw [hs]
    refine ⟨ob, ho, ?_⟩
    simp [lastSeen, Market.deliver, Market.lookup]
  refine ⟨⟨?_, ?_, ?_, ?_⟩, hu⟩
  · rw [hs]; exact fun h => ⟨h.bound, h.inj⟩
  · rw [hs]; exact fun i ob' h => ⟨ob', h, rfl, id⟩
  · rw [hs]; exact fun _ _ _ h _ => h
  · intro _ i _ hi _
    by_cases h : i = o
    · subst h; exact hu
    · obtain ⟨ob', h1, h2⟩ := hi
      rw [hs, Market.deliver_eq]
      refine ⟨ob', h1, ?_⟩
      rw [lastSeen_append_ne _ _ _ (by simpa using Ne.symm h), h2]
      rfl

/-- The calls that notify nobody, except `addStock`. -/
theorem keeps_plain (c : Call F) (s : RState F) (hk : World.KeepsCore c)
    (hn : ∀ t, ¬ NotifiesTicker t c) : Keeps s (plain c s).2 := by
  have hm : (plain c s).2.m = World.step s.m c := rfl
  cases c with
  | addStock => exact hk.elim
  | updatePrice t => exact (hn t rfl).elim
  | updateSigma t => exact (hn t rfl).elim
  | updateCoupon t => exact (hn t rfl).elim
  | setR => exact hk.elim
  | getStockData t =>
    rw [World.step_getStockData] at hm
    exact (Keeps.refl s).congr rfl hm
  | getR => exact (Keeps.refl s).congr rfl hm
  | addObserver o =>
    rw [World.step_addObserver] at hm
    refine Keeps.of_core (by rw [hm]; exact ⟨rfl, rfl, rfl⟩) (by rw [hm]) ?_ ?_
    · rw [hm]; exact fun i ob h => ⟨ob, h, rfl, id⟩
    · intro i ob _ h _; rw [hm]; exact List.mem_append_left _ h
  | removeObserver =>
    rw [World.step_removeObserver] at hm
    refine Keeps.of_core (by rw [hm]; exact ⟨rfl, rfl, rfl⟩) (by rw [hm]; rfl) ?_ ?_
    · rw [hm]; exact fun i ob h => ⟨ob, h, rfl, id⟩
    · intro i ob _ h ha
      rw [hm] at ha ⊢
      obtain ⟨ob', h1, h2⟩ := ha
      have h1' : s.m.objs[i]? = some ob' := h1
      simp only [Market.removeExpired, List.mem_filter]
      refine ⟨h, ?_⟩
      simp only [Market.expired, h1', h2]
      rfl
  | notifyObserver t => exact (hn t rfl).elim
  | notifyObservers => exact (hn "" trivial).elim
  | newObserver t =>
    rw [World.step_newObserver] at hm
    refine Keeps.of_core (by rw [hm]; exact ⟨rfl, rfl, rfl⟩) (by rw [hm]) ?_ ?_
    · rw [hm]
      intro i ob h
      have hi : i < s.m.objs.length := by
        by_contra hh
        rw [List.getElem?_eq_none (by omega)] at h
        cases h
      exact ⟨ob, by simp only [List.getElem?_append_left hi]; exact h, rfl, id⟩
    · intro i ob _ h _; rw [hm]; exact h
  | createOption f ordP ordO ps ty =>
    rcases World.createOption_step_cases s.m f ordP ordO ps ty with h | ⟨o, h⟩
    · rw [h] at hm
      exact (Keeps.refl s).congr rfl hm
    · rw [h] at hm
      refine Keeps.of_core (by rw [hm]; exact ⟨rfl, rfl, rfl⟩) (by rw [hm]; rfl) ?_ ?_
      · rw [hm]
        intro i ob h
        have hi : i < s.m.objs.length := by
          by_contra hh
          rw [List.getElem?_eq_none (by omega)] at h
          cases h
        exact ⟨ob, by
          simp only [OptionModel.withOption, List.getElem?_append_left hi]; exact h, rfl, id⟩
      · intro i ob _ h _; rw [hm]; exact List.mem_append_left _ h
  | release o => 
    rw [World.step_release] at hm
    exact keeps_release o s _ hm

/-- The trace only grows. -/
def Grows (s s' : RState F) : Prop := s.trace <+: s'.trace

/-- What is assumed of the executor of the nested calls. -/
def Good (ex : Call F → Eff (RState F) (Val F)) : Prop :=
  ∀ c s r s', ex c s = (r, s') → r ≠ .ub →
    s.trace <+: s'.trace ∧ ((∀ e ∈ s'.trace, Completes e) → Keeps s s')

theorem unlock_trace (o : Nat) (s : RState F) : (unlock o s).trace = s.trace := by
  unfold unlock
  split <;> rfl

theorem runProg_good {ex : Call F → Eff (RState F) (Val F)} (hex : Good ex) (p : Prog F)
    (s s' : RState F) (r : Res Unit) (h : runProg ex p s = (r, s')) (hr : r ≠ .ub) :
    s.trace <+: s'.trace ∧ ((∀ e ∈ s'.trace, Completes e) → Keeps s s') := by
  induction p generalizing s with
  | done =>
    simp only [runProg, Prod.mk.injEq] at h
    rw [← h.2]
    exact ⟨List.prefix_rfl, fun _ => Keeps.refl s⟩
  | throw e =>
    simp only [runProg, Prod.mk.injEq] at h
    rw [← h.2]
    exact ⟨List.prefix_rfl, fun _ => Keeps.refl s⟩
  | call c k ih =>
    rw [runProg] at h
    rcases hc : ex c s with ⟨rc, s1⟩
    rw [hc] at h
    cases rc with
    | ub => simp only [Prod.mk.injEq] at h; exact absurd h.1.symm hr
    | ok v =>
      simp only at h
      obtain ⟨g1, g2⟩ := hex c s _ s1 hc (by simp)
      obtain ⟨g3, g4⟩ := ih _ _ s1 h
      exact ⟨g1.trans g3, fun ht => (g2 fun e he => ht e (g3.subset he)).trans (g4 ht)⟩
    | throw v =>
      simp only at h
      obtain ⟨g1, g2⟩ := hex c s _ s1 hc (by simp)
      obtain ⟨g3, g4⟩ := ih _ _ s1 h
      exact ⟨g1.trans g3, fun ht => (g2 fun e he => ht e (g3.subset he)).trans (g4 ht)⟩

theorem notifyLoop_trace {ex : Call F → Eff (RState F) (Val F)} (hex : Good ex)
    (upd : Nat → Market F → Prog F) (sel : String → Bool) (v : Nat) (os : List Nat)
    (s s' : RState F) (r : Res Unit) (h : notifyLoop ex upd sel v os s = (r, s')) (hr : r ≠ .ub) :
    s.trace <+: s'.trace := by
  induction os generalizing s with
  | nil =>
    simp only [notifyLoop, Prod.mk.injEq] at h
    rw [← h.2]
  | cons o os ih =>
    rw [notifyLoop] at h
    cases ho : s.m.objs[o]? with
    | none => simp only [ho] at h; exact ih s h
    | some ob =>
      simp only [ho] at h
      by_cases hs : (ob.alive && sel ob.id) = true
      · rw [if_pos hs] at h
        rcases hp : runProg ex (upd o (s.m.deliver o ob.id))
          { s with m := s.m.deliver o ob.id, held := o :: s.held } with ⟨rp, s2⟩
        rw [hp] at h
        cases rp with
        | ub => simp only [Prod.mk.injEq] at h; exact absurd h.1.symm hr
        | throw e =>
          simp only [Prod.mk.injEq] at h
          obtain ⟨g1, -⟩ := runProg_good hex _ _ _ _ hp (by simp)
          rw [← h.2, unlock_trace]
          exact g1
        | ok u =>
          simp only at h
          obtain ⟨g1, -⟩ := runProg_good hex _ _ _ _ hp (by simp)
          by_cases hv : (unlock o s2).changes = v
          · rw [if_pos hv] at h
            have := ih _ h
            rw [unlock_trace] at this
            exact g1.trans this
          · rw [if_neg hv] at h
            simp only [Prod.mk.injEq] at h; exact absurd h.1.symm hr
      · rw [if_neg hs] at h
        exact ih s h

/-- A loop that ends normally has brought all the selected observers up to date. -/
theorem notifyLoop_good {ex : Call F → Eff (RState F) (Val F)} (hex : Good ex)
    (upd : Nat → Market F → Prog F) (sel : String → Bool) (v : Nat) (os : List Nat)
    (s s' : RState F) (h : notifyLoop ex upd sel v os s = (.ok (), s'))
    (ht : ∀ e ∈ s'.trace, Completes e) :
    Keeps s s' ∧ (s.m.WF → ∀ o ob, o ∈ os → o ∈ s.m.observers → s.m.objs[o]? = some ob →
      sel ob.id = true → Alive s'.m o → UpToDate s'.m o) := by
  induction os generalizing s with
  | nil =>
    simp only [notifyLoop, Prod.mk.injEq] at h
    rw [← h.2]
    exact ⟨Keeps.refl s, fun _ o ob ho => by simp at ho⟩
  | cons o os ih =>
    rw [notifyLoop] at h
    cases ho : s.m.objs[o]? with
    | none =>
      simp only [ho] at h
      obtain ⟨g1, g2⟩ := ih s h
      refine ⟨g1, fun hw i ob hi hreg hiob hsel hal => ?_⟩
      rcases List.mem_cons.mp hi with rfl | hi
      · rw [ho] at hiob; cases hiob
      · exact g2 hw i ob hi hreg hiob hsel hal
    | some ob =>
      simp only [ho] at h
      by_cases hs : (ob.alive && sel ob.id) = true
      · rw [if_pos hs] at h
        rcases hp : runProg ex (upd o (s.m.deliver o ob.id))
          { s with m := s.m.deliver o ob.id, held := o :: s.held } with ⟨rp, s2⟩
        rw [hp] at h
        cases rp with
        | ub => simp only [Prod.mk.injEq] at h; exact absurd h.1 (by simp)
        | throw e => simp only [Prod.mk.injEq] at h; exact absurd h.1 (by simp)
        | ok u =>
          simp only at h
          by_cases hv : (unlock o s2).changes = v
          · rw [if_pos hv] at h
            have htr := notifyLoop_trace hex upd sel v os _ _ _ h (by simp)
            rw [unlock_trace] at htr
            obtain ⟨d1, d2⟩ := keeps_deliver o ob s
              { s with m := s.m.deliver o ob.id, held := o :: s.held } ho rfl
            obtain ⟨-, p2⟩ := runProg_good hex _ _ _ _ hp (by simp)
            have p3 := p2 fun e he => ht e (htr.subset he)
            have k3 := p3.trans (keeps_unlock o s2)
            obtain ⟨g1, g2⟩ := ih _ h
            have k4 := k3.trans g1
            refine ⟨d1.trans k4, fun hw i ob' hi hreg hiob hsel hal => ?_⟩
            by_cases hio : i = o
            · subst hio
              exact k4.fresh (d1.wf hw) i hreg d2 hal
            · have hi' : i ∈ os := by
                rcases List.mem_cons.mp hi with h | h
                · exact absurd h hio
                · exact h
              have k5 := d1.trans k3
              obtain ⟨ob2, q1, q2, q3⟩ := k5.objs i ob' hiob
              have hal2 : Alive (unlock o s2).m i := ⟨ob2, q1, g1.alive q1 hal⟩
              exact g2 (k5.wf hw) i ob2 hi' (k5.reg i ob' hiob hreg hal2) q1 (by rw [q2]; exact hsel)
                hal
          · rw [if_neg hv] at h
            simp only [Prod.mk.injEq] at h; exact absurd h.1 (by simp)
      · rw [if_neg hs] at h
        obtain ⟨g1, g2⟩ := ih s h
        refine ⟨g1, fun hw i ob' hi hreg hiob hsel hal => ?_⟩
        rcases List.mem_cons.mp hi with rfl | hi
        · rw [ho] at hiob
          cases hiob
          have := g1.alive ho hal
          simp [this, hsel] at hs
        · exact g2 hw i ob' hi hreg hiob hsel hal

/-- After a change of the data that concerns selected observers only, a completed notification
restores `Keeps` across the change. -/
theorem notify_good {ex : Call F → Eff (RState F) (Val F)} (hex : Good ex)
    (upd : Nat → Market F → Prog F) (sel : String → Bool) (s0 s s' : RState F) (v : Val F)
    (h : notify ex upd sel s = (.ok v, s')) (ht : ∀ e ∈ s'.trace, Completes e)
    (hw : s0.m.WF → s.m.WF) (ho : s.m.objs = s0.m.objs) (hr : s.m.observers = s0.m.observers)
    (hf : s0.m.WF → ∀ (o : Nat) (ob : Observer F), s0.m.objs[o]? = some ob → sel ob.id = false → UpToDate s0.m o →
      UpToDate s.m o) :
    Keeps s0 s' ∧ (s0.m.WF → ∀ o ob, o ∈ s0.m.observers → s0.m.objs[o]? = some ob →
      sel ob.id = true → Alive s'.m o → UpToDate s'.m o) := by
  unfold notify at h
  rcases hl : notifyLoop ex upd sel s.changes s.m.observers s with ⟨rl, s1⟩
  rw [hl] at h
  cases rl with
  | ub => simp at h
  | throw e => simp at h
  | ok u =>
    simp only [Prod.mk.injEq] at h
    obtain ⟨-, rfl⟩ := h
    obtain ⟨g1, g2⟩ := notifyLoop_good hex upd sel _ _ _ _ hl ht
    have g3 : s0.m.WF → ∀ o ob, o ∈ s0.m.observers → s0.m.objs[o]? = some ob →
        sel ob.id = true → Alive s1.m o → UpToDate s1.m o := fun h0 o ob hro hob hsel hal =>
      g2 (hw h0) o ob (hr ▸ hro) (hr ▸ hro) (ho ▸ hob) hsel hal
    refine ⟨⟨fun h0 => g1.wf (hw h0), ?_, ?_, ?_⟩, g3⟩
    · intro o ob hob; exact g1.objs o ob (ho ▸ hob)
    · intro o ob hob hro; exact g1.reg o ob (ho ▸ hob) (hr ▸ hro)
    · intro h0 o hro hu hal
      obtain ⟨ob, hob, -⟩ := id hu
      cases hsel : sel ob.id with
      | true => exact g3 h0 o ob hro hob hsel hal
      | false => exact g1.fresh (hw h0) o (hr ▸ hro) (hf h0 o ob hob hsel hu) hal

theorem notify_trace {ex : Call F → Eff (RState F) (Val F)} (hex : Good ex)
    (upd : Nat → Market F → Prog F) (sel : String → Bool) (s s' : RState F) (r : Res (Val F))
    (h : notify ex upd sel s = (r, s')) (hr : r ≠ .ub) : s.trace <+: s'.trace := by
  unfold notify at h
  rcases hl : notifyLoop ex upd sel s.changes s.m.observers s with ⟨rl, s1⟩
  rw [hl] at h
  cases rl with
  | ub => simp only [Prod.mk.injEq] at h; exact absurd h.1.symm hr
  | throw e =>
    simp only [Prod.mk.injEq] at h
    rw [← h.2]
    exact notifyLoop_trace hex upd sel _ _ _ _ _ hl (by simp)
  | ok u =>
    simp only [Prod.mk.injEq] at h
    rw [← h.2]
    exact notifyLoop_trace hex upd sel _ _ _ _ _ hl (by simp)

/-- What is proved of one call `c` with outcome `r`. -/
def CallGood (c : Call F) (s : RState F) (r : Res (Val F)) (s' : RState F) : Prop :=
  s.trace <+: s'.trace ∧ ((∀ e ∈ s'.trace, Completes e) → Completes (c, r) →
    Keeps s s' ∧ (r.IsOk → s.m.WF → ∀ (t : String) (o : Nat) (ob : Observer F), NotifiesTicker t c →
      o ∈ s.m.observers → s.m.objs[o]? = some ob → ob.id = t → Alive s'.m o → UpToDate s'.m o))

theorem updateWith_good {ex : Call F → Eff (RState F) (Val F)} (hex : Good ex)
    (upd : Nat → Market F → Prog F) (err t : String) (setter : Eff (StockData F) Unit)
    (c : Call F) (hc : ∀ t', NotifiesTicker t' c → t = t')
    (hcomp : ∀ r : Res (Val F), Completes (c, r) → r.IsOk) (s s' : RState F)
    (r : Res (Val F)) (h : updateWith ex upd err t setter s = (r, s')) (hr : r ≠ .ub) :
    CallGood c s r s' := by
  unfold updateWith at h
  cases hp : mapFind t s.m.stockDataMap with
  | none =>
    simp only [hp, Prod.mk.injEq] at h
    obtain ⟨rfl, rfl⟩ := h
    refine ⟨List.prefix_rfl, fun _ hcp => ?_⟩
    have := hcomp _ hcp
    simp [invalidArg] at this
  | some p =>
    simp only [hp] at h
    cases hd : s.m.heap[p]? with
    | none => simp only [hd, Prod.mk.injEq] at h; exact absurd h.1.symm hr
    | some d =>
      simp only [hd] at h
      rcases hset : setter d with ⟨rs, d'⟩
      rw [hset] at h
      cases rs with
      | ub => simp only [Prod.mk.injEq] at h; exact absurd h.1.symm hr
      | throw e =>
        simp only [Prod.mk.injEq] at h
        obtain ⟨rfl, rfl⟩ := h
        refine ⟨List.prefix_rfl, fun _ hcp => ?_⟩
        have := hcomp _ hcp
        simp at this
      | ok u =>
        simp only at h
        have htr := notify_trace hex upd _ _ _ _ h hr
        refine ⟨htr, fun ht hcp => ?_⟩
        obtain ⟨v, rfl⟩ := hcomp _ hcp
        have hlook : s.m.WF → ∀ t', t ≠ t' →
            (s.m.setHeap p d').lookup t' = s.m.lookup t' := by
          intro hw t' htt
          rw [Market.lookup_set hw d' hp, if_neg htt]
        obtain ⟨g1, g2⟩ := notify_good hex upd (fun id => id == t) s _ s' v h ht
          (fun hw => hw.set p d') rfl rfl (by
            rintro hw o ob hob hsel ⟨ob', h1, h2⟩
            rw [hob] at h1
            cases h1
            refine ⟨ob, hob, ?_⟩
            have hne : t ≠ ob.id := by
              intro h; simp [h] at hsel
            have := hlook hw ob.id hne
            simp only [Market.setHeap] at this
            rw [this, ← h2]
            rfl)
        refine ⟨g1, fun _ hw t' o ob hn ho hob hid hal => ?_⟩
        exact g2 hw o ob ho hob (by rw [hid, hc t' hn]; simp) hal

theorem body_good {ex : Call F → Eff (RState F) (Val F)} (hex : Good ex)
    (upd : Nat → Market F → Prog F) (c : Call F) (s s' : RState F) (r : Res (Val F))
    (h : body ex upd c s = (r, s')) (hr : r ≠ .ub) : CallGood c s r s' := by
  have hplain : ∀ c : Call F, World.KeepsCore c → (∀ t, ¬ NotifiesTicker t c) →
      plain c s = (r, s') → CallGood c s r s' := by
    intro c hk hn h
    have hs : s' = (plain c s).2 := by rw [h]
    refine ⟨by rw [hs]; exact List.prefix_rfl, fun _ _ => ⟨?_, ?_⟩⟩
    · rw [hs]; exact keeps_plain c s hk hn
    · intro _ _ t o ob h; exact absurd h (hn t)
  cases c with
  | updatePrice t S =>
    exact updateWith_good hex upd _ t _ (.updatePrice t S) (fun _ h => h) (fun _ h => h) s s' r h hr
  | updateSigma t S =>
    exact updateWith_good hex upd _ t _ (.updateSigma t S) (fun _ h => h) (fun _ h => h) s s' r h hr
  | updateCoupon t S =>
    exact updateWith_good hex upd _ t _ (.updateCoupon t S) (fun _ h => h) (fun _ h => h) s s' r h hr
  | setR x =>
    replace h : notify ex upd (fun _ => true) { s with m := { s.m with r := x } } = (r, s') := h
    have htr := notify_trace hex upd _ _ _ _ h hr
    refine ⟨htr, fun ht hcp => ?_⟩
    obtain ⟨v, rfl⟩ := hcp
    obtain ⟨g1, g2⟩ := notify_good hex upd (fun _ => true) s _ s' v h ht
      (fun hw => ⟨hw.bound, hw.inj⟩) rfl rfl (by intro _ o ob _ h; cases h)
    exact ⟨g1, fun _ hw t' o ob hn ho hob hid hal => g2 hw o ob ho hob rfl hal⟩
  | notifyObserver t =>
    replace h : notify ex upd (fun i => i == t) s = (r, s') := h
    have htr := notify_trace hex upd _ _ _ _ h hr
    refine ⟨htr, fun ht hcp => ?_⟩
    obtain ⟨v, rfl⟩ := hcp
    obtain ⟨g1, g2⟩ := notify_good hex upd (fun i => i == t) s _ s' v h ht
      (fun hw => hw) rfl rfl (fun _ o ob _ _ h => h)
    refine ⟨g1, fun _ hw t' o ob hn ho hob hid hal => g2 hw o ob ho hob ?_ hal⟩
    have hn' : t = t' := hn
    rw [hid, hn']; simp
  | notifyObservers =>
    replace h : notify ex upd (fun _ => true) s = (r, s') := h
    have htr := notify_trace hex upd _ _ _ _ h hr
    refine ⟨htr, fun ht hcp => ?_⟩
    obtain ⟨v, rfl⟩ := hcp
    obtain ⟨g1, g2⟩ := notify_good hex upd (fun _ => true) s _ s' v h ht
      (fun hw => hw) rfl rfl (fun _ o ob _ _ h => h)
    exact ⟨g1, fun _ hw t' o ob hn ho hob hid hal => g2 hw o ob ho hob rfl hal⟩
  | release o =>
    replace h : (if o ∈ s.held then ((.ok .unit, { s with dropped := o :: s.dropped }) :
      Res (Val F) × RState F) else plain (.release o) s) = (r, s') := h
    split at h
    · simp only [Prod.mk.injEq] at h
      obtain ⟨rfl, rfl⟩ := h
      exact ⟨List.prefix_rfl, fun _ _ => ⟨(Keeps.refl s).congr rfl rfl,
        fun _ _ t o ob h => h.elim⟩⟩
    · exact hplain _ trivial (fun _ h => h) h
  | addStock t S sg cp =>
    replace h : plain (.addStock t S sg cp) s = (r, s') := h
    have hs : s' = (plain (.addStock t S sg cp) s).2 := by rw [h]
    have hr' : r = (plain (.addStock t S sg cp) s).1 := by rw [h]
    refine ⟨by rw [hs]; exact List.prefix_rfl, fun _ hcp => ?_⟩
    have hm : s'.m = (Market.addStock t S sg cp s.m).2 := by
      rw [hs]; exact World.step_addStock s.m t S sg cp
    rcases Market.addStock_cases t S sg cp s.m with ⟨-, ha⟩ | ⟨msg, -, ha⟩
    · exfalso
      apply hcp
      refine ⟨.unit, ?_⟩
      rw [hr']
      simp only [plain, World.exec]
      rw [Eff.bind_of_ok ha]
      rfl
    · rw [ha] at hm
      exact ⟨(Keeps.refl s).congr rfl hm, fun _ _ t o ob h => h.elim⟩
  | getStockData t => exact hplain _ trivial (fun _ h => h) h
  | getR => exact hplain _ trivial (fun _ h => h) h
  | addObserver o => exact hplain _ trivial (fun _ h => h) h
  | removeObserver => exact hplain _ trivial (fun _ h => h) h
  | newObserver t => exact hplain _ trivial (fun _ h => h) h
  | createOption f ordP ordO ps ty => exact hplain _ trivial (fun _ h => h) h

theorem exec_callGood (upd : Nat → Market F → Prog F) (n : Nat) (hex : Good (exec upd n))
    (c : Call F) (s s' : RState F) (r : Res (Val F)) (h : exec upd (n + 1) c s = (r, s'))
    (hr : r ≠ .ub) : CallGood c s r s' ∧ (c, r) ∈ s'.trace := by
  replace h : ((body (exec upd n) upd c s).1, ({ (body (exec upd n) upd c s).2 with
    trace := (body (exec upd n) upd c s).2.trace ++ [(c, (body (exec upd n) upd c s).1)] } :
      RState F)) = (r, s') := h
  rcases hb : body (exec upd n) upd c s with ⟨rb, s1⟩
  rw [hb] at h
  simp only [Prod.mk.injEq] at h
  obtain ⟨rfl, rfl⟩ := h
  obtain ⟨g1, g2⟩ := body_good hex upd c s s1 rb hb hr
  refine ⟨⟨g1.trans (List.prefix_append _ _), fun ht hcp => ?_⟩, by simp⟩
  obtain ⟨g3, g4⟩ := g2 (fun e he => ht e (by simp [he])) hcp
  exact ⟨g3.congr rfl rfl, g4⟩

theorem exec_good (upd : Nat → Market F → Prog F) (n : Nat) : Good (exec upd n) := by
  induction n with
  | zero =>
    intro c s r s' h hr
    simp only [exec, Prod.mk.injEq] at h
    exact absurd h.1.symm hr
  | succ n ih =>
    intro c s r s' h hr
    obtain ⟨⟨g1, g2⟩, g3⟩ := exec_callGood upd n ih c s s' r h hr
    exact ⟨g1, fun ht => (g2 ht (ht _ g3)).1⟩

end Reentrant
end Verif
