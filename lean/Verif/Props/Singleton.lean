import Verif.Model.Singleton
import Mathlib.Tactic.ByContra

/-!
# Property C08: `getInstance` creates one instance under every schedule
-/

namespace Verif.Singleton
variable {ι : Type} [DecidableEq ι]

/-- Nothing constructed and a null pointer, or one object and the pointer to it. -/
def Quiet (inst : Option Nat) (n : Nat) : Prop := n = 0 ∧ inst = none ∨ n = 1 ∧ inst = some 0

/-- What holds while the owner of the mutex is at `pc`. -/
def OwnerOK (inst : Option Nat) (n : Nat) : PC → Prop
  | .idle => False
  | .acquiring => False
  | .checking => Quiet inst n
  | .allocating => n = 0 ∧ inst = none
  | .assigning o => o = 0 ∧ n = 1 ∧ inst = none
  | .returning => n = 1 ∧ inst = some 0
  | .releasing none => Quiet inst n
  | .releasing (some v) => v = some 0 ∧ n = 1 ∧ inst = some 0

/-- The invariant. -/
structure Inv (s : State ι) : Prop where
  owner : ∀ i, s.lock = some i → OwnerOK s.inst s.constructed (s.pc i)
  others : ∀ i, s.lock ≠ some i → s.pc i = .idle ∨ s.pc i = .acquiring
  quiet : s.lock = none → Quiet s.inst s.constructed
  res : ∀ i v, (i, some v) ∈ s.results → v = some 0

theorem inv_init : Inv (init : State ι) := by
  constructor <;> simp [init, Quiet]

@[simp] theorem goto_pc_self (s : State ι) (i : ι) (p : PC) : (s.goto i p).pc i = p := by
  simp [State.goto]
theorem goto_pc_ne (s : State ι) {i j : ι} (p : PC) (h : j ≠ i) :
    (s.goto i p).pc j = s.pc j := by simp [State.goto, h]
@[simp] theorem goto_inst (s : State ι) (i : ι) (p : PC) : (s.goto i p).inst = s.inst := rfl
@[simp] theorem goto_lock (s : State ι) (i : ι) (p : PC) : (s.goto i p).lock = s.lock := rfl
@[simp] theorem goto_constructed (s : State ι) (i : ι) (p : PC) :
    (s.goto i p).constructed = s.constructed := rfl
@[simp] theorem goto_results (s : State ι) (i : ι) (p : PC) :
    (s.goto i p).results = s.results := rfl

/-- A step of the owner that keeps the mutex keeps the invariant. -/
theorem inv_owner {s s' : State ι} (h : Inv s) {i : ι} {p : PC} (hl : s.lock = some i)
    (hpc : s'.pc = (s.goto i p).pc) (hl' : s'.lock = s.lock) (hr : s'.results = s.results)
    (hok : OwnerOK s'.inst s'.constructed p) : Inv s' := by
  constructor
  · intro j hj
    rw [hl', hl] at hj
    cases hj
    rw [hpc, goto_pc_self]; exact hok
  · intro j hj
    rw [hl'] at hj
    have : j ≠ i := by rintro rfl; exact hj hl
    rw [hpc, goto_pc_ne _ _ this]; exact h.others j hj
  · intro hn; rw [hl', hl] at hn; cases hn
  · rw [hr]; exact h.res

theorem inv_step {s : State ι} (h : Inv s) (i : ι) (b : Bool) : Inv (step s i b) := by
  have hcrit : ∀ p, s.pc i = p → p ≠ .idle → p ≠ .acquiring →
      s.lock = some i ∧ OwnerOK s.inst s.constructed p := by
    intro p hp h1 h2
    have hl : s.lock = some i := by
      by_contra hc
      rcases h.others i hc with h3 | h3 <;> rw [h3] at hp
      · exact h1 hp.symm
      · exact h2 hp.symm
    exact ⟨hl, hp ▸ h.owner i hl⟩
  unfold step
  split <;> rename_i hpc
  · -- idle
    have hl : s.lock ≠ some i := by
      intro hl; have := h.owner i hl; rw [hpc] at this; exact this
    refine ⟨fun j hj => ?_, fun j hj => ?_, h.quiet, h.res⟩
    · have : j ≠ i := by rintro rfl; exact hl hj
      rw [goto_pc_ne _ _ this]; exact h.owner j hj
    · by_cases hji : j = i
      · subst hji; right; exact goto_pc_self _ _ _
      · rw [goto_pc_ne _ _ hji]; exact h.others j hj
  · -- acquiring
    split
    · rename_i hl
      refine ⟨fun j hj => ?_, fun j hj => ?_, fun hn => by simp at hn, h.res⟩
      · cases hj
        show OwnerOK _ _ ((s.goto i .checking).pc i)
        rw [goto_pc_self]; exact h.quiet hl
      · have hji : j ≠ i := by rintro rfl; exact hj rfl
        show (s.goto i .checking).pc j = _ ∨ (s.goto i .checking).pc j = _
        rw [goto_pc_ne _ _ hji]; exact h.others j (by rw [hl]; simp)
    · exact h
  · -- checking
    obtain ⟨hl, hok⟩ := hcrit _ hpc (by simp) (by simp)
    split <;> rename_i hin
    · refine inv_owner h hl rfl rfl rfl ?_
      rcases hok with ⟨h1, h2⟩ | ⟨h1, h2⟩
      · exact ⟨h1, h2⟩
      · rw [hin] at h2; cases h2
    · refine inv_owner h hl rfl rfl rfl ?_
      rcases hok with ⟨h1, h2⟩ | ⟨h1, h2⟩
      · rw [hin] at h2; cases h2
      · exact ⟨h1, h2⟩
  · -- allocating
    obtain ⟨hl, hok⟩ := hcrit _ hpc (by simp) (by simp)
    split
    · exact inv_owner h hl rfl rfl rfl ⟨hok.1, by simp [hok.1], hok.2⟩
    · exact inv_owner h hl rfl rfl rfl (.inl hok)
  · -- assigning
    obtain ⟨hl, hok⟩ := hcrit _ hpc (by simp) (by simp)
    exact inv_owner h hl rfl rfl rfl ⟨hok.2.1, by simp [hok.1]⟩
  · -- returning
    obtain ⟨hl, hok⟩ := hcrit _ hpc (by simp) (by simp)
    exact inv_owner h hl rfl rfl rfl ⟨hok.2, hok⟩
  · -- releasing
    rename_i r
    obtain ⟨hl, hok⟩ := hcrit _ hpc (by simp) (by simp)
    refine ⟨fun j hj => by simp at hj, fun j _ => ?_, fun _ => ?_, fun j v hv => ?_⟩
    · show (s.goto i .idle).pc j = _ ∨ (s.goto i .idle).pc j = _
      by_cases hji : j = i
      · subst hji; left; exact goto_pc_self _ _ _
      · rw [goto_pc_ne _ _ hji]
        exact h.others j (by rw [hl]; simpa using fun h => hji h.symm)
    · show Quiet s.inst s.constructed
      cases r with
      | none => exact hok
      | some v => exact .inr hok.2
    · rcases List.mem_append.mp hv with hv | hv
      · exact h.res j v hv
      · simp only [List.mem_singleton, Prod.mk.injEq] at hv
        rw [← hv.2] at hok
        exact hok.1

theorem inv_run {s : State ι} (h : Inv s) (sched : List (ι × Bool)) : Inv (run s sched) := by
  induction sched generalizing s with
  | nil => exact h
  | cons e es ih => exact ih (inv_step h e.1 e.2)

/-- C08, safety: under every schedule (any number of threads, any number of calls, any allocation
failures) at most one object is constructed, every completed call that did not throw returned that
same object (never null), and at most one thread is inside the critical section. -/
theorem C08_oneInstance (sched : List (ι × Bool)) :
    (run init sched).constructed ≤ 1 ∧
    (∀ i v, (i, some v) ∈ (run init sched).results → v = some 0) ∧
    (∀ i j, inCritical ((run init sched).pc i) = true → inCritical ((run init sched).pc j) = true →
      i = j) := by
  have h := inv_run (inv_init (ι := ι)) sched
  refine ⟨?_, h.res, ?_⟩
  · cases hl : (run (init : State ι) sched).lock with
    | none => rcases h.quiet hl with h1 | h1 <;> omega
    | some i =>
      have := h.owner i hl
      revert this
      generalize (run (init : State ι) sched).pc i = p
      intro hp
      cases p with
      | idle => exact hp.elim
      | acquiring => exact hp.elim
      | checking => rcases hp with h1 | h1 <;> omega
      | allocating => have := hp.1; omega
      | assigning o => have := hp.2.1; omega
      | returning => have := hp.1; omega
      | releasing r =>
        cases r with
        | none => rcases hp with h1 | h1 <;> omega
        | some v => have := hp.2.1; omega
  · have key : ∀ i, inCritical ((run init sched).pc i) = true →
        (run (init : State ι) sched).lock = some i := by
      intro i hi
      by_contra hc
      rcases h.others i hc with h1 | h1 <;> rw [h1] at hi <;> cases hi
    intro i j hi hj
    have a := key i hi
    have b := key j hj
    rw [a] at b; exact Option.some.inj b

/-- A call that throws (`bad_alloc`) leaves no trace: an exception result needs a failed
allocation. -/
theorem C08_throwsOnlyOnBadAlloc (sched : List (ι × Bool)) (hs : ∀ e ∈ sched, e.2 = true) (i : ι) :
    (i, none) ∉ (run init sched).results ∧ (run init sched).pc i ≠ .releasing none := by
  suffices h : ∀ s : State ι, (∀ i, (i, none) ∉ s.results ∧ s.pc i ≠ .releasing none) →
      ∀ i, (i, none) ∉ (run s sched).results ∧ (run s sched).pc i ≠ .releasing none from
    h init (by simp [init]) i
  induction sched with
  | nil => intro s h; exact h
  | cons e es ih =>
    intro s h
    refine ih (fun e' he' => hs e' (by simp [he'])) _ ?_
    have he := hs e (by simp)
    have hgoto : ∀ p, p ≠ .releasing none → ∀ j, (s.goto e.1 p).pc j ≠ .releasing none := by
      intro p hp j
      by_cases hj : j = e.1
      · rw [hj, goto_pc_self]; exact hp
      · rw [goto_pc_ne _ _ hj]; exact (h j).2
    intro j
    show (j, none) ∉ (step s e.1 e.2).results ∧ (step s e.1 e.2).pc j ≠ .releasing none
    rw [he]
    unfold step
    split
    · exact ⟨(h j).1, hgoto _ (by simp) j⟩
    · split
      · exact ⟨(h j).1, hgoto _ (by simp) j⟩
      · exact h j
    · split
      · exact ⟨(h j).1, hgoto _ (by simp) j⟩
      · exact ⟨(h j).1, hgoto _ (by simp) j⟩
    · exact ⟨(h j).1, hgoto _ (by simp) j⟩
    · exact ⟨(h j).1, hgoto _ (by simp) j⟩
    · exact ⟨(h j).1, hgoto _ (by simp) j⟩
    · rename_i r hpc
      refine ⟨?_, hgoto _ (by simp) j⟩
      intro hm
      rcases List.mem_append.mp hm with hm | hm
      · exact (h j).1 hm
      · simp only [List.mem_singleton, Prod.mk.injEq] at hm
        rw [← hm.2] at hpc
        exact (h e.1).2 hpc

/-- The number of steps the owner of the mutex still needs to leave the function. -/
def toGo : PC → Nat
  | .checking => 5
  | .allocating => 4
  | .assigning _ => 3
  | .returning => 2
  | .releasing _ => 1
  | _ => 0

theorem owner_finishes (n : Nat) {s : State ι} (h : Inv s) {i : ι} (hl : s.lock = some i)
    (hn : toGo (s.pc i) ≤ n) :
    ∃ es : List (ι × Bool), (run s es).lock = none ∧
      ∃ r, (run s es).results = s.results ++ [(i, r)] ∧
        (s.pc i ≠ .releasing none → r ≠ none) := by
  induction n generalizing s with
  | zero =>
    have := h.owner i hl
    revert this hn
    generalize s.pc i = p
    cases p <;> simp [toGo, OwnerOK]
  | succ n ih =>
    have hown := h.owner i hl
    have hstep : ∀ p, (step s i true).pc = (s.goto i p).pc → (step s i true).lock = s.lock →
        (step s i true).results = s.results → p ≠ .releasing none → toGo p ≤ n →
        ∃ es : List (ι × Bool), (run s es).lock = none ∧
          ∃ r, (run s es).results = s.results ++ [(i, r)] ∧
            (s.pc i ≠ .releasing none → r ≠ none) := by
      intro p h1 h2 h3 hp h4
      obtain ⟨es, g1, r, g2, g3⟩ := ih (inv_step h i true) (h2.trans hl) (by
        rw [h1, goto_pc_self]; exact h4)
      refine ⟨(i, true) :: es, g1, r, ?_, ?_⟩
      · rw [h3] at g2; exact g2
      · intro _
        rw [h1, goto_pc_self] at g3; exact g3 hp
    cases hpc : s.pc i with
    | idle => rw [hpc] at hown; exact hown.elim
    | acquiring => rw [hpc] at hown; exact hown.elim
    | checking =>
      rw [hpc] at hn hstep
      cases hin : s.inst with
      | none =>
        refine hstep .allocating ?_ ?_ ?_ (by simp) (by simp [toGo] at hn ⊢; omega) <;> simp [step, hpc, hin]
      | some v =>
        refine hstep .returning ?_ ?_ ?_ (by simp) (by simp [toGo] at hn ⊢; omega) <;> simp [step, hpc, hin]
    | allocating =>
      rw [hpc] at hn hstep
      refine hstep (.assigning s.constructed) ?_ ?_ ?_ (by simp) (by simp [toGo] at hn ⊢; omega) <;>
        simp [step, hpc]
    | assigning o =>
      rw [hpc] at hn hstep
      refine hstep .returning ?_ ?_ ?_ (by simp) (by simp [toGo] at hn ⊢; omega) <;> simp [step, hpc]
    | returning =>
      rw [hpc] at hn hstep
      refine hstep (.releasing (some s.inst)) ?_ ?_ ?_ (by simp) (by simp [toGo] at hn ⊢; omega) <;>
        simp [step, hpc]
    | releasing r =>
      refine ⟨[(i, true)], ?_, r, ?_, ?_⟩
      · simp [run, step, hpc]
      · simp [run, step, hpc]
      · intro hr hx; exact hr (by rw [hx])

theorem run_append (s : State ι) (a b : List (ι × Bool)) : run s (a ++ b) = run (run s a) b := by
  simp [run]

/-- C08, progress: from every reachable state every thread can complete a further call and get the
one object (if allocations succeed from now on): there is no deadlock. -/
theorem C08_callsCanComplete (sched : List (ι × Bool)) (i : ι) :
    ∃ (es : List (ι × Bool)) (l : List (ι × Option (Option Nat))),
      (run init (sched ++ es)).results = (run init sched).results ++ l ∧
      (i, some (some 0)) ∈ l := by
  have h := inv_run (inv_init (ι := ι)) sched
  -- first let the owner of the mutex (if any) finish
  have h1 : ∃ es, (run (run (init : State ι) sched) es).lock = none ∧
      ∃ l, (run (run (init : State ι) sched) es).results = (run init sched).results ++ l := by
    cases hl : (run (init : State ι) sched).lock with
    | none => exact ⟨[], hl, [], by simp [run]⟩
    | some j =>
      obtain ⟨es, g1, r, g2, -⟩ := owner_finishes _ h hl (Nat.le_refl _)
      exact ⟨es, g1, [(j, r)], g2⟩
  obtain ⟨es1, hl1, l1, hr1⟩ := h1
  have hi1 := inv_run h es1
  generalize hs1 : run (run (init : State ι) sched) es1 = s1 at *
  -- then bring thread `i` into the critical section
  have h2 : ∃ es, (run s1 es).lock = some i ∧ (run s1 es).pc i = .checking ∧
      (run s1 es).results = s1.results := by
    rcases hi1.others i (by rw [hl1]; simp) with hp | hp
    · refine ⟨[(i, true), (i, true)], ?_, ?_, ?_⟩ <;> simp [run, step, hp, hl1]
    · refine ⟨[(i, true)], ?_, ?_, ?_⟩ <;> simp [run, step, hp, hl1]
  obtain ⟨es2, hl2, hp2, hr2⟩ := h2
  obtain ⟨es3, -, r, hr3, hne⟩ := owner_finishes _ (inv_run hi1 es2) hl2 (Nat.le_refl _)
  have hinv := inv_run (inv_run hi1 es2) es3
  have hfin : run init (sched ++ (es1 ++ es2 ++ es3)) = run (run s1 es2) es3 := by
    rw [← List.append_assoc, ← List.append_assoc, run_append, run_append, run_append, hs1]
  refine ⟨es1 ++ es2 ++ es3, l1 ++ [(i, r)], ?_, ?_⟩
  · rw [hfin, hr3, hr2, hr1, List.append_assoc]
  · cases r with
    | none => exact absurd rfl (hne (by rw [hp2]; simp))
    | some v =>
      have : v = some 0 := hinv.res i v (by rw [hr3]; simp)
      simp [this]

/-- Two threads, interleaved: thread 1 waits while thread 0 constructs; both get object 0. -/
example : (run (init : State Nat) [(0, true), (1, true), (0, true), (1, true), (0, true), (0, true),
    (1, true), (0, true), (0, true), (0, true), (1, true), (1, true), (1, true), (1, true)]).results
    = [(0, some (some 0)), (1, some (some 0))] := by decide

end Verif.Singleton
