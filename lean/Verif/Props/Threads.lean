import Verif.Spec.ThreadsSpec
import Verif.Spec.MarketSpec
import Verif.Props.ReentrantFails
import Mathlib.Tactic.IntervalCases

/-!
# Property C69: the market data in programs with several threads
-/

set_option linter.unusedSectionVars false

namespace Verif.Props
open Spec

variable {ι F : Type} [Fl F]

/-! ## Which operations write -/

theorem readOnly_accesses {m : Market F} {x : Op ι F} (h : ReadOnly x) {u : Access}
    (hu : u ∈ Threads.accesses m x) : u.write = false := by
  cases x with
  | call c =>
    cases c <;> first
      | exact h.elim
      | (simp only [Threads.accesses, Threads.callAccesses, List.mem_singleton,
          List.not_mem_nil] at hu; subst hu; rfl)
      | (simp only [Threads.accesses, Threads.callAccesses, List.not_mem_nil] at hu)
  | read p f =>
    simp only [Threads.accesses, List.mem_singleton] at hu
    subst hu; rfl
  | getInstance => simp [Threads.accesses] at hu
  | spawn i => simp [Threads.accesses] at hu
  | join i => simp [Threads.accesses] at hu

/-- C69: an execution is free of data races if every operation that may write is ordered before or
after every operation of another thread. -/
theorem C69_ordered (m : Market F) (tr : List (ι × Op ι F))
    (h : ∀ i j a b x y, i < j → tr[i]? = some (a, x) → tr[j]? = some (b, y) → a ≠ b →
      ¬ ReadOnly x ∨ ¬ ReadOnly y → HappensBefore tr i j) : ¬ Race m tr := by
  rintro ⟨i, j, a, b, x, y, u, v, hij, hi, hj, hab, hu, hv, ⟨-, hw⟩, hn⟩
  apply hn
  refine h i j a b x y hij hi hj hab ?_
  by_contra hcon
  simp only [not_or, not_not] at hcon
  rw [readOnly_accesses hcon.1 hu, readOnly_accesses hcon.2 hv] at hw
  simp at hw

/-! ## One thread sets up, any number of threads read -/

theorem getElem?_mid {α : Type} (A B C : List α) (k : Nat) (e : α)
    (h : (A ++ (B ++ C))[k]? = some e) :
    (k < A.length ∧ A[k]? = some e) ∨
    (A.length ≤ k ∧ k < A.length + B.length ∧ e ∈ B) ∨
    (A.length + B.length ≤ k ∧ e ∈ C) := by
  rw [List.getElem?_append] at h
  split at h
  · exact .inl ⟨by assumption, h⟩
  · rw [List.getElem?_append] at h
    split at h
    · exact .inr (.inl ⟨by omega, by omega, List.mem_of_getElem? h⟩)
    · exact .inr (.inr ⟨by omega, List.mem_of_getElem? h⟩)

/-- C69, fork and join: one thread prepares the market data, starts any number of threads, all of
them (itself included) only use operations that change nothing, in any order; it waits for all of
them and then goes on as it likes.  No schedule has a data race. -/
theorem C69_forkJoin (m : Market F) (main : ι) (ws : List ι) (setup mid rest : List (ι × Op ι F))
    (hs : ∀ e ∈ setup, e.1 = main) (hr : ∀ e ∈ rest, e.1 = main)
    (hmid : ∀ e ∈ mid, ReadOnly e.2 ∧ (e.1 = main ∨ e.1 ∈ ws)) :
    ¬ Race m (setup ++ (ws.map (fun w => (main, .spawn w)) ++
      (mid ++ (ws.map (fun w => (main, .join w)) ++ rest)))) := by
  set sp : List (ι × Op ι F) := ws.map (fun w => (main, .spawn w)) with hsp
  set jn : List (ι × Op ι F) := ws.map (fun w => (main, .join w)) with hjn
  set tr := setup ++ (sp ++ (mid ++ (jn ++ rest))) with htr
  have hspawn : ∀ w ∈ ws, ∃ k, setup.length ≤ k ∧ k < setup.length + sp.length ∧
      tr[k]? = some (main, .spawn w) := by
    intro w hw
    have : ((main, .spawn w) : ι × Op ι F) ∈ sp := List.mem_map.mpr ⟨w, hw, rfl⟩
    obtain ⟨k, hk, hk'⟩ := List.mem_iff_getElem.mp this
    refine ⟨setup.length + k, by omega, by omega, ?_⟩
    rw [htr, List.getElem?_append_right (by omega), Nat.add_sub_cancel_left,
      List.getElem?_append_left hk, List.getElem?_eq_getElem hk, hk']
  have hjoin : ∀ w ∈ ws, ∃ k, setup.length + sp.length + mid.length ≤ k ∧
      k < setup.length + sp.length + mid.length + jn.length ∧ tr[k]? = some (main, .join w) := by
    intro w hw
    have : ((main, .join w) : ι × Op ι F) ∈ jn := List.mem_map.mpr ⟨w, hw, rfl⟩
    obtain ⟨k, hk, hk'⟩ := List.mem_iff_getElem.mp this
    refine ⟨setup.length + (sp.length + (mid.length + k)), by omega, by omega, ?_⟩
    rw [htr, List.getElem?_append_right (by omega), Nat.add_sub_cancel_left,
      List.getElem?_append_right (by omega), Nat.add_sub_cancel_left,
      List.getElem?_append_right (by omega), Nat.add_sub_cancel_left,
      List.getElem?_append_left hk, List.getElem?_eq_getElem hk, hk']
  -- where an operation can be
  have hcls : ∀ k a x, tr[k]? = some (a, x) →
      (k < setup.length ∧ a = main) ∨
      (k < setup.length + sp.length ∧ a = main ∧ ReadOnly x) ∨
      (setup.length + sp.length ≤ k ∧ k < setup.length + sp.length + mid.length ∧ ReadOnly x ∧
        (a = main ∨ a ∈ ws)) ∨
      (setup.length + sp.length + mid.length ≤ k ∧ a = main ∧
        (ReadOnly x ∨ setup.length + sp.length + mid.length + jn.length ≤ k)) := by
    intro k a x hk
    rw [htr] at hk
    rcases getElem?_mid setup sp _ k (a, x) hk with ⟨h1, h2⟩ | ⟨-, h1, h2⟩ | ⟨h1, h2⟩
    · exact .inl ⟨h1, hs _ (List.mem_of_getElem? h2)⟩
    · obtain ⟨w, -, hw⟩ := List.mem_map.mp h2
      cases hw
      exact .inr (.inl ⟨h1, rfl, trivial⟩)
    · rw [← List.append_assoc, List.getElem?_append_right (by simp; omega)] at hk
      rcases getElem?_mid mid jn rest _ (a, x) hk with ⟨h3, h4⟩ | ⟨h3, -, h4⟩ | ⟨h3, h4⟩
      · simp only [List.length_append] at h3
        have := hmid _ (List.mem_of_getElem? h4)
        exact .inr (.inr (.inl ⟨h1, by omega, this.1, this.2⟩))
      · simp only [List.length_append] at h3
        obtain ⟨w, -, hw⟩ := List.mem_map.mp h4
        cases hw
        exact .inr (.inr (.inr ⟨by omega, rfl, .inl trivial⟩))
      · simp only [List.length_append] at h3
        exact .inr (.inr (.inr ⟨by omega, hr _ h4, .inr (by omega)⟩))
  apply C69_ordered
  intro i j a b x y hij hi hj hab hw
  rcases hcls i a x hi with ⟨h1, h2⟩ | ⟨h1, h2, h3⟩ | ⟨h0, h1, h2, h3⟩ | ⟨h1, h2, -⟩
  · -- the setup comes before the start of the thread of `j`
    have hb : b ≠ main := fun h => hab (h2.trans h.symm)
    have hbw : b ∈ ws ∧ setup.length + sp.length ≤ j := by
      rcases hcls j b y hj with ⟨-, h⟩ | ⟨-, h, -⟩ | ⟨h0, -, -, h⟩ | ⟨-, h, -⟩
      · exact absurd h hb
      · exact absurd h hb
      · exact ⟨h.resolve_left hb, h0⟩
      · exact absurd h hb
    obtain ⟨k, k1, k2, k3⟩ := hspawn b hbw.1
    exact .trans (.thread (by omega) (h2 ▸ hi) k3) (.spawn (by omega) k3 hj)
  · -- `i` starts a thread
    have hb : b ≠ main := fun h => hab (h2.trans h.symm)
    rcases hcls j b y hj with ⟨-, h⟩ | ⟨-, h, -⟩ | ⟨-, -, h, -⟩ | ⟨-, h, -⟩
    · exact absurd h hb
    · exact absurd h hb
    · rcases hw with hw | hw
      · exact absurd h3 hw
      · exact absurd h hw
    · exact absurd h hb
  · -- `i` in the parallel part
    rcases hcls j b y hj with ⟨h, -⟩ | ⟨h, -⟩ | ⟨-, -, h, -⟩ | ⟨h4, h5, h6⟩
    · omega
    · omega
    · rcases hw with hw | hw
      · exact absurd h2 hw
      · exact absurd h hw
    · have hj' : setup.length + sp.length + mid.length + jn.length ≤ j := by
        rcases hw with hw | hw
        · exact absurd h2 hw
        · exact h6.resolve_left hw
      have ha : a ≠ main := fun h => hab (h.trans h5.symm)
      obtain ⟨k, k1, k2, k3⟩ := hjoin a (h3.resolve_left ha)
      exact .trans (.join (by omega) hi k3) (.thread (by omega) k3 (h5 ▸ hj))
  · have hb : b ≠ main := fun h => hab (h2.trans h.symm)
    rcases hcls j b y hj with ⟨-, h⟩ | ⟨-, h, -⟩ | ⟨-, h, -⟩ | ⟨-, h, -⟩
    · exact absurd h hb
    · exact absurd h hb
    · omega
    · exact absurd h hb

theorem step_readOnly (m : Market F) (x : Op ι F) (h : ReadOnly x) :
    Market.SameCore m (Threads.step m x) := by
  cases x with
  | call c => exact World.step_keepsCore m c (by cases c <;> first | exact h.elim | trivial)
  | read p f => exact ⟨rfl, rfl, rfl⟩
  | getInstance => exact ⟨rfl, rfl, rfl⟩
  | spawn i => exact ⟨rfl, rfl, rfl⟩
  | join i => exact ⟨rfl, rfl, rfl⟩

theorem run_readOnly (m : Market F) (tr : List (ι × Op ι F)) (h : ∀ e ∈ tr, ReadOnly e.2) :
    Market.SameCore m (Threads.run m tr) := by
  induction tr generalizing m with
  | nil => exact ⟨rfl, rfl, rfl⟩
  | cons e tr ih =>
    have h1 := step_readOnly m e.2 (h e (by simp))
    have h2 := ih (Threads.step m e.2) (fun e' he => h e' (by simp [he]))
    exact ⟨h2.1.trans h1.1, h2.2.1.trans h1.2.1, h2.2.2.trans h1.2.2⟩

/-- C69, values: while the threads only use operations that change nothing, every lookup, every
getter and every read of the rate gives what it gave at the start, in every schedule. -/
theorem C69_values (m : Market F) (tr : List (ι × Op ι F)) (h : ∀ e ∈ tr, ReadOnly e.2) :
    (∀ t, World.outcome (Threads.run m tr) (.getStockData t) = World.outcome m (.getStockData t)) ∧
    World.outcome (Threads.run m tr) .getR = World.outcome m .getR ∧
    ∀ p, (Market.deref p (Threads.run m tr)).1 = (Market.deref p m).1 := by
  obtain ⟨h1, h2, h3⟩ := run_readOnly m tr h
  refine ⟨fun t => ?_, ?_, fun p => ?_⟩
  · rw [World.outcome_getStockData, World.outcome_getStockData, h2]
  · change Res.ok (Val.number (Threads.run m tr).r) = Res.ok (Val.number m.r)
    rw [h3]
  · unfold Market.deref
    rw [h1]
    cases m.heap[p]? <;> rfl

/-! ## Updates of different tickers -/

theorem threads_wf (m : Market F) (hm : m.WF) (tr : List (ι × Op ι F)) :
    (Threads.run m tr).WF := by
  induction tr generalizing m with
  | nil => exact hm
  | cons e tr ih =>
    refine ih _ ?_
    obtain ⟨a, x⟩ := e
    cases x with
    | call c => exact World.step_wf hm c
    | _ => exact hm

/-- Objects are never given to another ticker. -/
theorem step_owner (m : Market F) (hm : m.WF) (x : Op ι F) :
    m.heap.length ≤ (Threads.step m x).heap.length ∧
    ∀ p, p < m.heap.length → ∀ t, mapFind t (Threads.step m x).stockDataMap = some p →
      mapFind t m.stockDataMap = some p := by
  cases x with
  | call c =>
    change _ ≤ (World.step m c).heap.length ∧ _
    by_cases hk : World.KeepsCore c
    · obtain ⟨h1, h2, -⟩ := World.step_keepsCore m c hk
      refine ⟨by rw [h1], fun p _ t h => ?_⟩
      change mapFind t (World.step m c).stockDataMap = some p at h
      rw [h2] at h
      exact h
    · have hupd : ∀ t, IsUpdateOf t c → (m.heap.length ≤ (World.step m c).heap.length ∧
          ∀ p, p < m.heap.length → ∀ t, mapFind t (World.step m c).stockDataMap = some p →
          mapFind t m.stockDataMap = some p) := by
        intro t ht
        rcases World.step_update_cases hm ht with ⟨-, -, hs⟩ |
          ⟨q, d, -, -, -, ⟨-, -, hs⟩ | ⟨-, -, hs⟩⟩
        · rw [hs]; exact ⟨le_refl _, fun _ _ _ h => h⟩
        · rw [hs, Market.notifyObserver_log]
          exact ⟨by simp [Market.setHeap], fun _ _ _ h => h⟩
        · rw [hs]; exact ⟨by simp [Market.setHeap], fun _ _ _ h => h⟩
      cases c with
      | addStock t S s cp =>
        rcases World.step_addStock_cases m t S s cp with ⟨-, -, hs⟩ | ⟨-, -, hs⟩
        · change _ ≤ _ ∧ ∀ p, p < m.heap.length → ∀ t', mapFind t' (World.step m _).stockDataMap =
            some p → _
          rw [hs]
          refine ⟨by simp [Market.addObj], fun p hp t' h => ?_⟩
          simp only [Market.addObj, mapFind_mapAssign] at h
          split at h
          · cases h; omega
          · exact h
        · change _ ≤ _ ∧ ∀ p, p < m.heap.length → ∀ t', mapFind t' (World.step m _).stockDataMap =
            some p → _
          rw [hs]; exact ⟨le_refl _, fun _ _ _ h => h⟩
      | updatePrice t S => exact hupd t rfl
      | updateSigma t S => exact hupd t rfl
      | updateCoupon t S => exact hupd t rfl
      | setR r =>
        change _ ≤ _ ∧ ∀ p, p < m.heap.length → ∀ t', mapFind t' (World.step m _).stockDataMap =
          some p → _
        rw [World.step_setR, Market.notifyObservers_log]
        exact ⟨le_refl _, fun _ _ _ h => h⟩
      | getStockData => exact absurd trivial hk
      | getR => exact absurd trivial hk
      | addObserver => exact absurd trivial hk
      | removeObserver => exact absurd trivial hk
      | notifyObserver => exact absurd trivial hk
      | notifyObservers => exact absurd trivial hk
      | newObserver => exact absurd trivial hk
      | createOption => exact absurd trivial hk
      | release => exact absurd trivial hk
  | _ => exact ⟨le_refl _, fun _ _ _ h => h⟩

theorem run_owner (m : Market F) (hm : m.WF) (tr : List (ι × Op ι F)) :
    m.heap.length ≤ (Threads.run m tr).heap.length ∧
    ∀ p, p < m.heap.length → ∀ t, mapFind t (Threads.run m tr).stockDataMap = some p →
      mapFind t m.stockDataMap = some p := by
  induction tr generalizing m with
  | nil => exact ⟨le_refl _, fun _ _ _ h => h⟩
  | cons e tr ih =>
    have h1 := step_owner m hm e.2
    have h2 := ih (Threads.step m e.2) (threads_wf m hm [e])
    exact ⟨h1.1.trans h2.1, fun p hp t h => h1.2 p hp t (h2.2 p (lt_of_lt_of_le hp h1.1) t h)⟩

theorem handle_iff (m : Market F) (t : String) (p : Nat) :
    World.outcome m (.getStockData t) = .ok (.handle p) ↔ mapFind t m.stockDataMap = some p := by
  rw [World.outcome_getStockData]
  cases mapFind t m.stockDataMap <;> simp [invalidArg]

theorem handleOf_unique_aux (m : Market F) (hm : m.WF) (tr : List (ι × Op ι F)) {k k' : Nat}
    (hk : k ≤ k') {p : Nat} {t t' : String}
    (h : mapFind t (Threads.run m (tr.take k)).stockDataMap = some p)
    (h' : mapFind t' (Threads.run m (tr.take k')).stockDataMap = some p) : t = t' := by
  have hw := threads_wf m hm (tr.take k)
  have hsplit : tr.take k' = tr.take k ++ (tr.take k').drop k := by
    conv_lhs => rw [← List.take_append_drop k (tr.take k')]
    rw [List.take_take, min_eq_left hk]
  have hrun : Threads.run m (tr.take k') =
      Threads.run (Threads.run m (tr.take k)) ((tr.take k').drop k) := by
    conv_lhs => rw [hsplit]
    unfold Threads.run
    rw [List.foldl_append]
  rw [hrun] at h'
  exact hw.inj t t' p h ((run_owner _ hw _).2 p (hw.bound t p h) t' h')

theorem handleOf_unique (m : Market F) (hm : m.WF) (tr : List (ι × Op ι F)) {j j' p : Nat}
    {t t' : String} (h : HandleOf m tr j p t) (h' : HandleOf m tr j' p t') : t = t' := by
  obtain ⟨k, -, h⟩ := h
  obtain ⟨k', -, h'⟩ := h'
  rw [handle_iff] at h h'
  rcases le_total k k' with hk | hk
  · exact handleOf_unique_aux m hm tr hk h h'
  · exact (handleOf_unique_aux m hm tr hk h' h).symm

theorem validateReads_loc {p : Nat} {d : StockData F} {u : Access}
    (hu : u ∈ Threads.validateReads p d) : ∃ f : Field, u.loc = f.loc p := by
  unfold Threads.validateReads at hu
  split at hu
  · simp only [List.mem_cons, List.not_mem_nil, or_false] at hu
    subst hu; exact ⟨.price, rfl⟩
  · split at hu
    · simp only [List.mem_cons, List.not_mem_nil, or_false] at hu
      rcases hu with rfl | rfl
      · exact ⟨.price, rfl⟩
      · exact ⟨.sigma, rfl⟩
    · simp only [List.mem_cons, List.not_mem_nil, or_false] at hu
      rcases hu with rfl | rfl | rfl
      · exact ⟨.price, rfl⟩
      · exact ⟨.sigma, rfl⟩
      · exact ⟨.coupon, rfl⟩

/-- What an update can touch. -/
theorem updateAccesses_loc {m : Market F} {t : String} {f : Field}
    {setter : Eff (StockData F) Unit} {u : Access}
    (hu : u ∈ Threads.updateAccesses m t f setter) :
    (u.write = false ∧ (u.loc = .map ∨ u.loc = .observers)) ∨
      ∃ (p : Nat) (g : Field), u.loc = g.loc p ∧ mapFind t m.stockDataMap = some p := by
  unfold Threads.updateAccesses at hu
  rcases List.mem_cons.mp hu with rfl | hu
  · exact .inl ⟨rfl, .inl rfl⟩
  · cases hp : mapFind t m.stockDataMap with
    | none => rw [hp] at hu; simp at hu
    | some p =>
      rw [hp] at hu
      dsimp only at hu
      cases hd : m.heap[p]? with
      | none => rw [hd] at hu; simp at hu
      | some d =>
        rw [hd] at hu
        dsimp only at hu
        rcases List.mem_append.mp hu with hu | hu
        · rcases List.mem_cons.mp hu with rfl | hu
          · exact .inr ⟨p, f, rfl, rfl⟩
          · obtain ⟨g, hg⟩ := validateReads_loc hu
            exact .inr ⟨p, g, hg, rfl⟩
        · split at hu
          · simp only [List.mem_singleton] at hu
            subst hu
            exact .inl ⟨rfl, .inr rfl⟩
          · simp at hu

theorem updates_loc {m : Market F} {t : String} {x : Op ι F} (h : Updates t x) {u : Access}
    (hu : u ∈ Threads.accesses m x) :
    (u.write = false ∧ (u.loc = .map ∨ u.loc = .observers)) ∨
      ∃ (p : Nat) (g : Field), u.loc = g.loc p ∧ mapFind t m.stockDataMap = some p := by
  cases x with
  | call c =>
    cases c <;> first
      | exact h.elim
      | (have h' := h; simp only [Updates] at h'; subst h'; exact updateAccesses_loc hu)
  | read p f => exact h.elim
  | getInstance => exact h.elim
  | spawn i => exact h.elim
  | join i => exact h.elim

theorem concerns_loc {m : Market F} {tr : List (ι × Op ι F)} {i : Nat} {t : String} {x : Op ι F}
    (h : Concerns m tr i x t) {u : Access}
    (hu : u ∈ Threads.accesses (Threads.run m (tr.take i)) x) :
    (u.write = false ∧ (u.loc = .map ∨ u.loc = .observers)) ∨
      ∃ (p : Nat) (g : Field), u.loc = g.loc p ∧ HandleOf m tr i p t := by
  rcases h with h | ⟨p, f, rfl, h⟩
  · rcases updates_loc h hu with h1 | ⟨p, g, h1, h2⟩
    · exact .inl h1
    · exact .inr ⟨p, g, h1, i, le_refl _, (handle_iff _ _ _).mpr h2⟩
  · simp only [Threads.accesses, List.mem_singleton] at hu
    subst hu
    exact .inr ⟨p, f, rfl, h⟩

theorem bystander_loc {m : Market F} {x : Op ι F} (h : Bystander x) {u : Access}
    (hu : u ∈ Threads.accesses m x) :
    u.write = false ∧ ∀ (p : Nat) (g : Field), u.loc ≠ g.loc p := by
  have hro : ReadOnly x := by
    cases x with
    | read p f => exact h.elim
    | _ => exact h
  refine ⟨readOnly_accesses hro hu, ?_⟩
  intro p g
  cases x with
  | call c =>
    cases c <;> first
      | exact h.elim
      | (simp only [Threads.accesses, Threads.callAccesses, List.mem_singleton,
          List.not_mem_nil] at hu; subst hu; cases g <;> simp [Field.loc])
      | (simp only [Threads.accesses, Threads.callAccesses, List.not_mem_nil] at hu)
  | read p f => exact h.elim
  | getInstance => simp [Threads.accesses] at hu
  | spawn i => simp [Threads.accesses] at hu
  | join i => simp [Threads.accesses] at hu

theorem Field.loc_inj {p q : Nat} {f g : Field} (h : f.loc p = g.loc q) : p = q := by
  cases f <;> cases g <;> simp [Field.loc] at h <;> exact h

theorem Field.loc_ne_map (p : Nat) (f : Field) : f.loc p ≠ .map := by
  cases f <;> simp [Field.loc]
theorem Field.loc_ne_observers (p : Nat) (f : Field) : f.loc p ≠ .observers := by
  cases f <;> simp [Field.loc]

/-- C69, tickers: operations on different tickers (updates, and getters on objects obtained for the
ticker) may run at the same time, and so may lookups, reads of the rate and notifications together
with updates of any ticker. -/
theorem C69_tickers (m : Market F) (hm : m.WF) (tr : List (ι × Op ι F))
    (h : ∀ i j a b x y, i < j → tr[i]? = some (a, x) → tr[j]? = some (b, y) → a ≠ b →
      HappensBefore tr i j ∨ (ReadOnly x ∧ ReadOnly y) ∨
      (∃ t t', t ≠ t' ∧ Concerns m tr i x t ∧ Concerns m tr j y t') ∨
      (∃ t, Updates t x ∧ Bystander y) ∨ (∃ t, Bystander x ∧ Updates t y)) : ¬ Race m tr := by
  rintro ⟨i, j, a, b, x, y, u, v, hij, hi, hj, hab, hu, hv, ⟨hl, hw⟩, hn⟩
  rcases h i j a b x y hij hi hj hab with h | ⟨h1, h2⟩ | ⟨t, t', htt, h1, h2⟩ | ⟨t, h1, h2⟩ |
    ⟨t, h1, h2⟩
  · exact hn h
  · rw [readOnly_accesses h1 hu, readOnly_accesses h2 hv] at hw
    simp at hw
  · rcases concerns_loc h1 hu with ⟨g1, g2⟩ | ⟨p, f, g1, g2⟩ <;>
      rcases concerns_loc h2 hv with ⟨k1, k2⟩ | ⟨q, f', k1, k2⟩
    · rw [g1, k1] at hw; simp at hw
    · rw [hl, k1] at g2
      rcases g2 with g2 | g2
      · exact Field.loc_ne_map _ _ g2
      · exact Field.loc_ne_observers _ _ g2
    · rw [← hl, g1] at k2
      rcases k2 with k2 | k2
      · exact Field.loc_ne_map _ _ k2
      · exact Field.loc_ne_observers _ _ k2
    · rw [g1, k1] at hl
      have := Field.loc_inj hl
      subst this
      exact htt (handleOf_unique m hm tr g2 k2)
  · obtain ⟨k1, k2⟩ := bystander_loc h2 hv
    rcases updates_loc h1 hu with ⟨g1, -⟩ | ⟨p, f, g1, -⟩
    · rw [g1, k1] at hw; simp at hw
    · exact k2 p f (hl ▸ g1)
  · obtain ⟨k1, k2⟩ := bystander_loc h1 hu
    rcases updates_loc h2 hv with ⟨g1, -⟩ | ⟨p, f, g1, -⟩
    · rw [g1, k1] at hw; simp at hw
    · exact k2 p f (hl ▸ g1)

/-! ## What races -/

theorem happensBefore_lt {tr : List (ι × Op ι F)} {i j : Nat} (h : HappensBefore tr i j) :
    i < j := by
  induction h with
  | thread h _ _ => exact h
  | mutex h _ _ => exact h
  | spawn h _ _ => exact h
  | join h _ _ => exact h
  | trans _ _ h1 h2 => exact h1.trans h2

/-- Two calls of different threads, one directly after the other, are not ordered: a race if their
accesses conflict. -/
theorem adjacent_race (m : Market F) (tr : List (ι × Op ι F)) {a b : ι} (hab : a ≠ b)
    (c : Call F) (y : Op ι F) (hy : (∃ c', y = .call c') ∨ ∃ p f, y = .read p f) {u v : Access}
    (hu : u ∈ Threads.accesses (ι := ι) (Threads.run m tr) (.call c))
    (hv : v ∈ Threads.accesses (World.step (Threads.run m tr) c) y) (hc : Conflict u v) :
    Race m (tr ++ [(a, .call c), (b, y)]) := by
  have h1 : (tr ++ [(a, .call c), (b, y)])[tr.length]? = some (a, .call c) := by simp
  have h2 : (tr ++ [(a, .call c), (b, y)])[tr.length + 1]? = some (b, y) := by
    rw [List.getElem?_append_right (by omega)]; simp
  refine ⟨tr.length, tr.length + 1, a, b, .call c, y, u, v, by omega, h1, h2, hab, ?_, ?_, hc, ?_⟩
  · rw [List.take_append_of_le_length (le_refl _), List.take_length]; exact hu
  · have : (tr ++ [(a, .call c), (b, y)]).take (tr.length + 1) = tr ++ [(a, .call c)] := by
      rw [List.take_append]; simp
    rw [this]
    unfold Threads.run
    rw [List.foldl_append]
    exact hv
  · intro h
    have key : ∀ i j, HappensBefore (tr ++ [(a, .call c), (b, y)]) i j → i = tr.length →
        j = tr.length + 1 → False := by
      intro i j h hi hj
      cases h with
      | thread _ p q =>
        rw [hi, h1] at p; rw [hj, h2] at q
        cases p; cases q; exact hab rfl
      | mutex _ p q => rw [hi, h1] at p; cases p
      | spawn _ p q => rw [hi, h1] at p; cases p
      | join _ p q =>
        rw [hj, h2] at q
        cases q
        rcases hy with ⟨c', h⟩ | ⟨p, f, h⟩ <;> cases h
      | trans p q =>
        have := happensBefore_lt p
        have := happensBefore_lt q
        omega
    exact key _ _ h rfl rfl

/-- C69 fails, options: if two threads can each create an option at the same point of an execution
(after any history of any threads, `getInstance` calls included), creating them at the same time is
a data race: both register in the list of observers without the mutex. -/
theorem C69_create_fails (m : Market F) (tr : List (ι × Op ι F)) {a b : ι} (hab : a ≠ b)
    (f f' : Factory) (ordP ordO ordP' ordO' : List Arg) (ps ps' : List (String × Param F))
    (ty ty' : PayoffType)
    (h : (World.outcome (Threads.run m tr) (.createOption f ordP ordO ps ty)).IsOk)
    (h' : (World.outcome (Threads.run m tr) (.createOption f' ordP' ordO' ps' ty')).IsOk) :
    Race m (tr ++ [(a, .call (.createOption f ordP ordO ps ty)),
      (b, .call (.createOption f' ordP' ordO' ps' ty'))]) := by
  have hacc : ∀ (m : Market F) f ordP ordO ps ty,
      (World.outcome m (.createOption f ordP ordO ps ty)).IsOk →
      (⟨.observers, true⟩ : Access) ∈
        Threads.accesses (ι := ι) m (.call (.createOption f ordP ordO ps ty)) := by
    rintro m f ordP ordO ps ty ⟨v, hv⟩
    simp only [Threads.accesses, Threads.callAccesses, hv]
    simp
  refine adjacent_race m tr hab _ _ (.inl ⟨_, rfl⟩) (hacc _ _ _ _ _ _ h) (hacc _ _ _ _ _ _ ?_)
    ⟨rfl, .inl rfl⟩
  have hcore := World.step_keepsCore (Threads.run m tr) (.createOption f ordP ordO ps ty) trivial
  have hmap := mapOnly_createBody f' ordP' ordO' (World.mkParams ps') ty' _ _ hcore.2.1
  have hout : ∀ m : Market F, World.outcome m (.createOption f' ordP' ordO' ps' ty') =
      ((OptionModel.createOption f' ordP' ordO' (World.mkParams ps') ty' m).1 >>=
        fun o => .ok (.object o)) := by
    intro m
    rw [World.outcome, World.exec, World.exec_eq]
  obtain ⟨v, hv⟩ := h'
  rw [hout] at hv ⊢
  rcases OptionModel.createOption_cases f' ordP' ordO' (World.mkParams ps') ty'
    (Threads.run m tr) with ⟨o, h1, -⟩ | ⟨msg, -, h2⟩
  swap
  · rw [h2] at hv
    simp [invalidArg] at hv
  rcases OptionModel.createOption_cases f' ordP' ordO' (World.mkParams ps') ty'
    (World.step (Threads.run m tr) (.createOption f ordP ordO ps ty)) with
    ⟨o', h3, h4⟩ | ⟨msg, h3, -⟩
  swap
  · rw [h1, h3] at hmap
    simp [invalidArg] at hmap
  exact ⟨.object _, by rw [h4]; rfl⟩

/-- C69 fails, destruction: two threads that each let go of their own option at the same time race,
because the destructors erase from the shared list of observers. -/
theorem C69_release_fails (m : Market F) (tr : List (ι × Op ι F)) {a b : ι} (hab : a ≠ b)
    {o o' : Nat} (hoo : o ≠ o') {ob ob' : Observer F}
    (h : (Threads.run m tr).objs[o]? = some ob) (ha : ob.alive = true) {p : OptObj F}
    (hp : ob.opt = some p) (h' : (Threads.run m tr).objs[o']? = some ob') (ha' : ob'.alive = true)
    {p' : OptObj F} (hp' : ob'.opt = some p') :
    Race m (tr ++ [(a, .call (.release o)), (b, .call (.release o'))]) := by
  refine adjacent_race m tr hab _ _ (.inl ⟨_, rfl⟩) (u := ⟨.observers, true⟩)
    (v := ⟨.observers, true⟩) ?_ ?_ ⟨rfl, .inl rfl⟩
  · simp [Threads.accesses, Threads.callAccesses, h, ha, hp]
  · have : (World.step (Threads.run m tr) (.release o)).objs[o']? = some ob' := by
      rw [World.step_release]
      unfold OptionModel.release
      simp only [h, ha, if_true, hp, Market.removeObserver, Market.removeExpired]
      rw [List.getElem?_set_ne hoo]
      exact h'
    simp [Threads.accesses, Threads.callAccesses, this, ha', hp']

/-- C69 fails, prices: an update of a price, accepted or not, races with a getter on an object held
for the same ticker. -/
theorem C69_update_fails (m : Market F) (hm : m.WF) (tr : List (ι × Op ι F)) {a b : ι}
    (hab : a ≠ b) (t : String) (S : F) {p : Nat}
    (h : World.outcome (Threads.run m tr) (.getStockData t) = .ok (.handle p)) :
    Race m (tr ++ [(a, .call (.updatePrice t S)), (b, .read p .price)]) := by
  rw [handle_iff] at h
  obtain ⟨d, hd, -⟩ := (threads_wf m hm tr).lookup_some h
  refine adjacent_race m tr hab _ _ (.inr ⟨_, _, rfl⟩) (u := ⟨.price p, true⟩)
    (v := ⟨.price p, false⟩) ?_ ?_ ⟨rfl, .inl rfl⟩
  · simp [Threads.accesses, Threads.callAccesses, Threads.updateAccesses, h, hd, Field.loc]
  · simp [Threads.accesses, Field.loc]

/-- C69 fails, tickers: adding a stock races with every lookup, also of other tickers. -/
theorem C69_addStock_fails (m : Market F) (tr : List (ι × Op ι F)) {a b : ι} (hab : a ≠ b)
    (t t' : String) (S s : F) (c : Option F) (h : Accepted S s c) :
    Race m (tr ++ [(a, .call (.addStock t S s c)), (b, .call (.getStockData t'))]) := by
  refine adjacent_race m tr hab _ _ (.inl ⟨_, rfl⟩) (u := ⟨.map, true⟩)
    (v := ⟨.map, false⟩) ?_ ?_ ⟨rfl, .inl rfl⟩
  · rcases StockData.construct_eq S s c with ⟨h1, -⟩ | ⟨msg, -, h2⟩
    · simp [Threads.accesses, Threads.callAccesses, h1]
    · exact absurd h h2
  · simp [Threads.accesses, Threads.callAccesses]

/-- C69 fails, rate: setting the rate races with reading it. -/
theorem C69_setR_fails (m : Market F) (tr : List (ι × Op ι F)) {a b : ι} (hab : a ≠ b) (r : F) :
    Race m (tr ++ [(a, .call (.setR r)), (b, .call .getR)]) :=
  adjacent_race m tr hab _ _ (.inl ⟨_, rfl⟩) (u := ⟨.rate, true⟩) (v := ⟨.rate, false⟩)
    (by simp [Threads.accesses, Threads.callAccesses])
    (by simp [Threads.accesses, Threads.callAccesses]) ⟨rfl, .inl rfl⟩

/-! ## Concrete cases -/

/-- Two stocks. -/
noncomputable def twoStocks : Market ℝ :=
  World.step (World.step Market.init (.addStock "A" 100 (1 / 5) none)) (.addStock "B" 50 0 none)

theorem twoStocks_wf : twoStocks.WF := World.step_wf (World.step_wf Market.init_wf _) _

theorem twoStocks_handles : mapFind "A" twoStocks.stockDataMap = some 0 ∧
    mapFind "B" twoStocks.stockDataMap = some 1 := by
  have hA : Accepted (100 : ℝ) (1 / 5) none := by
    refine ⟨?_, ?_, by simp⟩ <;> simp [Fl.le, Fl.lt]
  have hB : Accepted (50 : ℝ) 0 none := by
    refine ⟨?_, ?_, by simp⟩ <;> simp [Fl.le, Fl.lt]
  have h1 : World.step (Market.init : Market ℝ) (.addStock "A" 100 (1 / 5) none) =
      Market.addObj Market.init "A" ⟨100, 1 / 5, none⟩ := by
    rcases World.step_addStock_cases (Market.init : Market ℝ) "A" 100 (1 / 5) none with
      ⟨-, -, h⟩ | ⟨h, -, -⟩
    · exact h
    · exact absurd hA h
  have h2 : twoStocks = Market.addObj
      (Market.addObj Market.init "A" ⟨100, 1 / 5, none⟩) "B" ⟨50, 0, none⟩ := by
    unfold twoStocks
    rw [h1]
    rcases World.step_addStock_cases (Market.addObj Market.init "A"
      (⟨100, 1 / 5, none⟩ : StockData ℝ)) "B" 50 0 none with ⟨-, -, h⟩ | ⟨h, -, -⟩
    · exact h
    · exact absurd hB h
  rw [h2]
  constructor <;> simp [Market.addObj, mapFind_mapAssign, Market.init]

/-- Thread 0 adds a stock and starts threads 1 and 2, which read; then it changes the price. -/
example : ¬ Race (Market.init : Market ℝ)
    ([(0, .call (.addStock "A" 100 (1 / 5) none))] ++ ([1, 2].map (fun w => (0, .spawn w)) ++
      ([(1, .call (.getStockData "A")), (2, .call .getR), (1, .read 0 .price),
        (0, .read 0 .price)] ++
      ([1, 2].map (fun w => (0, .join w)) ++ [(0, .call (.updatePrice "A" 120))])))) :=
  C69_forkJoin (ι := Nat) _ 0 [1, 2] _ _ _ (by simp) (by simp) (by simp [ReadOnly])

/-- The same without fork and join: the threads order themselves by the mutex of `getInstance`. -/
example : ¬ Race (Market.init : Market ℝ)
    [((1 : Nat), .call (.setR 3)), (1, .getInstance), (2, .getInstance), (2, .call .getR)] := by
  refine C69_ordered _ _ ?_
  have h01 : HappensBefore [((1 : Nat), (.call (.setR 3) : Op Nat ℝ)), (1, .getInstance),
      (2, .getInstance), (2, .call .getR)] 0 1 := .thread (by omega) rfl rfl
  have h12 : HappensBefore [((1 : Nat), (.call (.setR 3) : Op Nat ℝ)), (1, .getInstance),
      (2, .getInstance), (2, .call .getR)] 1 2 := .mutex (by omega) rfl rfl
  have h23 : HappensBefore [((1 : Nat), (.call (.setR 3) : Op Nat ℝ)), (1, .getInstance),
      (2, .getInstance), (2, .call .getR)] 2 3 := .thread (by omega) rfl rfl
  intro i j a b x y hij hi hj hab _
  have hj4 : j < 4 := by
    obtain ⟨h, -⟩ := List.getElem?_eq_some_iff.mp hj
    simpa using h
  have : (i = 0 ∧ j = 1) ∨ (i = 0 ∧ j = 2) ∨ (i = 0 ∧ j = 3) ∨ (i = 1 ∧ j = 2) ∨
      (i = 1 ∧ j = 3) ∨ (i = 2 ∧ j = 3) := by omega
  rcases this with ⟨rfl, rfl⟩ | ⟨rfl, rfl⟩ | ⟨rfl, rfl⟩ | ⟨rfl, rfl⟩ | ⟨rfl, rfl⟩ | ⟨rfl, rfl⟩
  · exact h01
  · exact h01.trans h12
  · exact (h01.trans h12).trans h23
  · exact h12
  · exact h12.trans h23
  · exact h23

/-- Two threads look stocks up: the handles are those of the start. -/
example : World.outcome (Threads.run twoStocks [((1 : Nat), .call (.getStockData "A")),
    (2, .call .notifyObservers), (1, .read 0 .price)]) (.getStockData "B") = .ok (.handle 1) := by
  rw [(C69_values _ _ (by simp [ReadOnly])).1, handle_iff]
  exact twoStocks_handles.2

/-- Threads 1 and 2 update different tickers, thread 2 reads its own, thread 3 looks a stock up. -/
example : ¬ Race twoStocks [((1 : Nat), .call (.updatePrice "A" 120)),
    (2, .call (.updateSigma "B" 1)), (3, .call (.getStockData "A")), (2, .read 1 .sigma),
    (1, .call (.updateCoupon "A" (some 0)))] := by
  refine C69_tickers _ twoStocks_wf _ ?_
  have hB : ∀ (tr : List (Nat × Op Nat ℝ)) j, HandleOf twoStocks tr j 1 "B" := fun tr j =>
    ⟨0, Nat.zero_le _, (handle_iff _ _ _).mpr twoStocks_handles.2⟩
  intro i j a b x y hij hi hj hab
  have hj5 : j < 5 := by
    obtain ⟨h, -⟩ := List.getElem?_eq_some_iff.mp hj
    simpa using h
  have hne : ("A" : String) ≠ "B" := by decide
  interval_cases j <;> interval_cases i <;> simp only [List.getElem?_cons_zero,
    List.getElem?_cons_succ, Option.some.injEq, Prod.mk.injEq] at hi hj <;>
    obtain ⟨rfl, rfl⟩ := hi <;> obtain ⟨rfl, rfl⟩ := hj
  · exact .inr (.inr (.inl ⟨"A", "B", hne, .inl rfl, .inl rfl⟩))
  · exact .inr (.inr (.inr (.inl ⟨"A", rfl, trivial⟩)))
  · exact .inr (.inr (.inr (.inl ⟨"B", rfl, trivial⟩)))
  · exact .inr (.inr (.inl ⟨"A", "B", hne, .inl rfl, .inr ⟨1, .sigma, rfl, hB _ _⟩⟩))
  · exact absurd rfl hab
  · exact .inr (.inl ⟨trivial, trivial⟩)
  · exact absurd rfl hab
  · exact .inr (.inr (.inl ⟨"B", "A", hne.symm, .inl rfl, .inl rfl⟩))
  · exact .inr (.inr (.inr (.inr ⟨"A", trivial, rfl⟩)))
  · exact .inr (.inr (.inl ⟨"B", "A", hne.symm, .inr ⟨1, .sigma, rfl, hB _ _⟩, .inl rfl⟩))

/-- Two threads that got the instance one after the other each create a European call on "A". -/
example : Race twoObservers ([((1 : Nat), .getInstance), (2, .getInstance)] ++
    [(1, .call (.createOption .european [.K] [.ticker, .T] callParams .call)),
     (2, .call (.createOption .european [.K] [.ticker, .T] callParams .call))]) := by
  have h : (World.outcome twoObservers
      (.createOption .european [.K] [.ticker, .T] callParams .call)).IsOk := by
    rw [C16_successIff _ _ _ _ (by decide) (by decide) _ _ (.inl rfl)]
    exact ⟨⟨.european, "A", .vanilla .call 100, 1, none⟩,
      by simp [Contract, PayoffOf, BarrierOf, callParams, lastSet, Fl.lt], ⟨_, rfl⟩⟩
  exact C69_create_fails _ _ (by decide) _ _ _ _ _ _ _ _ _ _ h h

/-- Each of two threads lets go of its own option. -/
example : Race { twoObservers with
      objs := [⟨"A", true, some ⟨.european, "A", .vanilla .call 90, 1, none⟩⟩,
        ⟨"A", true, some ⟨.european, "A", .vanilla .call 100, 1, none⟩⟩] }
    ([] ++ [((1 : Nat), .call (.release 0)), (2, .call (.release 1))]) :=
  C69_release_fails _ _ (by decide) (by decide) rfl rfl rfl rfl rfl rfl

/-- A price is updated while another thread reads it, and a refused update races just the same. -/
example : Race twoStocks ([] ++ [((1 : Nat), .call (.updatePrice "A" 120)), (2, .read 0 .price)]) ∧
    Race twoStocks ([] ++ [((1 : Nat), .call (.updatePrice "A" (-1))), (2, .read 0 .price)]) :=
  ⟨C69_update_fails _ twoStocks_wf _ (by decide) _ _ ((handle_iff _ _ _).mpr twoStocks_handles.1),
   C69_update_fails _ twoStocks_wf _ (by decide) _ _ ((handle_iff _ _ _).mpr twoStocks_handles.1)⟩

/-- Adding stock "C" races with a lookup of "A". -/
example : Race twoStocks ([] ++ [((1 : Nat), .call (.addStock "C" 120 (1 / 5) none)),
    (2, .call (.getStockData "A"))]) :=
  C69_addStock_fails _ _ (by decide) _ _ _ _ _ twoObservers_accepted

end Verif.Props
