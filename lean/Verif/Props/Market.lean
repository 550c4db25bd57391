import Verif.Lemmas.World

/-!
# Properties C01-C07 and C09: market data

`World.run Market.init h` is the state after the calls `h` of a program that catches all
exceptions.  `Spec.data h.reverse t` (Spec/MarketSpec.lean) is the specification.
-/

set_option linter.unusedSectionVars false

namespace Verif.Props
open World Market Spec Res

variable {F : Type} [Fl F]

theorem data_ne_none_iff (h : List (Call F)) (t : String) :
    data h t ≠ none ↔ EverAdded h t := by
  induction h with
  | nil => simp [data, EverAdded]
  | cons c h ih =>
    have key : ∀ (hc : ∀ S s cc, c ≠ .addStock t S s cc), (EverAdded (c :: h) t ↔ EverAdded h t) := by
      intro hc
      constructor
      · rintro ⟨S, s, cc, h1, h2⟩
        rcases List.mem_cons.mp h1 with h1 | h1
        · exact absurd h1.symm (hc S s cc)
        · exact ⟨S, s, cc, h1, h2⟩
      · rintro ⟨S, s, cc, h1, h2⟩
        exact ⟨S, s, cc, List.mem_cons_of_mem _ h1, h2⟩
    cases c with
    | addStock t' S s cc =>
      by_cases hx : t' = t ∧ Accepted S s cc
      · rw [data, if_pos hx]
        simp only [ne_eq, reduceCtorEq, not_false_eq_true, true_iff]
        exact ⟨S, s, cc, by simp [hx.1], hx.2⟩
      · rw [data, if_neg hx, ih]
        constructor
        · rintro ⟨S, s, cc, h1, h2⟩
          exact ⟨S, s, cc, List.mem_cons_of_mem _ h1, h2⟩
        · rintro ⟨S, s, cc, h1, h2⟩
          rcases List.mem_cons.mp h1 with h1 | h1
          · cases h1; exact absurd ⟨rfl, h2⟩ hx
          · exact ⟨S, s, cc, h1, h2⟩
    | updatePrice t' S =>
      rw [key (by simp), ← ih]; simp only [data]; split <;> simp
    | updateSigma t' S =>
      rw [key (by simp), ← ih]; simp only [data]; split <;> simp
    | updateCoupon t' S =>
      rw [key (by simp), ← ih]; simp only [data]; split <;> simp
    | _ => rw [key (by simp), ← ih]; simp only [data]

theorem everAdded_reverse (h : List (Call F)) (t : String) :
    EverAdded h.reverse t ↔ EverAdded h t := by simp [EverAdded]

/-- The outcome of an update, in terms of the specification. -/
theorem outcome_update (h : List (Call F)) (c : Call F) (t : String) (ht : IsUpdateOf t c) :
    (IsOk (outcome (run init h) c) ↔
      ∃ d, data (h ++ [c]).reverse t = some d ∧ Accepted d.price d.sigma d.coupon) ∧
    (IsOk (outcome (run init h) c) ∨ Throws .invalidArgument (outcome (run init h) c)) := by
  have hwf := run_wf (F := F) init_wf h
  rw [← run_lookup, run_snoc]
  rcases step_update_cases hwf ht with ⟨hn, ⟨msg, ho⟩, hs⟩ | ⟨p, d, hp, -, hld, ⟨ha, ho, hs⟩ | ⟨ha, ⟨msg, ho⟩, hs⟩⟩
  · rw [ho, hs]; simp [lookup, hn]
  · rw [ho, hs, notifyObserver_log, addLog_lookup, lookup_set hwf _ hp, if_pos rfl]
    simp [ha]
  · rw [ho, hs, lookup_set hwf _ hp, if_pos rfl]
    simp [ha]

/-! ## C01 -/

theorem reads_iff {m : Market F} (hm : m.WF) (t : String) (d : StockData F) :
    Reads m t d ↔ m.lookup t = some d := by
  unfold Reads
  rw [outcome_getStockData]
  cases hp : mapFind t m.stockDataMap with
  | none => simp [lookup, hp]
  | some p =>
    obtain ⟨d', h1, h2⟩ := hm.lookup_some hp
    rw [h2]
    constructor
    · rintro ⟨q, h3, h4⟩
      simp only [ok.injEq, Val.handle.injEq] at h3
      subst h3
      simpa [deref, h1] using h4
    · rintro h3; cases h3; exact ⟨p, rfl, by simp [deref, h1]⟩

/-- C01: after any history, reading a ticker gives exactly the last writes; an unknown ticker
throws; the rate is the last one set. -/
theorem C01_lastWriteWins (h : List (Call F)) (t : String) :
    (∀ d, Reads (run init h) t d ↔ data h.reverse t = some d) ∧
    (data h.reverse t = none → Throws .invalidArgument (outcome (run init h) (.getStockData t))) ∧
    outcome (run init h) .getR = .ok (.number (rate h.reverse)) := by
  refine ⟨fun d => ?_, fun hn => ?_, ?_⟩
  · rw [reads_iff (run_wf init_wf h), run_lookup]
  · rw [← run_lookup] at hn
    rw [outcome_getStockData]
    have := (run_wf (F := F) init_wf h).lookup_isSome t
    rw [hn] at this
    cases hp : mapFind t (run init h).stockDataMap with
    | none => simp
    | some p => simp [hp] at this
  · show Res.ok (Val.number (run init h).r) = _
    rw [run_rate]

/-- C01, frame part: a call that does not write to `t` leaves what is read for `t` unchanged. -/
theorem C01_otherTickers (h : List (Call F)) (c : Call F) (t : String) (hc : writesTo c ≠ some t)
    (d : StockData F) : Reads (run init (h ++ [c])) t d ↔ Reads (run init h) t d := by
  rw [(C01_lastWriteWins _ t).1, (C01_lastWriteWins _ t).1, List.reverse_append]
  have : data ([c].reverse ++ h.reverse) t = data h.reverse t := by
    cases c <;> simp_all [writesTo, data]
  rw [this]

example : data (F := ℝ) [.updateSigma "A" 7, .setR 1, .updatePrice "A" 5, .updatePrice "B" 3,
    .addStock "A" 2 1 none, .addStock "A" 9 9 none] "A" = some ⟨5, 7, none⟩ := by
  simp [data, Accepted]
example : rate (F := ℝ) [.updateSigma "A" 7, .setR 1, .setR 3] = 1 := by simp [rate]
example : writesTo (F := ℝ) (.updateSigma "B" 7) ≠ some "A" := by simp [writesTo]

/-! ## C02 -/

/-- C02 is false (1): a rejected update leaves the invalid price in the served data. -/
theorem C02_fails_rejectedUpdate (R : Rounding) :
    ∃ (h : List (Call (Dbl R))) (d : StockData (Dbl R)),
      (∀ c ∈ h, NoNaN c) ∧ Reads (run init h) "A" d ∧ ¬ Valid d := by
  refine ⟨[.addStock "A" (.num 100) (.num 0) none, .updatePrice "A" (.num (-5))],
    ⟨.num (-5), .num 0, none⟩, by simp [NoNaN], ?_, ?_⟩
  · rw [(C01_lastWriteWins _ _).1]
    simp [data, Accepted]
  · rintro ⟨⟨e, h1, h2⟩, -⟩
    simp only [Dbl.num.injEq] at h1
    rw [← h1] at h2
    have : ((-5 : ℝ) : EReal) < ((0 : ℝ) : EReal) := EReal.coe_lt_coe_iff.mpr (by norm_num)
    exact absurd (h2.trans this) (lt_irrefl _)

/-- C02 is false (2): NaN passes every check, so invalid data is served although no call threw. -/
theorem C02_fails_nan (R : Rounding) :
    ∃ (c : Call (Dbl R)) (d : StockData (Dbl R)),
      IsOk (outcome init c) ∧ Reads (run init [c]) "A" d ∧ ¬ Valid d := by
  refine ⟨.addStock "A" .nan .nan (some .nan), ⟨.nan, .nan, some .nan⟩, ?_, ?_, ?_⟩
  · rcases step_addStock_cases (init : Market (Dbl R)) "A" .nan .nan (some .nan) with
      ⟨-, h, -⟩ | ⟨h, -, -⟩
    · rw [h]; simp
    · exact absurd (by simp [Accepted]) h
  · rw [(C01_lastWriteWins _ _).1]; simp [data, Accepted]
  · rintro ⟨⟨e, h1, -⟩, -⟩; cases h1

theorem accepted_valid {R : Rounding} {d : StockData (Dbl R)}
    (ha : Accepted d.price d.sigma d.coupon) (h1 : d.price ≠ .nan) (h2 : d.sigma ≠ .nan)
    (h3 : d.coupon ≠ some .nan) : Valid d := by
  obtain ⟨a1, a2, a3⟩ := ha
  rcases d with ⟨p, s, c⟩
  refine ⟨?_, ?_, ?_⟩
  · cases p with
    | nan => exact absurd rfl h1
    | num e => exact ⟨e, rfl, by simpa using a1⟩
  · cases s with
    | nan => exact absurd rfl h2
    | num e => exact ⟨e, rfl, by simpa using a2⟩
  · intro x hx
    have := a3 x hx
    cases x with
    | nan => exact absurd hx h3
    | num e => exact ⟨e, rfl, by simpa using this.1, by simpa using this.2⟩

theorem valid_noNaN {R : Rounding} {d : StockData (Dbl R)} (h : Valid d) :
    d.price ≠ .nan ∧ d.sigma ≠ .nan ∧ d.coupon ≠ some .nan := by
  obtain ⟨⟨e, h1, -⟩, ⟨e', h2, -⟩, h3⟩ := h
  refine ⟨by simp [h1], by simp [h2], fun hc => ?_⟩
  obtain ⟨e'', h4, -⟩ := h3 _ hc
  cases h4

theorem upd_noNaN {R : Rounding} {d : StockData (Dbl R)} {c : Call (Dbl R)} (hc : NoNaN c)
    (h : d.price ≠ .nan ∧ d.sigma ≠ .nan ∧ d.coupon ≠ some .nan) :
    (upd c d).price ≠ .nan ∧ (upd c d).sigma ≠ .nan ∧ (upd c d).coupon ≠ some .nan := by
  cases c <;> simp_all [upd, NoNaN]

theorem data_noNaN {R : Rounding} (h : List (Call (Dbl R))) (hn : ∀ c ∈ h, NoNaN c) (t : String)
    (d : StockData (Dbl R)) (hd : data h t = some d) :
    d.price ≠ .nan ∧ d.sigma ≠ .nan ∧ d.coupon ≠ some .nan := by
  induction h generalizing d with
  | nil => simp [data] at hd
  | cons c h ih =>
    have ih' := ih (fun c' hc' => hn c' (by simp [hc']))
    have hc := hn c (by simp)
    cases c with
    | addStock t' S s cc =>
      simp only [data] at hd
      split at hd
      · cases hd; exact hc
      · exact ih' d hd
    | updatePrice t' S =>
      simp only [data] at hd
      split at hd
      · simp only [Option.map_eq_some_iff] at hd
        obtain ⟨d', h1, h2⟩ := hd
        have := ih' d' h1
        rw [← h2]; exact ⟨hc, this.2⟩
      · exact ih' d hd
    | updateSigma t' S =>
      simp only [data] at hd
      split at hd
      · simp only [Option.map_eq_some_iff] at hd
        obtain ⟨d', h1, h2⟩ := hd
        have := ih' d' h1
        rw [← h2]; exact ⟨this.1, hc, this.2.2⟩
      · exact ih' d hd
    | updateCoupon t' S =>
      simp only [data] at hd
      split at hd
      · simp only [Option.map_eq_some_iff] at hd
        obtain ⟨d', h1, h2⟩ := hd
        have := ih' d' h1
        rw [← h2]; exact ⟨this.1, this.2.1, hc⟩
      · exact ih' d hd
    | _ => exact ih' d hd

/-- C02, what holds: if no argument is NaN and no update of a known ticker was rejected, every
stock served is valid.  Missing for the full property: rejected updates and NaN (both refuted
above). -/
theorem C02_validServed_partial {R : Rounding} (h : List (Call (Dbl R)))
    (hn : ∀ c ∈ h, NoNaN c)
    (hok : ∀ h1 c h2 t, h = h1 ++ c :: h2 → IsUpdateOf t c → EverAdded h1 t →
      IsOk (outcome (run init h1) c))
    (t : String) (d : StockData (Dbl R)) (hd : Reads (run init h) t d) : Valid d := by
  rw [reads_iff (run_wf init_wf h)] at hd
  induction h using List.reverseRecOn generalizing t d with
  | nil => simp [run, init, lookup, mapFind] at hd
  | append_singleton h c ih =>
    have ih' := ih (fun c' hc' => hn c' (by simp [hc'])) (by
      intro h1 c' h2 t' he
      exact hok h1 c' (h2 ++ [c]) t' (by simp [he]))
    have hc := hn c (by simp)
    have hwf := run_wf (F := Dbl R) init_wf h
    have hdat := data_noNaN (h ++ [c]).reverse (by
      intro c' hc'; exact hn c' (List.mem_reverse.mp hc')) t d (by rw [← run_lookup]; exact hd)
    have hadd : ∀ t', (run init h).lookup t' ≠ none → EverAdded h t' := by
      intro t' hne
      rw [run_lookup] at hne
      simpa [EverAdded] using (data_ne_none_iff _ _).mp hne
    rw [run_snoc] at hd
    have hupd : ∀ t', IsUpdateOf t' c → Valid d := by
      intro t' ht
      rcases step_update_cases hwf ht with ⟨-, -, hs⟩ | ⟨p, d', hp, -, hld, ⟨ha, -, hs⟩ | ⟨-, ⟨msg, ho⟩, hs⟩⟩
      · rw [hs] at hd; exact ih' t d hd
      · rw [hs, notifyObserver_log, addLog_lookup, lookup_set hwf _ hp] at hd
        split at hd
        · cases hd
          exact accepted_valid ha hdat.1 hdat.2.1 hdat.2.2
        · exact ih' t d hd
      · have := hok h c [] t' rfl ht (hadd t' (by simp [hld]))
        rw [ho] at this; simp at this
    cases c with
    | addStock t' S s cc =>
      rcases step_addStock_cases (run init h) t' S s cc with ⟨ha, -, hs⟩ | ⟨ha, -, hs⟩
      · rw [hs, lookup_addStock hwf] at hd
        split at hd
        · cases hd; exact accepted_valid ha hdat.1 hdat.2.1 hdat.2.2
        · exact ih' t d hd
      · rw [hs] at hd; exact ih' t d hd
    | updatePrice t' S => exact hupd t' rfl
    | updateSigma t' S => exact hupd t' rfl
    | updateCoupon t' S => exact hupd t' rfl
    | setR r =>
      rw [step_setR, notifyObservers_log, addLog_lookup] at hd
      exact ih' t d hd
    | _ =>
      rw [(step_keepsCore _ _ (by trivial)).lookup] at hd
      exact ih' t d hd

/-- C02, second part that holds: directly after a successful `addStock` or update of a ticker, that
ticker's data are valid, whatever happened before (rejected updates included), if no argument was
NaN. -/
theorem C02_validAfterSuccess_partial {R : Rounding} (h : List (Call (Dbl R))) (c : Call (Dbl R))
    (hn : ∀ c' ∈ h ++ [c], NoNaN c') (t : String) (hw : writesTo c = some t)
    (hok : IsOk (outcome (run init h) c)) (d : StockData (Dbl R))
    (hd : Reads (run init (h ++ [c])) t d) : Valid d := by
  rw [reads_iff (run_wf init_wf _)] at hd
  have hdat := data_noNaN (h ++ [c]).reverse (by
      intro c' hc'; exact hn c' (List.mem_reverse.mp hc')) t d (by rw [← run_lookup]; exact hd)
  have hwf := run_wf (F := Dbl R) init_wf h
  rw [run_snoc] at hd
  have hupd : IsUpdateOf t c → Valid d := by
    intro ht
    rcases step_update_cases hwf ht with ⟨-, ⟨msg, ho⟩, hs⟩ | ⟨p, d', hp, -, hld, ⟨ha, -, hs⟩ | ⟨-, ⟨msg, ho⟩, hs⟩⟩
    · rw [ho] at hok; simp at hok
    · rw [hs, notifyObserver_log, addLog_lookup, lookup_set hwf _ hp, if_pos rfl] at hd
      cases hd
      exact accepted_valid ha hdat.1 hdat.2.1 hdat.2.2
    · rw [ho] at hok; simp at hok
  cases c with
  | addStock t' S s cc =>
    cases hw
    rcases step_addStock_cases (run init h) t S s cc with ⟨ha, -, hs⟩ | ⟨ha, ⟨msg, ho⟩, hs⟩
    · rw [hs, lookup_addStock hwf, if_pos rfl] at hd
      cases hd; exact accepted_valid ha hdat.1 hdat.2.1 hdat.2.2
    · rw [ho] at hok; simp at hok
  | updatePrice t' S => cases hw; exact hupd rfl
  | updateSigma t' S => cases hw; exact hupd rfl
  | updateCoupon t' S => cases hw; exact hupd rfl
  | _ => cases hw

/-- A history meeting the hypotheses of both partial theorems (`R` arbitrary). -/
noncomputable def goodHistory (R : Rounding) : List (Call (Dbl R)) :=
  [.addStock "A" (.num 100) (.num 0) none, .updatePrice "A" (.num 1)]

example (R : Rounding) : (∀ c ∈ goodHistory R, NoNaN c) ∧
    (∀ h1 c h2 t, goodHistory R = h1 ++ c :: h2 → IsUpdateOf t c → EverAdded h1 t →
      IsOk (outcome (run init h1) c)) ∧
    Reads (run init (goodHistory R)) "A" ⟨.num 1, .num 0, none⟩ := by
  refine ⟨by simp [goodHistory, NoNaN], ?_, ?_⟩
  · intro h1 c h2 t he ht _
    unfold goodHistory at he
    rcases h1 with _ | ⟨a, _ | ⟨b, h1⟩⟩
    · simp only [List.nil_append, List.cons.injEq] at he
      rw [← he.1] at ht; exact ht.elim
    · simp only [List.cons_append, List.nil_append, List.cons.injEq] at he
      obtain ⟨ha, hb, -⟩ := he
      subst ha hb
      cases ht
      rw [(outcome_update _ _ "A" (by exact rfl)).1]
      exact ⟨⟨.num 1, .num 0, none⟩, by simp [data, Accepted], by simp [Accepted]⟩
    · have := congrArg List.length he; simp at this
  · rw [(C01_lastWriteWins _ _).1]; simp [goodHistory, data, Accepted]

example (R : Rounding) : writesTo (F := Dbl R) (.updatePrice "A" (.num 1)) = some "A" ∧
    IsOk (outcome (run init [.addStock "A" (.num 100) (.num 0) none, .updatePrice "A" (.num (-3))])
      (.updatePrice "A" (.num 1) : Call (Dbl R))) := by
  refine ⟨rfl, ?_⟩
  rw [(outcome_update _ _ "A" (by exact rfl)).1]
  exact ⟨⟨.num 1, .num 0, none⟩, by simp [data, Accepted], by simp [Accepted]⟩

/-! ## C03 -/

/-- C03 is false: a rejected price update replaces the price (and so changes what is read). -/
theorem C03_fails (R : Rounding) :
    ∃ (h : List (Call (Dbl R))) (c : Call (Dbl R)) (d d' : StockData (Dbl R)),
      Throws .invalidArgument (outcome (run init h) c) ∧
      Reads (run init h) "A" d ∧ Reads (run init (h ++ [c])) "A" d' ∧ d.price ≠ d'.price := by
  refine ⟨[.addStock "A" (.num 100) (.num 0) none], .updatePrice "A" (.num 0),
    ⟨.num 100, .num 0, none⟩, ⟨.num 0, .num 0, none⟩, ?_, ?_, ?_, ?_⟩
  · refine (outcome_update _ _ "A" (by exact rfl)).2.resolve_left ?_
    rw [(outcome_update _ _ "A" (by exact rfl)).1]
    rintro ⟨d, h1, h2⟩
    simp [data, Accepted] at h1
    rw [← h1] at h2; simp [Accepted] at h2
  · rw [(C01_lastWriteWins _ _).1]; simp [data, Accepted]
  · rw [(C01_lastWriteWins _ _).1]; simp [data, Accepted]
  · simp

/-- C03, what holds: a call that throws changes neither rate, observers, observer objects nor the
notifications delivered; if it is not an update of a known ticker it changes nothing at all; a
throwing update of a known ticker changes only that ticker (and there only the field it names). -/
theorem C03_throwingCall_partial (h : List (Call F)) (c : Call F) (e : Exc)
    (he : outcome (run init h) c = .throw e) :
    (run init (h ++ [c])).r = (run init h).r ∧
    (run init (h ++ [c])).observers = (run init h).observers ∧
    (run init (h ++ [c])).objs = (run init h).objs ∧
    (run init (h ++ [c])).log = (run init h).log ∧
    ((∀ t, IsUpdateOf t c → ¬ EverAdded h t) → run init (h ++ [c]) = run init h) ∧
    (∀ t t' d, IsUpdateOf t c → t' ≠ t →
      (Reads (run init (h ++ [c])) t' d ↔ Reads (run init h) t' d)) ∧
    (∀ t d d', IsUpdateOf t c → Reads (run init h) t d → Reads (run init (h ++ [c])) t d' →
      (∀ S, c = .updatePrice t S → d' = ⟨S, d.sigma, d.coupon⟩) ∧
      (∀ s, c = .updateSigma t s → d' = ⟨d.price, s, d.coupon⟩) ∧
      (∀ x, c = .updateCoupon t x → d' = ⟨d.price, d.sigma, x⟩)) := by
  have hwf := run_wf (F := F) init_wf h
  have hr : run init (h ++ [c]) = step (run init h) c := run_snoc _ _ _
  have hnu : (∀ t, ¬ IsUpdateOf t c) → step (run init h) c = run init h := by
    intro hu
    cases c with
    | addStock t S s cc =>
      rcases step_addStock_cases (run init h) t S s cc with ⟨-, ho, -⟩ | ⟨-, -, hs⟩
      · rw [ho] at he; cases he
      · exact hs
    | updatePrice t S => exact absurd rfl (hu t)
    | updateSigma t S => exact absurd rfl (hu t)
    | updateCoupon t S => exact absurd rfl (hu t)
    | getStockData t => exact step_getStockData _ _
    | createOption f oP oO ps ty =>
      have h1 : outcome (run init h) (.createOption f oP oO ps ty) =
          ((OptionModel.createOption f oP oO (mkParams ps) ty (run init h)).1 >>= fun a =>
            .ok (.object a)) := by
        show (exec _ _).1 = _
        simp only [exec]
        rw [exec_eq]
      rw [step_createOption]
      rcases OptionModel.createOption_cases f oP oO (mkParams ps) ty (run init h) with
        ⟨o, -, h2⟩ | ⟨msg, -, h2⟩
      · rw [h1, h2] at he; cases he
      · rw [h2]
    | release o =>
      exfalso
      have h1 : outcome (run init h) (.release o) =
          ((OptionModel.release o (run init h)).1 >>= fun _ => .ok .unit) := by
        show (exec _ _).1 = _
        simp only [exec]
        rw [exec_eq]
      rw [h1] at he
      have : (OptionModel.release o (run init h)).1 = .ok () := by
        unfold OptionModel.release
        split
        · split
          · dsimp only; split <;> rfl
          · rfl
        · rfl
      rw [this] at he; cases he
    | _ => cases he
  have hup : ∀ t, IsUpdateOf t c → (step (run init h) c = run init h ∨
      ∃ p d, step (run init h) c = (run init h).setHeap p (upd c d)) := by
    intro t ht
    rcases step_update_cases hwf ht with ⟨hn, ⟨msg, ho⟩, hs⟩ | ⟨p, d, hp, -, hld, ⟨ha, ho, hs⟩ | ⟨ha, ⟨msg, ho⟩, hs⟩⟩
    · exact .inl hs
    · rw [ho] at he; cases he
    · exact .inr ⟨p, d, hs⟩
  have hall : step (run init h) c = run init h ∨
      ∃ p d, step (run init h) c = (run init h).setHeap p (upd c d) := by
    by_cases hu : ∃ t, IsUpdateOf t c
    · obtain ⟨t, ht⟩ := hu; exact hup t ht
    · exact .inl (hnu (not_exists.mp hu))
  have hframe : ∀ (P : Market F → Prop), (∀ m p d, P m → P (m.setHeap p d)) →
      P (run init h) → P (step (run init h) c) := by
    intro P hP h0
    rcases hall with hs | ⟨p, d, hs⟩
    · rw [hs]; exact h0
    · rw [hs]; exact hP _ _ _ h0
  refine ⟨?_, ?_, ?_, ?_, ?_, ?_, ?_⟩
  · rw [hr]; exact hframe (fun m => m.r = (run init h).r) (fun _ _ _ h => h) rfl
  · rw [hr]; exact hframe (fun m => m.observers = (run init h).observers) (fun _ _ _ h => h) rfl
  · rw [hr]; exact hframe (fun m => m.objs = (run init h).objs) (fun _ _ _ h => h) rfl
  · rw [hr]; exact hframe (fun m => m.log = (run init h).log) (fun _ _ _ h => h) rfl
  · intro hu
    rw [hr]
    by_cases hx : ∃ t, IsUpdateOf t c
    · obtain ⟨t, ht⟩ := hx
      have hna := hu t ht
      rw [← everAdded_reverse, ← data_ne_none_iff, not_not, ← run_lookup] at hna
      rcases step_update_cases hwf ht with ⟨hn, ⟨msg, ho⟩, hs⟩ | ⟨p, d, hp, -, hld, -⟩
      · exact hs
      · rw [hna] at hld; cases hld
    · exact hnu (not_exists.mp hx)
  · intro t t' d ht hne
    refine C01_otherTickers h c t' ?_ d
    cases c <;> first | exact ht.elim | (cases ht; simpa [writesTo] using fun h => hne h.symm)
  · intro t d d' ht h1 h2
    rw [(C01_lastWriteWins _ _).1] at h1 h2
    rw [List.reverse_append] at h2
    refine ⟨?_, ?_, ?_⟩ <;>
    · intro x hx
      subst hx
      simp only [List.reverse_cons, List.reverse_nil, List.nil_append, List.singleton_append,
        data, if_pos, h1, Option.map_some, Option.some.injEq] at h2
      exact h2.symm

example (R : Rounding) : ∃ e, outcome (run init [.addStock "A" (.num 100) (.num 0) none])
      (.updatePrice "A" (.num 0) : Call (Dbl R)) = .throw e := by
  have h1 := (outcome_update (F := Dbl R) [.addStock "A" (.num 100) (.num 0) none]
    (.updatePrice "A" (.num 0)) "A" (by exact rfl))
  rcases h1.2 with h2 | ⟨m, h2⟩
  · obtain ⟨d, h3, h4⟩ := h1.1.mp h2
    simp [data, Accepted] at h3
    rw [← h3] at h4; simp [Accepted] at h4
  · exact ⟨_, h2⟩

end Verif.Props
