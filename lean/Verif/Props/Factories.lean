import Verif.Lemmas.Factory
import Verif.Props.Observers
import Verif.Props.Payoffs

/-!
# Properties C15-C18: parameter objects, option factories, option equality
-/

set_option linter.unusedSectionVars false

namespace Verif.Props
open World Market Spec Res ParameterObject OptionModel

variable {F : Type} [Fl F]

/-! ## C15 -/

/-- C15: after any sequence of `setParameter` calls, reading a name with one of the four types
returns `v` exactly when the last call for that name stored `v` with that type, and otherwise throws
`invalid_argument`. -/
theorem C15_typedMap (kvs : List (String × Param F)) (n : String) :
    ((∀ v, getParameter Param.asInt (mkParams kvs) n = .ok v ↔ lastSet kvs n = some (.int v)) ∧
     (∀ v, getParameter Param.asDbl (mkParams kvs) n = .ok v ↔ lastSet kvs n = some (.dbl v)) ∧
     (∀ v, getParameter Param.asStr (mkParams kvs) n = .ok v ↔ lastSet kvs n = some (.str v)) ∧
     (∀ v, getParameter Param.asDir (mkParams kvs) n = .ok v ↔ lastSet kvs n = some (.dir v))) ∧
    ((∀ v, lastSet kvs n ≠ some (.int v)) →
      Throws .invalidArgument (getParameter Param.asInt (mkParams kvs) n)) ∧
    ((∀ v, lastSet kvs n ≠ some (.dbl v)) →
      Throws .invalidArgument (getParameter Param.asDbl (mkParams kvs) n)) ∧
    ((∀ v, lastSet kvs n ≠ some (.str v)) →
      Throws .invalidArgument (getParameter Param.asStr (mkParams kvs) n)) ∧
    ((∀ v, lastSet kvs n ≠ some (.dir v)) →
      Throws .invalidArgument (getParameter Param.asDir (mkParams kvs) n)) := by
  have key : ∀ {α : Type} (proj : Param F → Option α), (∀ v, lastSet kvs n = some v → proj v = none) →
      Throws .invalidArgument (getParameter proj (mkParams kvs) n) := by
    intro α proj h
    unfold getParameter
    rw [find?_mkParams]
    cases hl : lastSet kvs n with
    | none => simp
    | some v => simp [h v hl]
  refine ⟨⟨getInt_iff kvs n, getDbl_iff kvs n, getStr_iff kvs n, getDir_iff kvs n⟩, ?_, ?_, ?_, ?_⟩
  all_goals
    intro h
    refine key _ (fun v hv => ?_)
    cases v <;> first | rfl | exact absurd hv (h _)

/-- C15: `hasParameter` tells whether the name was ever set. -/
theorem C15_has (kvs : List (String × Param F)) (n : String) :
    (mkParams kvs).hasParameter n = true ↔ ∃ v, (n, v) ∈ kvs := by
  unfold hasParameter
  rw [find?_mkParams, lastSet, Option.isSome_map, List.find?_isSome]
  constructor
  · rintro ⟨⟨k, v⟩, h1, h2⟩
    simp only [decide_eq_true_eq] at h2
    subst h2
    exact ⟨v, by simpa using h1⟩
  · rintro ⟨v, h⟩; exact ⟨(n, v), by simpa using h, by simp⟩

/-- C15: the last write wins, and a write to one name leaves every read of another name as it was
(value, exception and all). -/
theorem C15_setGet {α : Type} (proj : Param F → Option α) (kvs : List (String × Param F))
    (n n' : String) (v : Param F) :
    (∀ a, proj v = some a → getParameter proj (mkParams (kvs ++ [(n, v)])) n = .ok a) ∧
    (n ≠ n' → getParameter proj (mkParams (kvs ++ [(n, v)])) n' =
      getParameter proj (mkParams kvs) n') := by
  constructor
  · intro a ha
    rw [getParameter_ok_iff, find?_mkParams]
    exact ⟨v, by simp [lastSet], ha⟩
  · intro h
    unfold getParameter
    simp only [find?_mkParams]
    have : lastSet (kvs ++ [(n, v)]) n' = lastSet kvs n' := by simp [lastSet, h]
    rw [this]

example : lastSet [("K", .dbl (1 : ℝ)), ("n", .int 1), ("K", .dbl 2)] "K" = some (.dbl 2) ∧
    lastSet [("K", .dbl (1 : ℝ)), ("n", .int 1)] "n" = some (.int 1) ∧
    lastSet [("K", .dbl (1 : ℝ))] "L" = none := by simp [lastSet]

/-! ## C16 -/

/-- C16: `createOption` (call or put) returns normally exactly when the parameters describe a valid
contract on a known ticker, whatever order the compiler evaluates constructor arguments in. -/
theorem C16_successIff (m : Market F) (f : Factory) (ordP ordO : List Arg)
    (hP : ordP.Perm f.payoffArgs) (hO : ordO.Perm f.optionArgs) (kvs : List (String × Param F))
    (ty : PayoffType) (hty : ty = .call ∨ ty = .put) :
    IsOk (outcome m (.createOption f ordP ordO kvs ty)) ↔
      ∃ o, Contract f kvs ty o ∧ IsOk (outcome m (.getStockData o.ticker)) := by
  have hout : outcome m (.createOption f ordP ordO kvs ty) =
      ((do let o ← createOption f ordP ordO (mkParams kvs) ty; return Val.object o :
        Eff (Market F) (Val F)) m).1 := rfl
  simp only [← createBody_ok_iff f hP hO kvs hty m]
  rcases createOption_cases f ordP ordO (mkParams kvs) ty m with ⟨o, hb, hc⟩ | ⟨msg, hb, hc⟩
  · rw [hout, Eff.bind_of_ok hc]
    exact ⟨fun _ => ⟨o, hb⟩, fun _ => ⟨_, rfl⟩⟩
  · rw [hout, Eff.bind_of_throw hc]
    constructor
    · rintro ⟨a, h⟩; cases h
    · rintro ⟨o, h⟩; rw [hb] at h; cases h

/-- C16: on success the returned object is new, is the described option, and is appended once, as
the newest observer; nothing else changes. -/
theorem C16_result (m : Market F) (f : Factory) (ordP ordO : List Arg)
    (hP : ordP.Perm f.payoffArgs) (hO : ordO.Perm f.optionArgs) (kvs : List (String × Param F))
    (ty : PayoffType) (hty : ty = .call ∨ ty = .put) (v : Val F)
    (h : outcome m (.createOption f ordP ordO kvs ty) = .ok v) :
    ∃ o m', Contract f kvs ty o ∧ m' = step m (.createOption f ordP ordO kvs ty) ∧
      v = .object m.objs.length ∧ m'.objs = m.objs ++ [⟨o.ticker, true, some o⟩] ∧
      m'.observers = m.observers ++ [m.objs.length] ∧ m'.log = m.log ∧ m'.r = m.r ∧
      m'.stockDataMap = m.stockDataMap ∧ m'.heap = m.heap := by
  have hout : outcome m (.createOption f ordP ordO kvs ty) =
      ((do let o ← createOption f ordP ordO (mkParams kvs) ty; return Val.object o :
        Eff (Market F) (Val F)) m).1 := rfl
  rw [hout] at h
  rw [step_createOption]
  rcases createOption_cases f ordP ordO (mkParams kvs) ty m with ⟨o, hb, hc⟩ | ⟨msg, hb, hc⟩
  · rw [Eff.bind_of_ok hc] at h
    cases h
    rw [createBody_ok_iff f hP hO kvs hty m] at hb
    refine ⟨o, _, hb.1, rfl, rfl, ?_⟩
    rw [hc]
    exact ⟨rfl, rfl, rfl, rfl, rfl, rfl⟩
  · rw [Eff.bind_of_throw hc] at h; cases h

/-- C16: the parameters determine the option. -/
theorem C16_unique (f : Factory) (kvs : List (String × Param F)) (ty : PayoffType) (o o' : OptObj F)
    (h : Contract f kvs ty o) (h' : Contract f kvs ty o') : o = o' := by
  obtain ⟨c1, c2, c3, -, c5, c6⟩ := h
  obtain ⟨d1, d2, d3, -, d5, d6⟩ := h'
  have hp : o.payoff = o'.payoff := by
    cases f <;> simp only [PayoffOf] at c5 d5
    case doubleDigital =>
      obtain ⟨a, b, e1, e2, -, -, e5⟩ := c5
      obtain ⟨a', b', e1', e2', -, -, e5'⟩ := d5
      rw [e1] at e1'; rw [e2] at e2'; cases e1'; cases e2'; rw [e5, e5']
    case floatingLookback => rw [c5, d5]
    all_goals
      obtain ⟨k, e1, -, e2⟩ := c5
      obtain ⟨k', e1', -, e2'⟩ := d5
      rw [e1] at e1'; cases e1'; rw [e2, e2']
  have hb : o.barrier = o'.barrier := by
    cases f <;> simp only [BarrierOf] at c6 d6
    case knockIn =>
      obtain ⟨B, d, e1, e2, e3⟩ := c6
      obtain ⟨B', d', e1', e2', e3'⟩ := d6
      rw [e1] at e1'; rw [e2] at e2'; cases e1'; cases e2'; rw [e3, e3']
    case knockOut =>
      obtain ⟨B, d, e1, e2, e3⟩ := c6
      obtain ⟨B', d', e1', e2', e3'⟩ := d6
      rw [e1] at e1'; rw [e2] at e2'; cases e1'; cases e2'; rw [e3, e3']
    all_goals rw [c6, d6]
  rw [c2] at d2; rw [c3] at d3
  simp only [Option.some.injEq, Param.str.injEq, Param.dbl.injEq] at d2 d3
  cases o; cases o'; simp_all

/-- A valid set of parameters of a knock-in call, with one overwritten strike. -/
def knockInParams : List (String × Param ℝ) :=
  [("K", .dbl (-1)), ("ticker", .str "A"), ("T", .dbl 1), ("B", .dbl 120), ("direction", .dir .up),
   ("K", .dbl 100)]

example : Contract .knockIn knockInParams .call ⟨.knockIn, "A", .vanilla .call 100, 1,
      some (120, .up)⟩ ∧
    IsOk (outcome (run init [.addStock "A" (1 : ℝ) 1 none]) (.getStockData "A")) := by
  refine ⟨?_, ?_⟩
  · simp [Contract, PayoffOf, BarrierOf, knockInParams, lastSet]
  · rcases step_addStock_cases (init : Market ℝ) "A" 1 1 none with ⟨-, -, h⟩ | ⟨h, -⟩
    · have : run init [.addStock "A" (1 : ℝ) 1 none] = init.addObj "A" ⟨1, 1, none⟩ := h
      rw [this]; exact ⟨_, rfl⟩
    · exact absurd (by simp [Accepted]) h

/-! ## C17 -/

/-- C17, partial: every failing factory call throws `invalid_argument`, changes nothing, and its
message is a true reason, a newline, and the help text of the factory.
Missing compared with the property: the help text is not always the list of required parameters, see
`C17_helpText` and `C17_helpOmitsBarrier`. -/
theorem C17_failure_partial (m : Market F) (f : Factory) (ordP ordO : List Arg)
    (hP : ordP.Perm f.payoffArgs) (hO : ordO.Perm f.optionArgs) (kvs : List (String × Param F))
    (ty : PayoffType) (hty : ty = .call ∨ ty = .put)
    (h : ¬ IsOk (outcome m (.createOption f ordP ordO kvs ty))) :
    step m (.createOption f ordP ordO kvs ty) = m ∧
    ∃ reason, Reason f kvs m reason ∧
      outcome m (.createOption f ordP ordO kvs ty) = .throw ⟨.invalidArgument,
        reason ++ "\n" ++ f.invalidParams (f.getType ty)⟩ := by
  have hout : outcome m (.createOption f ordP ordO kvs ty) =
      ((do let o ← createOption f ordP ordO (mkParams kvs) ty; return Val.object o :
        Eff (Market F) (Val F)) m).1 := rfl
  rw [hout] at h ⊢
  rw [step_createOption]
  rcases createOption_cases f ordP ordO (mkParams kvs) ty m with ⟨o, hb, hc⟩ | ⟨msg, hb, hc⟩
  · rw [Eff.bind_of_ok hc] at h; exact absurd ⟨_, rfl⟩ h
  · rw [Eff.bind_of_throw hc]
    refine ⟨by rw [hc], msg, ?_, rfl⟩
    have := explained_createBody f hP hO kvs hty m
    unfold ExplainedEff at this
    rw [hb] at this
    exact this _ rfl

/-- Every reason is a genuine one: with it there is no valid contract on a known ticker, so the call
had to fail. -/
theorem C17_reasonsAreGenuine (m : Market F) (f : Factory) (kvs : List (String × Param F))
    (ty : PayoffType) (msg : String) (h : Reason f kvs m msg) :
    ¬ ∃ o, Contract f kvs ty o ∧ IsOk (outcome m (.getStockData o.ticker)) := by
  rintro ⟨o, ⟨h1, h2, h3, h4, h5, h6⟩, h7⟩
  have hneed : ∀ n ∈ needed f, ∃ v, lastSet kvs n = some v ∧ HasType n v := by
    intro n hn
    have ht : HasType "ticker" (.str o.ticker : Param F) := by simp [HasType]
    have hd : ∀ (n : String) (x : F), n ≠ "ticker" → n ≠ "direction" → HasType n (.dbl x) := by
      intro n x a b; unfold HasType; rw [if_neg a, if_neg b]; exact ⟨x, rfl⟩
    have hdir : ∀ d, HasType "direction" (.dir d : Param F) := by intro d; simp [HasType]
    cases f <;> simp [needed, strikeNames] at hn <;> simp only [PayoffOf, BarrierOf] at h5 h6
    case doubleDigital =>
      obtain ⟨a, b, e1, e2, -⟩ := h5
      rcases hn with rfl | rfl | rfl | rfl
      exacts [⟨_, h2, ht⟩, ⟨_, h3, hd _ _ (by decide) (by decide)⟩,
        ⟨_, e1, hd _ _ (by decide) (by decide)⟩, ⟨_, e2, hd _ _ (by decide) (by decide)⟩]
    case floatingLookback =>
      rcases hn with rfl | rfl
      exacts [⟨_, h2, ht⟩, ⟨_, h3, hd _ _ (by decide) (by decide)⟩]
    case knockIn =>
      obtain ⟨k, e1, -⟩ := h5
      obtain ⟨B, d, e2, e3, -⟩ := h6
      rcases hn with rfl | rfl | rfl | rfl | rfl
      exacts [⟨_, h2, ht⟩, ⟨_, h3, hd _ _ (by decide) (by decide)⟩,
        ⟨_, e1, hd _ _ (by decide) (by decide)⟩, ⟨_, e2, hd _ _ (by decide) (by decide)⟩,
        ⟨_, e3, hdir d⟩]
    case knockOut =>
      obtain ⟨k, e1, -⟩ := h5
      obtain ⟨B, d, e2, e3, -⟩ := h6
      rcases hn with rfl | rfl | rfl | rfl | rfl
      exacts [⟨_, h2, ht⟩, ⟨_, h3, hd _ _ (by decide) (by decide)⟩,
        ⟨_, e1, hd _ _ (by decide) (by decide)⟩, ⟨_, e2, hd _ _ (by decide) (by decide)⟩,
        ⟨_, e3, hdir d⟩]
    all_goals
      obtain ⟨k, e1, -⟩ := h5
      rcases hn with rfl | rfl | rfl
      exacts [⟨_, h2, ht⟩, ⟨_, h3, hd _ _ (by decide) (by decide)⟩,
        ⟨_, e1, hd _ _ (by decide) (by decide)⟩]
  cases h with
  | missing name hn h => obtain ⟨v, e, -⟩ := hneed name hn; rw [h] at e; cases e
  | wrongType name v hn h ht =>
    obtain ⟨w, e, e'⟩ := hneed name hn
    rw [h] at e; cases e; exact ht e'
  | strike k h hk hn =>
    cases f <;> simp [needed, strikeNames] at hn <;> simp only [PayoffOf] at h5
    all_goals
      obtain ⟨k', e1, e2, -⟩ := h5
      rw [h] at e1; cases e1; rw [hk] at e2; cases e2
  | lowerStrike k h hk hn =>
    cases f <;> simp [needed, strikeNames] at hn
    obtain ⟨a, b, e1, -, e2, -⟩ := h5
    rw [h] at e1; cases e1; rw [hk] at e2; cases e2
  | upperStrike k h hk hn =>
    cases f <;> simp [needed, strikeNames] at hn
    obtain ⟨a, b, -, e1, -, e2, -⟩ := h5
    rw [h] at e1; cases e1; rw [hk] at e2; cases e2
  | maturity T h hT => rw [h] at h3; cases h3; rw [hT] at h4; cases h4
  | ticker t h ht =>
    rw [h] at h2; cases h2
    obtain ⟨v, hv⟩ := h7
    rw [hv] at ht; simp at ht

/-- The line that should describe a parameter in the help text. -/
def helpLine (name : String) : String :=
  if name = "ticker" then "  - ticker (string) for ticker symbol\n"
  else if name = "T" then "  - T (double) for maturity\n"
  else if name = "K" then "  - K (double) for strike\n"
  else if name = "K1" then "  - K1 (double) for 1st strike\n"
  else if name = "K2" then "  - K2 (double) for 2nd strike"
  else "  - " ++ name ++ "\n"

/-- The help text that lists the parameters `names` of a product. -/
def helpFor (product : String) (names : List String) : String :=
  (names.map helpLine).foldl (· ++ ·)
    ("Invalid parameters for " ++ product ++ "\nExpected parameters:\n")

/-- C17, partial: the help text lists the required parameters of every product except the floating
lookback and the barrier options. -/
theorem C17_helpText_partial (f : Factory) (ty : PayoffType)
    (hf : f ≠ .floatingLookback ∧ f ≠ .knockIn ∧ f ≠ .knockOut) :
    f.invalidParams (f.getType ty) = helpFor (f.getType ty) (needed f) := by
  generalize f.getType ty = t
  unfold Factory.invalidParams
  cases f <;> simp at hf <;> simp [helpFor, needed, strikeNames, helpLine]

/-- C17 fails: for the floating lookback and the barrier options the help text lists exactly
`ticker`, `T` and `K`, although the first needs no strike and the others also need `B` and
`direction`. -/
theorem C17_helpText_fails (f : Factory) (ty : PayoffType)
    (hf : f = .floatingLookback ∨ f = .knockIn ∨ f = .knockOut) :
    f.invalidParams (f.getType ty) = helpFor (f.getType ty) ["ticker", "T", "K"] ∧
    (f = .floatingLookback → "K" ∉ needed f) ∧
    (f = .knockIn ∨ f = .knockOut → "B" ∈ needed f ∧ "direction" ∈ needed f) := by
  refine ⟨?_, ?_, ?_⟩
  · generalize f.getType ty = t
    unfold Factory.invalidParams
    rcases hf with rfl | rfl | rfl <;> simp [helpFor, helpLine]
  · rintro rfl; decide
  · rintro (rfl | rfl) <;> decide

example : ¬ IsOk (outcome (init : Market ℝ) (.createOption .knockIn [.K]
    [.ticker, .T, .B, .direction] knockInParams .call)) := by
  rw [C16_successIff _ _ _ _ (by decide) (by decide) _ _ (.inl rfl)]
  rintro ⟨o, -, v, h⟩
  cases h

/-! ## C18 -/

theorem beqTail {m : Market F} (hm : m.WF) (t t' : String) :
    ((do
      let pa ← Market.getStockData t
      let pb ← Market.getStockData t'
      compareData pa pb : Eff (Market F) Bool) m) =
    match m.lookup t, m.lookup t' with
    | some d, some d' => (.ok (StockData.beq d d'), m)
    | none, _ => (invalidArg (t ++ " Stock data not found."), m)
    | _, none => (invalidArg (t' ++ " Stock data not found."), m) := by
  cases hp : mapFind t m.stockDataMap with
  | none =>
    have h1 : Market.getStockData t m = (invalidArg (t ++ " Stock data not found."), m) := by
      simp [Market.getStockData, hp]
    rw [Eff.bind_of_throw h1]
    simp [lookup, hp, invalidArg]
  | some p =>
    have h1 : Market.getStockData t m = (.ok p, m) := by simp [Market.getStockData, hp]
    rw [Eff.bind_of_ok h1]
    obtain ⟨d, hd, hd'⟩ := hm.lookup_some hp
    rw [hd']
    cases hq : mapFind t' m.stockDataMap with
    | none =>
      have h2 : Market.getStockData t' m = (invalidArg (t' ++ " Stock data not found."), m) := by
        simp [Market.getStockData, hq]
      rw [Eff.bind_of_throw h2]
      simp [lookup, hq, invalidArg]
    | some q =>
      have h2 : Market.getStockData t' m = (.ok q, m) := by simp [Market.getStockData, hq]
      rw [Eff.bind_of_ok h2]
      obtain ⟨d', he, he'⟩ := hm.lookup_some hq
      rw [he']
      simp [compareData, hd, he]

/-- The conditions under which `==` answers true, in a reachable state: equal maturities, equal
payoffs, and equal *data* of the two underlyings. -/
theorem optionEq_iff {R : Rounding} (h : List (Call (Dbl R))) (a b : OptObj (Dbl R)) :
    OptionModel.beq a b (run init h) = (.ok true, run init h) ↔
      NumEq a.T b.T ∧ Payoff.beq a.payoff b.payoff = true ∧
      ∃ d d', data h.reverse a.ticker = some d ∧ data h.reverse b.ticker = some d' ∧
        StockData.beq d d' = true := by
  have hT : Fl.eqb a.T b.T = true ↔ NumEq a.T b.T := by
    rw [eqb_iff]; unfold NumEq
    cases a.T <;> cases b.T <;> simp [eq_comm]
  rw [← hT, ← run_lookup, ← run_lookup]
  have hwf := run_wf (F := Dbl R) init_wf h
  unfold OptionModel.beq
  cases h1 : Fl.eqb a.T b.T with
  | false => simp
  | true =>
    cases h2 : Payoff.beq a.payoff b.payoff with
    | false => simp
    | true =>
      simp only [Bool.not_true, Bool.false_eq_true, if_false, true_and]
      rw [beqTail hwf]
      cases h3 : (run init h).lookup a.ticker with
      | none => simp [invalidArg]
      | some d =>
        cases h4 : (run init h).lookup b.ticker with
        | none => simp [invalidArg]
        | some d' => simp

theorem step_created (m : Market F) (f : Factory) {ordP ordO : List Arg}
    (hP : ordP.Perm f.payoffArgs) (hO : ordO.Perm f.optionArgs) (kvs : List (String × Param F))
    {ty : PayoffType} (hty : ty = .call ∨ ty = .put) (o : OptObj F) (hc : Contract f kvs ty o)
    (hk : IsOk (outcome m (.getStockData o.ticker))) :
    step m (.createOption f ordP ordO kvs ty) = withOption m o := by
  have h := (createBody_ok_iff f hP hO kvs hty m o).mpr ⟨hc, hk⟩
  rw [step_createOption]
  rcases createOption_cases f ordP ordO (mkParams kvs) ty m with ⟨o', hb, hc⟩ | ⟨msg, hb, hc⟩
  · rw [hb] at h; cases h; rw [hc]
  · rw [hb] at h; cases h

theorem known_of_data (h : List (Call F)) (t : String) (hd : data h.reverse t ≠ none) :
    IsOk (outcome (run init h) (.getStockData t)) := by
  have := (C07_getStockData h t).1
  rw [data_ne_none_iff, everAdded_reverse] at hd
  exact this.mpr hd

/-- Parameters of a plain option. -/
noncomputable def plain {R : Rounding} (t : String) : List (String × Param (Dbl R)) :=
  [("ticker", .str t), ("T", .dbl (.num 1)), ("K", .dbl (.num 1)), ("B", .dbl (.num 2)),
   ("direction", .dir .up)]

/-- Two stocks with equal data, then two options. -/
noncomputable def twoOptions {R : Rounding} (f f' : Factory) (t t' : String) : List (Call (Dbl R)) :=
  [.addStock "A" (.num 1) (.num 0) none, .addStock "B" (.num 1) (.num 0) none,
   .createOption f f.payoffArgs f.optionArgs (plain t) .call,
   .createOption f' f'.payoffArgs f'.optionArgs (plain t') .call]

theorem twoOptions_objs {R : Rounding} (f f' : Factory) (t t' : String) (a b : OptObj (Dbl R))
    (ha : Contract f (plain t) .call a) (hb : Contract f' (plain t') .call b)
    (hat : a.ticker = "A" ∨ a.ticker = "B") (hbt : b.ticker = "A" ∨ b.ticker = "B") :
    (run init (twoOptions f f' t t')).objs.map (·.opt) = [some a, some b] := by
  let h2 : List (Call (Dbl R)) :=
    [.addStock "A" (.num 1) (.num 0) none, .addStock "B" (.num 1) (.num 0) none]
  let h3 := h2 ++ [.createOption f f.payoffArgs f.optionArgs (plain t) .call]
  have e3 : run init (twoOptions f f' t t') =
      step (run init h3) (.createOption f' f'.payoffArgs f'.optionArgs (plain t') .call) := rfl
  have e2 : run init h3 =
      step (run init h2) (.createOption f f.payoffArgs f.optionArgs (plain t) .call) := rfl
  have k2 : ∀ x : String, x = "A" ∨ x = "B" → IsOk (outcome (run init h2) (.getStockData x)) := by
    intro x hx
    refine known_of_data _ _ ?_
    rcases hx with rfl | rfl <;> simp [h2, data, Accepted]
  have k3 : ∀ x : String, x = "A" ∨ x = "B" → IsOk (outcome (run init h3) (.getStockData x)) := by
    intro x hx
    refine known_of_data _ _ ?_
    rcases hx with rfl | rfl <;> simp [h3, h2, data, Accepted]
  rw [e3, step_created _ f' (.refl _) (.refl _) _ (.inl rfl) b hb (k3 _ hbt), e2,
    step_created _ f (.refl _) (.refl _) _ (.inl rfl) a ha (k2 _ hat)]
  have o2 : (run (init : Market (Dbl R)) h2).objs = [] := by
    have : ∀ (m : Market (Dbl R)) (t : String),
        (step m (.addStock t (.num 1) (.num 0) none)).objs = m.objs := by
      intro m t
      rcases step_addStock_cases m t (.num 1 : Dbl R) (.num 0) none with ⟨-, -, h⟩ | ⟨-, -, h⟩ <;>
        rw [h] <;> rfl
    show (step (step init _) _).objs = []
    rw [this, this]; rfl
  simp [withOption, o2]

/-- C18 fails: two options on different tickers compare equal when the tickers happen to have the
same data. -/
theorem C18_fails_underlying (R : Rounding) :
    ∃ (h : List (Call (Dbl R))) (a b : OptObj (Dbl R)),
      (run init h).objs.map (·.opt) = [some a, some b] ∧ a.ticker ≠ b.ticker ∧
      OptionModel.beq a b (run init h) = (.ok true, run init h) := by
  refine ⟨twoOptions .european .european "A" "B", ⟨.european, "A", .vanilla .call (.num 1), .num 1, none⟩,
    ⟨.european, "B", .vanilla .call (.num 1), .num 1, none⟩, ?_, by simp, ?_⟩
  · refine twoOptions_objs _ _ _ _ _ _ ?_ ?_ (.inl rfl) (.inr rfl) <;>
      simp [Contract, PayoffOf, BarrierOf, plain, lastSet]
  · rw [optionEq_iff]
    refine ⟨⟨1, rfl, rfl⟩, by rw [beq_iff]; simp [NoNaNStrike], ⟨.num 1, .num 0, none⟩,
      ⟨.num 1, .num 0, none⟩, ?_, ?_, ?_⟩
    · simp [twoOptions, data, Accepted]
    · simp [twoOptions, data, Accepted]
    · rw [(C09_equivalence _ (⟨.num 1, .num 0, none⟩ : StockData (Dbl R))
        ⟨.num 1, .num 0, none⟩).1]; simp

/-- C18 fails: a knock-in option and an American option compare equal; class and barrier are
ignored. -/
theorem C18_fails_class (R : Rounding) :
    ∃ (h : List (Call (Dbl R))) (a b : OptObj (Dbl R)),
      (run init h).objs.map (·.opt) = [some a, some b] ∧ a.cls = .knockIn ∧ b.cls = .american ∧
      OptionModel.beq a b (run init h) = (.ok true, run init h) := by
  refine ⟨twoOptions .knockIn .american "A" "A",
    ⟨.knockIn, "A", .vanilla .call (.num 1), .num 1, some (.num 2, .up)⟩,
    ⟨.american, "A", .vanilla .call (.num 1), .num 1, none⟩, ?_, rfl, rfl, ?_⟩
  · refine twoOptions_objs _ _ _ _ _ _ ?_ ?_ (.inl rfl) (.inl rfl) <;>
      simp [Contract, PayoffOf, BarrierOf, plain, lastSet]
  · rw [optionEq_iff]
    refine ⟨⟨1, rfl, rfl⟩, by rw [beq_iff]; simp [NoNaNStrike], ⟨.num 1, .num 0, none⟩,
      ⟨.num 1, .num 0, none⟩, ?_, ?_, ?_⟩
    · simp [twoOptions, data, Accepted]
    · simp [twoOptions, data, Accepted]
    · rw [(C09_equivalence _ (⟨.num 1, .num 0, none⟩ : StockData (Dbl R))
        ⟨.num 1, .num 0, none⟩).1]; simp

/-- C18, partial: in every reachable state `==` answers true exactly when the maturities and payoffs
are equal and the data of the two underlyings are equal at that moment; then both options pay the
same on every input.  Missing compared with the property: it should also require the same ticker,
class and barrier (`C18_fails_underlying`, `C18_fails_class`). -/
theorem C18_equal_partial {R : Rounding} (h : List (Call (Dbl R))) (a b : OptObj (Dbl R)) :
    (OptionModel.beq a b (run init h) = (.ok true, run init h) ↔
      NumEq a.T b.T ∧ Payoff.beq a.payoff b.payoff = true ∧
      ∃ d d', data h.reverse a.ticker = some d ∧ data h.reverse b.ticker = some d' ∧
        StockData.beq d d' = true) ∧
    (OptionModel.beq a b (run init h) = (.ok true, run init h) →
      ∀ S X, Payoff.eval1 a.payoff S = Payoff.eval1 b.payoff S ∧
        Payoff.eval2 a.payoff S X = Payoff.eval2 b.payoff S X) :=
  ⟨optionEq_iff h a b, fun he S X =>
    C13_equalPayoffsPayTheSame _ _ ((optionEq_iff h a b).mp he).2.1 S X⟩

/-- C18, partial: in a fixed reachable state `==` is symmetric and transitive, and reflexive on
options without NaN whose ticker is known and has no NaN.  It is the relation of
`C18_equal_partial`, not the intended one. -/
theorem C18_equivalence_partial {R : Rounding} (h : List (Call (Dbl R)))
    (a b c : OptObj (Dbl R)) :
    let E := fun x y => OptionModel.beq x y (run init h) = (.ok true, run init h)
    (E a a ↔ a.T ≠ .nan ∧ NoNaNStrike a.payoff ∧ ∃ d, data h.reverse a.ticker = some d ∧
      d.price ≠ .nan ∧ d.sigma ≠ .nan ∧ d.coupon ≠ some .nan) ∧
    (E a b → E b a) ∧ (E a b → E b c → E a c) := by
  simp only [optionEq_iff]
  refine ⟨?_, ?_, ?_⟩
  · have hT : NumEq a.T a.T ↔ a.T ≠ .nan := by unfold NumEq; cases a.T <;> simp
    rw [hT, beq_iff]
    simp only [true_and]
    refine and_congr_right fun _ => and_congr_right fun _ => ?_
    constructor
    · rintro ⟨d, d', h1, h2, h3⟩
      rw [h1] at h2; cases h2
      exact ⟨d, h1, (C09_equivalence d d d).1.mp h3⟩
    · rintro ⟨d, h1, h2⟩
      exact ⟨d, d, h1, h1, (C09_equivalence d d d).1.mpr h2⟩
  · rintro ⟨⟨e, h1, h2⟩, h3, d, d', h4, h5, h6⟩
    exact ⟨⟨e, h2, h1⟩, (C13_equivalence _ _ a.payoff).2.1 h3, d', d, h5, h4,
      (C09_equivalence d d' d).2.1 h6⟩
  · rintro ⟨⟨e, h1, h2⟩, h3, d, d', h4, h5, h6⟩ ⟨⟨e', g1, g2⟩, g3, d1, d1', g4, g5, g6⟩
    rw [h2] at g1; cases g1
    rw [h5] at g4; cases g4
    exact ⟨⟨e, h1, g2⟩, (C13_equivalence _ _ _).2.2.1 h3 g3, d, d1', h4, g5,
      (C09_equivalence _ _ _).2.2 h6 g6⟩

end Verif.Props
