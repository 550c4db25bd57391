import Verif.Lemmas.Embed
import Verif.Spec.SystemSpec
import Verif.Lemmas.MonteCarlo
import Verif.Props.Observers

/-!
# Property C72: pricing reads the current market data and changes nothing but its generator
-/

namespace Verif
open Spec SysCall

section
variable {E Q F : Type} [Fl F] [Add F] [Sub F] [Mul F] [Div F] [Neg F] [FlInt F] [FlInf F] (env : Env E Q F)

theorem bind_unit_state {σ α : Type} (x : Eff σ α) (s : σ) : ((do let _ ← x : Eff σ Unit) s).2 = (x s).2 := by
  rcases h : x s with ⟨r, s'⟩
  cases r with
  | ok a => rw [Eff.bind_of_ok h]; rfl
  | throw e => rw [Eff.bind_of_throw h]
  | ub => rw [Eff.bind_of_ub h]

theorem TouchesOnly.market {α : Type} {g : ℕ} {x : Eff (Sys E Q F) α} (h : TouchesOnly g x) (s : Sys E Q F) : (x s).2.market = s.market := by
  rcases h s with h | ⟨o, h⟩ <;> rw [h]
  rfl

theorem TouchesOnly.gens {α : Type} {g : ℕ} {x : Eff (Sys E Q F) α} (h : TouchesOnly g x) (s : Sys E Q F) {g' : ℕ} (hg : g ≠ g') :
    (x s).2.gens[g']? = s.gens[g']? := by
  rcases h s with h | ⟨o, h⟩ <;> rw [h]
  simp [Sys.put, hg]

theorem construct_state (t : String) (g : ℕ) (k : StockData F → Res (ModelKind F)) (s : Sys E Q F) :
    (ModelObj.construct t g k s).2 = s := by
  unfold ModelObj.construct
  cases h : mapFind t s.market.stockDataMap with
  | none => rw [Eff.bind_of_throw (s' := s) (e := ⟨.invalidArgument, t ++ " Stock data not found."⟩)
      (by simp [Sys.onMarket, Market.getStockData, h, invalidArg])]
  | some p =>
    rw [Eff.bind_of_ok (s' := s) (a := p) (by simp [Sys.onMarket, Market.getStockData, h])]
    cases h' : s.market.heap[p]? with
    | none => rw [Eff.bind_of_ub (s' := s) (by simp [Sys.onMarket, Market.deref, h'])]
    | some d =>
      rw [Eff.bind_of_ok (s' := s) (a := d) (by simp [Sys.onMarket, Market.deref, h'])]
      rcases hk : k d with kk | e | _
      · rw [Eff.bind_of_ok (s' := s) (a := kk) (by simp [hk])]; rfl
      · rw [Eff.bind_of_throw (s' := s) (e := e) (by simp [hk])]
      · rw [Eff.bind_of_ub (s' := s) (by simp [hk])]

theorem defaultModel_state (rd : ℕ) (md : Bool) (t : String) (s : Sys E Q F) :
    ∃ o, (Builder.defaultModel env rd md t s).2 = { s with gens := s.gens ++ [o] } := by
  refine ⟨.pseudo (Pseudo.constructRd env.engine 52 rd), ?_⟩
  unfold Builder.defaultModel
  have : Sys.newGen (.pseudo (Pseudo.constructRd env.engine 52 rd)) s =
      (.ok s.gens.length, { s with gens := s.gens ++ [.pseudo (Pseudo.constructRd env.engine 52 rd)] }) := rfl
  rw [Eff.bind_of_ok this]
  split
  · rw [construct_state]
  · rfl

theorem build_sys (rd : ℕ) (b : Builder F) (s : Sys E Q F) :
    (Builder.build env rd (b, s)).2.2 = s ∨ ∃ o, (Builder.build env rd (b, s)).2.2 = { s with gens := s.gens ++ [o] } := by
  unfold Builder.build
  simp only
  split
  · exact .inl rfl
  · split
    · exact .inl rfl
    · rename_i o _ _ _
      obtain ⟨g, hg⟩ := defaultModel_state env rd b.md o.ticker s
      split <;> rename_i h <;> rw [h] at hg <;> exact .inr ⟨g, hg⟩

/-- **C72.** The market data after a program are those after its calls on the market data alone: simulating, pricing and
building leave prices, rate, observers and notifications as they are, whatever their outcome. -/
theorem C72_market (h : List (SysCall E Q F)) (s : Sys E Q F) :
    (run env s h).market = World.run s.market (marketCalls h) := by
  induction h generalizing s with
  | nil => rfl
  | cons c h ih =>
    change (run env (step env s c) h).market = _
    rw [ih]
    have key : ∀ m, (step env s c).market = m → marketCalls [c] = [] → m = s.market →
        World.run (step env s c).market (marketCalls h) = World.run s.market (marketCalls (c :: h)) := by
      intro m h1 h2 h3
      have : marketCalls (c :: h) = marketCalls [c] ++ marketCalls h := by
        simp only [marketCalls, ← List.filterMap_append]; rfl
      rw [this, h2, h1, h3]; rfl
    cases c with
    | market c =>
      have : (step env s (.market c)).market = World.step s.market c := by
        unfold step exec
        rw [bind_unit_state]; rfl
      rw [this]
      rfl
    | newGenerator o => exact key _ rfl rfl (by unfold step exec; rw [bind_unit_state]; rfl)
    | draw g d => exact key _ rfl rfl (by unfold step exec; rw [bind_unit_state, (onGen_touches g _).market])
    | newModel t g k => exact key _ rfl rfl (by unfold step exec; rw [bind_unit_state, construct_state])
    | simulatePrices mo T => exact key _ rfl rfl (by unfold step exec; rw [bind_unit_state, (runPrices_touches env mo T).market])
    | simulatePriceAtMaturity mo T =>
      exact key _ rfl rfl (by unfold step exec; rw [bind_unit_state, (runMaturity_touches env mo T).market])
    | simulatePriceBackward mo S t t' =>
      exact key _ rfl rfl (by unfold step exec; rw [bind_unit_state, (runBackward_touches env mo S t t').market])
    | build b rd =>
      refine key _ rfl rfl ?_
      unfold step exec
      rcases build_sys env rd b s with h | ⟨o, h⟩ <;> simp only [h]
    | calculatePrice p N => exact key _ rfl rfl (by unfold step exec; rw [bind_unit_state, (calculatePrice_touches env p N).market])

/-- **C72.** A call changes no other generator than the one of the model it simulates. -/
theorem C72_generators (c : SysCall E Q F) (s : Sys E Q F) (g : ℕ) (hg : g < s.gens.length) (hc : drawsFrom c ≠ some g) :
    (step env s c).gens[g]? = s.gens[g]? := by
  cases c with
  | market c => unfold step exec; rw [bind_unit_state]; rfl
  | newGenerator o =>
    unfold step exec; rw [bind_unit_state]
    exact List.getElem?_append_left hg
  | draw g' d => unfold step exec; rw [bind_unit_state, (onGen_touches g' _).gens s (by simpa [drawsFrom] using hc)]
  | newModel t g k => unfold step exec; rw [bind_unit_state, construct_state]
  | simulatePrices mo T =>
    unfold step exec; rw [bind_unit_state, (runPrices_touches env mo T).gens s (by simpa [drawsFrom] using hc)]
  | simulatePriceAtMaturity mo T =>
    unfold step exec; rw [bind_unit_state, (runMaturity_touches env mo T).gens s (by simpa [drawsFrom] using hc)]
  | simulatePriceBackward mo S t t' =>
    unfold step exec; rw [bind_unit_state, (runBackward_touches env mo S t t').gens s (by simpa [drawsFrom] using hc)]
  | build b rd =>
    unfold step exec
    rcases build_sys env rd b s with h | ⟨o, h⟩ <;> simp only [h]
    exact List.getElem?_append_left hg
  | calculatePrice p N =>
    unfold step exec; rw [bind_unit_state, (calculatePrice_touches env p N).gens s (by simpa [drawsFrom] using hc)]

/-- **C72.** A price depends on nothing but the pricer, the number of paths, the stock data the model's pointer refers to, the
rate and the generator: it is the same as in a system that contains nothing else. -/
theorem C72_local (p : Pricer F) (N : ℕ) (s : Sys E Q F) (d : StockData F) (o : GenObj E Q F)
    (hd : s.market.heap[p.model.handle]? = some d) (ho : s.gens[p.model.gen]? = some o) :
    (p.calculatePrice env N s).1 = ((moved p).calculatePrice env N (alone p.model.ticker d s.market.r o)).1 ∧
    (p.calculatePrice env N s).2.gens[p.model.gen]? =
      ((moved p).calculatePrice env N (alone p.model.ticker d s.market.r o)).2.gens[0]? := by
  have hg : p.model.gen < s.gens.length := (List.getElem?_eq_some_iff.mp ho).1
  rw [Pricer.calculatePrice_eq env p N hd ho,
    Pricer.calculatePrice_eq env (moved p) N (s := alone p.model.ticker d s.market.r o) (d := d) (o := o) rfl rfl]
  exact ⟨rfl, by rw [Sys.put_get hg]; rfl⟩

theorem construct_inv {t : String} {g : ℕ} {k : StockData F → Res (ModelKind F)} {s : Sys E Q F} {mo : ModelObj F}
    (h : (ModelObj.construct t g k s).1 = .ok mo) : ∃ p d kk, mapFind t s.market.stockDataMap = some p ∧
      s.market.heap[p]? = some d ∧ k d = .ok kk ∧ mo = ⟨t, p, kk, g⟩ := by
  unfold ModelObj.construct at h
  cases h0 : mapFind t s.market.stockDataMap with
  | none =>
    rw [Eff.bind_of_throw (s' := s) (e := ⟨.invalidArgument, t ++ " Stock data not found."⟩)
      (by simp [Sys.onMarket, Market.getStockData, h0, invalidArg])] at h
    cases h
  | some p =>
    rw [Eff.bind_of_ok (s' := s) (a := p) (by simp [Sys.onMarket, Market.getStockData, h0])] at h
    cases h' : s.market.heap[p]? with
    | none => rw [Eff.bind_of_ub (s' := s) (by simp [Sys.onMarket, Market.deref, h'])] at h; cases h
    | some d =>
      rw [Eff.bind_of_ok (s' := s) (a := d) (by simp [Sys.onMarket, Market.deref, h'])] at h
      rcases hk : k d with kk | e | _
      · rw [Eff.bind_of_ok (s' := s) (a := kk) (by simp [hk])] at h
        cases h
        exact ⟨p, d, kk, rfl, h', hk, rfl⟩
      · rw [Eff.bind_of_throw (s' := s) (e := e) (by simp [hk])] at h; cases h
      · rw [Eff.bind_of_ub (s' := s) (by simp [hk])] at h; cases h

theorem construct_ok {t : String} {g p : ℕ} {k : StockData F → Res (ModelKind F)} {s : Sys E Q F} {d : StockData F} {kk : ModelKind F}
    (h0 : mapFind t s.market.stockDataMap = some p) (h1 : s.market.heap[p]? = some d) (h2 : k d = .ok kk) :
    ModelObj.construct t g k s = (.ok ⟨t, p, kk, g⟩, s) := by
  unfold ModelObj.construct
  rw [Eff.bind_of_ok (s' := s) (a := p) (by simp [Sys.onMarket, Market.getStockData, h0]),
    Eff.bind_of_ok (s' := s) (a := d) (by simp [Sys.onMarket, Market.deref, h1]),
    Eff.bind_of_ok (s' := s) (a := kk) (by simp [h2])]
  rfl

/-- **C72**, what holds: as long as the ticker is not added again and the data the constructor used are as before, a model
built earlier is the model one would build now, and its prices are computed from the values written last: they are
those in a system that contains this stock with these values, this rate and this generator, and nothing else.
Missing: re-adding (`C72_readded_fails`) and a changed volatility of a variance gamma model (`C72_omega_fails`). -/
theorem C72_current_partial (h h' : List (SysCall E Q F)) (gens : List (GenObj E Q F)) (t : String) (g : ℕ)
    (k : StockData F → Res (ModelKind F)) (mo : ModelObj F)
    (hm : (ModelObj.construct t g k (run env ⟨Market.init, gens⟩ h)).1 = .ok mo)
    (hn : ¬ EverAdded (marketCalls h') t)
    (hk : ∀ d d', data (marketCalls h).reverse t = some d → data (marketCalls (h ++ h')).reverse t = some d' → k d = k d') :
    let s := run env ⟨Market.init, gens⟩ (h ++ h')
    (ModelObj.construct t g k s).1 = .ok mo ∧
    ∃ d, data (marketCalls (h ++ h')).reverse t = some d ∧
      ∀ (p : Pricer F) (N : ℕ) (o : GenObj E Q F), p.model = mo → s.gens[g]? = some o →
        (p.calculatePrice env N s).1 =
          ((moved p).calculatePrice env N (alone t d (rate (marketCalls (h ++ h')).reverse) o)).1 := by
  intro s
  obtain ⟨q, d, kk, h1, h2, h3, rfl⟩ := construct_inv hm
  rw [C72_market] at h1 h2
  have e1 : World.outcome (World.run Market.init (marketCalls h)) (.getStockData t) = .ok (.handle q) := by
    rw [World.outcome_getStockData, h1]
  have ha : marketCalls (h ++ h') = marketCalls h ++ marketCalls h' := by simp [marketCalls]
  have hs : s.market = World.run Market.init (marketCalls h ++ marketCalls h') := by
    rw [← ha]; exact C72_market env _ _
  obtain ⟨e2, e3⟩ := Props.C06_handleCurrent_partial (marketCalls h) (marketCalls h') t q e1 hn
  rw [← hs] at e2 e3
  have f1 : mapFind t s.market.stockDataMap = some q := by
    rw [World.outcome_getStockData] at e2
    cases hx : mapFind t s.market.stockDataMap with
    | none => rw [hx] at e2; simp at e2
    | some q' => rw [hx] at e2; simpa using e2
  have hwf : s.market.WF := by rw [hs]; exact World.run_wf Market.init_wf _
  obtain ⟨d', f2, -⟩ := hwf.lookup_some f1
  have f3 : data (marketCalls (h ++ h')).reverse t = some d' := by
    have := (e3 d').mp (by simp [Market.deref, f2])
    rw [hs] at this
    rw [ha]
    exact ((Props.C01_lastWriteWins _ t).1 d').mp this
  have f4 : data (marketCalls h).reverse t = some d :=
    ((Props.C01_lastWriteWins _ t).1 d).mp ⟨q, e1, by simp [Market.deref, h2]⟩
  have f5 : k d' = .ok kk := (hk d d' f4 f3).symm.trans h3
  refine ⟨by rw [construct_ok f1 f2 f5], d', f3, fun p N o hp ho => ?_⟩
  have f6 : s.market.r = rate (marketCalls (h ++ h')).reverse := by
    have := (Props.C01_lastWriteWins (F := F) (marketCalls (h ++ h')) t).2.2
    rw [ha, ← hs] at this
    rw [ha]
    change Res.ok (Val.number s.market.r) = _ at this
    simpa using this
  have := (C72_local env p N s d' o (by rw [hp]; exact f2) (by rw [hp]; exact ho)).1
  rw [this, f6, hp]

/-- **C72**, extent of the first failure: once the ticker has been added again, the prices of a model built before are computed
for ever from the data the stock had when the model was built and last updated; only the rate is the current one. -/
theorem C72_frozen (h h' : List (SysCall E Q F)) (gens : List (GenObj E Q F)) (t : String) (g : ℕ)
    (k : StockData F → Res (ModelKind F)) (mo : ModelObj F)
    (hm : (ModelObj.construct t g k (run env ⟨Market.init, gens⟩ h)).1 = .ok mo)
    (S σ : F) (c : Option F) (ha : Accepted S σ c) :
    let s := run env ⟨Market.init, gens⟩ (h ++ .market (.addStock t S σ c) :: h')
    ∃ d, data (marketCalls h).reverse t = some d ∧
      ∀ (p : Pricer F) (N : ℕ) (o : GenObj E Q F), p.model = mo → s.gens[g]? = some o →
        (p.calculatePrice env N s).1 =
          ((moved p).calculatePrice env N (alone t d (rate (marketCalls (h ++ .market (.addStock t S σ c) :: h')).reverse) o)).1 := by
  intro s
  obtain ⟨q, d, kk, h1, h2, h3, rfl⟩ := construct_inv hm
  rw [C72_market] at h1 h2
  have e1 : World.outcome (World.run Market.init (marketCalls h)) (.getStockData t) = .ok (.handle q) := by
    rw [World.outcome_getStockData, h1]
  have hl : marketCalls (h ++ .market (.addStock t S σ c) :: h') = marketCalls h ++ .addStock t S σ c :: marketCalls h' := by
    simp [marketCalls]
  have hs : s.market = World.run Market.init (marketCalls h ++ .addStock t S σ c :: marketCalls h') := by
    rw [← hl]; exact C72_market env _ _
  have e2 := Props.C06_staleHandleFrozen (marketCalls h) (marketCalls h') t S σ c q e1 ha
  rw [← hs] at e2
  have f1 : s.market.heap[q]? = some d := by
    simp only [Market.deref, h2] at e2
    cases hx : s.market.heap[q]? with
    | none => simp [hx] at e2
    | some d' => simp [hx] at e2; rw [e2]
  have f4 : data (marketCalls h).reverse t = some d :=
    ((Props.C01_lastWriteWins _ t).1 d).mp ⟨q, e1, by simp [Market.deref, h2]⟩
  refine ⟨d, f4, fun p N o hp ho => ?_⟩
  have f6 : s.market.r = rate (marketCalls (h ++ .market (.addStock t S σ c) :: h')).reverse := by
    have := (Props.C01_lastWriteWins (F := F) (marketCalls (h ++ .market (.addStock t S σ c) :: h')) t).2.2
    rw [hl, ← hs] at this
    rw [hl]
    change Res.ok (Val.number s.market.r) = _ at this
    simpa using this
  have := (C72_local env p N s d o (by rw [hp]; exact f1) (by rw [hp]; exact ho)).1
  rw [this, f6, hp]

end

/-! ## Witnesses -/

namespace SystemExample

/-- An environment in which every draw is 0. -/
noncomputable def env : Env Unit Unit ℝ where
  engine := ⟨(), fun _ => (), fun _ _ => (0, ()), fun _ _ => ()⟩
  sobol := ⟨fun _ _ => .ok (), fun _ => (.ok [], ()), 1⟩
  faure := ⟨fun _ _ => .ok (), fun _ => (.ok [], ()), 1⟩

/-- A generator of one step. -/
def gens : List (GenObj Unit Unit ℝ) := [.pseudo ⟨1, 0, ()⟩]

/-- A pricer for a European call with strike 0 and maturity 1. -/
def pricer (mo : ModelObj ℝ) : Pricer ℝ :=
  ⟨.singlePath, ⟨.european, "A", .vanilla .call 0, 1, none⟩, mo, ⟨fun _ => .ub, fun _ _ => .ub⟩, true⟩

theorem price [FlInf ℝ] (mo : ModelObj ℝ) (hg : mo.gen = 0) (m : Market ℝ) (d : StockData ℝ) (hd : m.heap[mo.handle]? = some d) (x : ℝ)
    (hx : Sim.maturity (GenObj.gen env) 1 (ModelObj.seen d m.r) 1 mo.kind (.pseudo ⟨1, 0, ()⟩) = (.ok x, .pseudo ⟨1, 0, ()⟩)) :
    ((pricer mo).calculatePrice env 1 ⟨m, gens⟩).1 = .ok (max x 0 * Real.exp (-m.r)) := by
  rw [Pricer.calculatePrice_eq env (pricer mo) 1 (s := ⟨m, gens⟩) (d := d) (o := .pseudo ⟨1, 0, ()⟩) hd (by simp [pricer, gens, hg])]
  have hp : Pays (Payoff.vanilla PayoffType.call (0 : ℝ)).eval1 [x] [max x 0] := by
    refine .cons ?_ .nil
    simp [Payoff.eval1]
  have := MC.intPricer_ok (getR := (Pure.pure m.r : Eff (GenObj Unit Unit ℝ) ℝ)) (T := 1) (r := m.r) (by simp [INT_MAX]) rfl (.cons hx (.nil _)) hp
  simp only [List.length_singleton] at this
  refine (congrArg Prod.fst this).trans ?_
  simp

theorem step_market [FlInf ℝ] (m : Market ℝ) (c : Call ℝ) : SysCall.step env ⟨m, gens⟩ (.market c) = ⟨World.step m c, gens⟩ := by
  unfold SysCall.step SysCall.exec
  rw [bind_unit_state]
  rfl

theorem addStock (m : Market ℝ) (S σ : ℝ) (h : 0 < S) (h' : 0 ≤ σ) : World.step m (.addStock "A" S σ none) =
    { m with heap := m.heap ++ [⟨S, σ, none⟩], stockDataMap := mapAssign "A" m.heap.length m.stockDataMap } := by
  rcases World.step_addStock_cases m "A" S σ none with ⟨-, -, e⟩ | ⟨e, -⟩
  · exact e
  · exact absurd (by simp [Accepted, h, h']) e

/-- The state of the generator. -/
abbrev st : GenObj Unit Unit ℝ := .pseudo ⟨1, 0, ()⟩

theorem newDist_st (d : Dist ℝ) : Sim.newDist (GenObj.gen env) (.ok d) st = (.ok d, st) := rfl
theorem draw_st (d : Dist ℝ) : Sim.draw (GenObj.gen env) d st = (.ok 0, st) := rfl

theorem unfoldInt_one {σ α β : Type} {body : α → Eff σ (α × β)} {a a' : α} {b : β} {s s' : σ} (h : body a s = (.ok (a', b), s')) :
    Eff.unfoldInt body 1 a s = (.ok [b], s') := by
  have h1 : Eff.unfoldN body 1 a s = (.ok [b], s') := by
    unfold Eff.unfoldN
    rw [Eff.bind_of_ok h]
    rfl
  unfold Eff.unfoldInt
  rw [show min 1 (INT_MAX + 1) = 1 from rfl, Eff.bind_of_ok h1]
  rfl

theorem maturity_gbm (v : View ℝ) (h0 : v.sigma = 0) (h1 : v.coupon = none) (h2 : v.r = 0) :
    Sim.maturity (GenObj.gen env) 1 v 1 .gbm st = (.ok v.price, st) := by
  have e1 : Sim.gbmStep (GenObj.gen env) v (Sim.dt 1 1) .stdNormal v.price st = (.ok (v.price, v.price), st) := by
    unfold Sim.gbmStep
    rw [Eff.bind_of_ok (draw_st _)]
    simp [Sim.gbmUpdate, View.c, h0, h1, h2]
  have e2 : Sim.prices (GenObj.gen env) 1 v 1 .gbm st = (.ok [v.price], st) := by
    change Sim.gbm _ _ _ _ _ = _
    unfold Sim.gbm
    rw [Eff.bind_of_ok (newDist_st _)]
    exact unfoldInt_one e1
  unfold Sim.maturity
  rw [Eff.bind_of_ok e2]
  rfl

theorem maturity_vg (v : View ℝ) (h0 : v.price = 1) (h1 : v.coupon = none) (h2 : v.r = 0) (omega : ℝ) :
    Sim.maturity (GenObj.gen env) 1 v 1 (.varianceGamma 1 0 omega) st = (.ok (Real.exp omega), st) := by
  have e0 : Dist.mkGamma (Sim.dt (1 : ℝ) 1 / 1) 1 = .ok (.gamma 1 1) := by simp [Dist.mkGamma, Sim.dt]
  have e1 : Sim.vgStep (GenObj.gen env) v 0 omega (Sim.dt 1 1) (.gamma 1 1) .stdNormal v.price st =
      (.ok (Real.exp omega, Real.exp omega), st) := by
    unfold Sim.vgStep
    rw [Eff.bind_of_ok (draw_st _), Eff.bind_of_ok (draw_st _)]
    simp [Sim.vgUpdate, View.c, h0, h1, h2, Sim.dt]
  have e2 : Sim.prices (GenObj.gen env) 1 v 1 (.varianceGamma 1 0 omega) st = (.ok [Real.exp omega], st) := by
    change Sim.varianceGamma _ _ _ _ _ _ _ _ = _
    unfold Sim.varianceGamma
    rw [Eff.bind_of_ok (newDist_st _), e0, Eff.bind_of_ok (newDist_st _)]
    exact unfoldInt_one e1
  unfold Sim.maturity
  rw [Eff.bind_of_ok e2]
  rfl

end SystemExample

open SystemExample in
/-- **C72**, refuted for a ticker that is added again: the model built before goes on using the old data, a model built now
gives another price. -/
theorem C72_readded_fails [FlInf ℝ] : ∃ (h h' : List (SysCall Unit Unit ℝ)) (mo mo' : ModelObj ℝ) (x x' : ℝ),
    (ModelObj.construct "A" 0 (fun _ => .ok .gbm) (run env ⟨Market.init, gens⟩ h)).1 = .ok mo ∧
    (ModelObj.construct "A" 0 (fun _ => .ok .gbm) (run env ⟨Market.init, gens⟩ (h ++ h'))).1 = .ok mo' ∧
    ((pricer mo).calculatePrice env 1 (run env ⟨Market.init, gens⟩ (h ++ h'))).1 = .ok x ∧
    ((pricer mo').calculatePrice env 1 (run env ⟨Market.init, gens⟩ (h ++ h'))).1 = .ok x' ∧ x ≠ x' := by
  let h : List (SysCall Unit Unit ℝ) := [.market (.setR 0), .market (.addStock "A" 1 0 none)]
  let h' : List (SysCall Unit Unit ℝ) := [.market (.addStock "A" 2 0 none)]
  let m0 : Market ℝ := ⟨[], [], 0, [], [], []⟩
  have hs : run env ⟨Market.init, gens⟩ h = ⟨⟨[⟨1, 0, none⟩], [("A", 0)], 0, [], [], []⟩, gens⟩ := by
    simp only [h, run, List.foldl, step_market, addStock, zero_lt_one, le_refl]
    rfl
  have hs' : run env ⟨Market.init, gens⟩ (h ++ h') = ⟨⟨[⟨1, 0, none⟩, ⟨2, 0, none⟩], [("A", 1)], 0, [], [], []⟩, gens⟩ := by
    have : run env ⟨Market.init, gens⟩ (h ++ h') = run env (run env ⟨Market.init, gens⟩ h) h' := by simp [run]
    rw [this, hs]
    simp only [h', run, List.foldl, step_market, addStock, zero_lt_two, le_refl]
    rfl
  refine ⟨h, h', ⟨"A", 0, .gbm, 0⟩, ⟨"A", 1, .gbm, 0⟩, 1, 2, ?_, ?_, ?_, ?_, by norm_num⟩
  · rw [hs]; rfl
  · rw [hs']; rfl
  · rw [hs', price _ rfl _ ⟨1, 0, none⟩ rfl 1]
    · simp
    · exact maturity_gbm _ rfl rfl rfl
  · rw [hs', price _ rfl _ ⟨2, 0, none⟩ rfl 2]
    · simp
    · exact maturity_gbm _ rfl rfl rfl

open SystemExample in
/-- **C72**, refuted for the variance gamma model after `updateStockSigma`: the model keeps the drift correction of the old
volatility, a model built now gives another price. -/
theorem C72_omega_fails [FlInf ℝ] : ∃ (h h' : List (SysCall Unit Unit ℝ)) (mo mo' : ModelObj ℝ) (x x' : ℝ),
    let k := fun d : StockData ℝ => ModelKind.mkVarianceGamma d.sigma 1 0
    ¬ EverAdded (marketCalls h') "A" ∧
    (ModelObj.construct "A" 0 k (run env ⟨Market.init, gens⟩ h)).1 = .ok mo ∧
    (ModelObj.construct "A" 0 k (run env ⟨Market.init, gens⟩ (h ++ h'))).1 = .ok mo' ∧
    ((pricer mo).calculatePrice env 1 (run env ⟨Market.init, gens⟩ (h ++ h'))).1 = .ok x ∧
    ((pricer mo').calculatePrice env 1 (run env ⟨Market.init, gens⟩ (h ++ h'))).1 = .ok x' ∧ x ≠ x' := by
  let h : List (SysCall Unit Unit ℝ) := [.market (.setR 0), .market (.addStock "A" 1 0 none)]
  let h' : List (SysCall Unit Unit ℝ) := [.market (.updateSigma "A" 1)]
  have hs : run env ⟨Market.init, gens⟩ h = ⟨⟨[⟨1, 0, none⟩], [("A", 0)], 0, [], [], []⟩, gens⟩ := by
    simp only [h, run, List.foldl, step_market, addStock, zero_lt_one, le_refl]
    rfl
  have hs' : run env ⟨Market.init, gens⟩ (h ++ h') = ⟨⟨[⟨1, 1, none⟩], [("A", 0)], 0, [], [], []⟩, gens⟩ := by
    have : run env ⟨Market.init, gens⟩ (h ++ h') = run env (run env ⟨Market.init, gens⟩ h) h' := by simp [run]
    rw [this, hs]
    simp only [h', run, List.foldl, step_market]
    congr 1
    simp [World.step, World.exec, Market.updateStockSigma, Market.updateWith, mapFind, StockData.setSigma, StockData.validate,
      Market.notifyObserver, Market.notifyObserversLoop, Eff.bind_apply]
    rw [if_neg (by norm_num), if_neg (by norm_num)]
    rfl
  refine ⟨h, h', ⟨"A", 0, .varianceGamma 1 0 0, 0⟩, ⟨"A", 0, .varianceGamma 1 0 (Real.log (1 / 2)), 0⟩, 1, 1 / 2, ?_, ?_, ?_, ?_, ?_,
    by norm_num⟩
  · rintro ⟨S, s, c, h1, -⟩
    simp [h', marketCalls] at h1
  · rw [hs, construct_ok (p := 0) (d := ⟨1, 0, none⟩) rfl rfl]
    simp [ModelKind.mkVarianceGamma]
  · rw [hs', construct_ok (p := 0) (d := ⟨1, 1, none⟩) rfl rfl]
    norm_num [ModelKind.mkVarianceGamma]
  · rw [hs', price _ rfl _ ⟨1, 1, none⟩ rfl 1]
    · simp
    · exact (maturity_vg _ rfl rfl rfl 0).trans (by simp)
  · rw [hs', price _ rfl _ ⟨1, 1, none⟩ rfl (1 / 2)]
    · simp
    · exact (maturity_vg _ rfl rfl rfl _).trans (by rw [Real.exp_log (by norm_num)])

/-! ## Examples -/

open SystemExample

/-- A program: rate, stock, prices with a model built between, a changed price, a new rate. -/
noncomputable def SystemExample.before : List (SysCall Unit Unit ℝ) := [.market (.setR 0), .market (.addStock "A" 1 0 none)]
/-- The rest of the program. -/
noncomputable def SystemExample.after : List (SysCall Unit Unit ℝ) :=
  [.calculatePrice (pricer ⟨"A", 0, .gbm, 0⟩) 1, .market (.updatePrice "A" 3), .newGenerator (.pseudo ⟨5, 0, ()⟩),
    .market (.setR 1), .simulatePrices ⟨"A", 0, .gbm, 0⟩ 1]

theorem SystemExample.run_before [FlInf ℝ] : run env ⟨Market.init, gens⟩ before = ⟨⟨[⟨1, 0, none⟩], [("A", 0)], 0, [], [], []⟩, gens⟩ := by
  simp only [before, run, List.foldl, step_market, addStock, zero_lt_one, le_refl]
  rfl

example : marketCalls SystemExample.after = [.updatePrice "A" 3, .setR 1] := rfl

-- C72_generators: pricing with generator 0 leaves generator 1 alone.
example : drawsFrom (E := Unit) (Q := Unit) (.calculatePrice (pricer ⟨"A", 0, .gbm, 0⟩) 1) ≠ some 1 := by simp [drawsFrom, pricer]

-- C72_local, C72_current_partial, C72_frozen: the hypotheses hold for this program.
example [FlInf ℝ] : (run env ⟨Market.init, gens⟩ before).market.heap[(pricer ⟨"A", 0, .gbm, 0⟩).model.handle]? = some ⟨1, 0, none⟩ ∧
    (run env ⟨Market.init, gens⟩ before).gens[(pricer ⟨"A", 0, .gbm, 0⟩).model.gen]? = some st := by
  rw [run_before]; exact ⟨rfl, rfl⟩
example [FlInf ℝ] : (ModelObj.construct "A" 0 (fun _ => .ok .gbm) (run env ⟨Market.init, gens⟩ before)).1 = .ok ⟨"A", 0, .gbm, 0⟩ := by
  rw [run_before]; rfl
example : ¬ EverAdded (marketCalls SystemExample.after) "A" := by
  rintro ⟨S, s, c, h, -⟩
  simp [SystemExample.after, marketCalls] at h
example [FlInf ℝ] : ∃ d, data (marketCalls (before ++ SystemExample.after)).reverse "A" = some d ∧ d = ⟨3, 0, none⟩ := by
  refine ⟨_, ?_, rfl⟩
  simp [before, SystemExample.after, marketCalls, data, Accepted]
example : Accepted (2 : ℝ) 0 none := by simp [Accepted]

end Verif
