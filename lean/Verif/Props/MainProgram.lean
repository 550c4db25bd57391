import Verif.Spec.MainSpec
import Verif.Props.Session
import Verif.Props.QuasiMonteCarlo

/-!
# Property C78: the program `main`
-/

set_option linter.unusedSectionVars false

namespace Verif
open MeasureTheory ProbabilityTheory Spec

section
variable {E Q F : Type} [Fl F] [Add F] [Sub F] [Mul F] [Div F] [Neg F] [FlInt F] [FlInf F] (env : Env E Q F)

/-! ## The calls of the set-up -/

/-- The system knows the stock: pointer, data, rate. -/
structure Knows (s : Sys E Q F) (t : String) (h : ℕ) (d : StockData F) (r : F) : Prop where
  find : mapFind t s.market.stockDataMap = some h
  heap : s.market.heap[h]? = some d
  rate : s.market.r = r

theorem Knows.construct {s : Sys E Q F} {t : String} {h : ℕ} {d : StockData F} {r : F} (hs : Knows s t h d r) (g : ℕ)
    {kind : StockData F → Res (ModelKind F)} {k : ModelKind F} (hk : kind d = .ok k) :
    ModelObj.construct t g kind s = (.ok ⟨t, h, k, g⟩, s) := by
  have e1 : Sys.onMarket (Market.getStockData t) s = (.ok h, s) := by simp [Sys.onMarket, Market.getStockData, hs.find]
  have e2 : Sys.onMarket (Market.deref h) s = (.ok d, s) := by simp [Sys.onMarket, Market.deref, hs.heap]
  unfold ModelObj.construct
  rw [Eff.bind_of_ok e1, Eff.bind_of_ok e2, Eff.bind_of_ok (show Eff.lift (kind d) s = (.ok k, s) by rw [hk]; rfl)]
  rfl

theorem Knows.newGen {s : Sys E Q F} {t : String} {h : ℕ} {d : StockData F} {r : F} (hs : Knows s t h d r) (l : List (GenObj E Q F)) :
    Knows { s with gens := l } t h d r := ⟨hs.find, hs.heap, hs.rate⟩

theorem Knows.newOption {s : Sys E Q F} {t : String} {h : ℕ} {d : StockData F} {r : F} (hs : Knows s t h d r) {c : MainChoices} {f : Factory}
    (hP : (c.ordP f).Perm f.payoffArgs) (hO : (c.ordO f).Perm f.optionArgs) {i : MainData F} {ty : PayoffType} (hty : ty = .call ∨ ty = .put)
    {o : OptObj F} (ho : Contract f (MainProgram.params i) ty o) (ht : o.ticker = t) :
    MainProgram.newOption c f i ty s = (.ok o, { s with market := OptionModel.withOption s.market o }) ∧
      Knows { s with market := OptionModel.withOption s.market o } t h d r := by
  have hbody : OptionModel.createBody f (c.ordP f) (c.ordO f) (World.mkParams (MainProgram.params i)) ty s.market = (.ok o, s.market) := by
    rw [OptionModel.createBody_ok_iff f hP hO _ hty]
    refine ⟨ho, ?_⟩
    rw [ht]
    have : (do let p ← Market.getStockData t; return Val.handle p : Eff (Market F) (Val F)) s.market = (.ok (.handle h), s.market) := by
      rw [Eff.bind_of_ok (show Market.getStockData t s.market = (.ok h, s.market) by unfold Market.getStockData; rw [hs.find])]
      rfl
    exact ⟨_, congrArg Prod.fst this⟩
  have hcreate : OptionModel.createOption f (c.ordP f) (c.ordO f) (World.mkParams (MainProgram.params i)) ty s.market =
      (.ok s.market.objs.length, OptionModel.withOption s.market o) := by
    rcases OptionModel.createOption_cases f (c.ordP f) (c.ordO f) (World.mkParams (MainProgram.params i)) ty s.market with ⟨o', h1, h2⟩ | ⟨msg, h1, h2⟩
    · rw [hbody] at h1
      cases h1
      exact h2
    · rw [hbody] at h1
      cases h1
  refine ⟨?_, hs.find, hs.heap, hs.rate⟩
  unfold MainProgram.newOption
  rw [Eff.bind_of_ok (show Sys.onMarket (OptionModel.createOption f (c.ordP f) (c.ordO f) (World.mkParams (MainProgram.params i)) ty) s =
    (.ok s.market.objs.length, { s with market := OptionModel.withOption s.market o }) by unfold Sys.onMarket; rw [hcreate])]
  unfold Session.optionAt
  simp [OptionModel.withOption]

theorem buildWith_eq (rd : ℕ) {b : Builder F} (hb : b.md = true) {o : OptObj F} (hc : Builder.casts b.cls o.cls = true) (mo : ModelObj F) (s : Sys E Q F) :
    MainProgram.buildWith env rd b o mo s = (.ok (⟨b.cls, o, mo, b.strat, true⟩, { b with option := some o, model := some mo }), s) := by
  have : Builder.setOption (some o) b = (.ok (), { b with option := some o }) := by
    simp [Builder.setOption, Option.filter, hc]
  unfold MainProgram.buildWith
  rw [this]
  simp [Builder.build, Builder.setStockPriceModel, hb]

theorem main_contract {i : MainData F} (h1 : Fl.lt i.K (lit 0) = false) (h2 : Fl.lt i.T (lit 0) = false) (ty : PayoffType) {f : OptClass}
    (hf : f = .european ∨ f = .american ∨ f = .arithmeticAsian) : Contract f (MainProgram.params i) ty ⟨f, i.ticker, .vanilla ty i.K, i.T, none⟩ := by
  rcases hf with rfl | rfl | rfl <;> exact ⟨rfl, rfl, rfl, h2, ⟨i.K, rfl, h1, rfl⟩, rfl⟩

theorem entered {S sigma : F} {coupon : Option F} {d : StockData F} (hd : StockData.construct S sigma coupon = .ok d) (t : String) (r : F) (s : Sys E Q F) :
    ∃ s₁ s₂ : Sys E Q F, Sys.onMarket (Market.addStock t S sigma coupon) s = (.ok (), s₁) ∧ Sys.onMarket (Market.setR r) s₁ = (.ok (), s₂) ∧
      Knows s₂ t s.market.heap.length d r ∧ s₂.gens = s.gens := by
  obtain ⟨m₁, hm₁⟩ : ∃ m₁ : Market F, m₁ = ⟨s.market.heap ++ [d], mapAssign t s.market.heap.length s.market.stockDataMap, s.market.r,
    s.market.observers, s.market.objs, s.market.log⟩ := ⟨_, rfl⟩
  have hadd : Market.addStock t S sigma coupon s.market = (.ok (), m₁) := by
    unfold Market.addStock
    rw [hd, hm₁]
  obtain ⟨l, hl⟩ := notifyObserversLoop_eq m₁.observers { m₁ with r := r }
  have hset : Market.setR r m₁ = (.ok (), { m₁ with r := r, log := l }) :=
    (show Market.setR r m₁ = (.ok (), Market.notifyObserversLoop m₁.observers { m₁ with r := r }) from rfl).trans (by rw [hl])
  refine ⟨⟨m₁, s.gens⟩, ⟨{ m₁ with r := r, log := l }, s.gens⟩, by unfold Sys.onMarket; rw [hadd], by unfold Sys.onMarket; rw [hset], ⟨?_, ?_, rfl⟩, rfl⟩
  · rw [hm₁]
    dsimp only
    rw [mapFind_mapAssign, if_pos rfl]
  · rw [hm₁]
    simp

/-- The set-up of the program: it succeeds when the Sobol generator can be constructed. -/
theorem setup_eq {c : MainChoices} {i : MainData F} (h : AcceptedMain i c) {st : Quasi.State Q F}
    (hq : Quasi.construct env.sobol i.dim c.rdSobol = .ok st) (s : Sys E Q F) :
    ∃ (s' : Sys E Q F) (hd g : ℕ), Knows s' i.ticker hd ⟨i.S, i.sigma, none⟩ i.r ∧ s'.gens[g]? = some (.sobol st) ∧
      s'.gens[g + 1]? = some (.pseudo (Pseudo.constructRd env.engine i.dim c.rdPrng)) ∧
      MainProgram.setup env c i s = (.ok (⟨.arithmeticAsian, mainOption i, ⟨i.ticker, hd, .gbm, g + 1⟩, i.lsmc, true⟩,
        ⟨.arithmeticAsian, mainOption i, ⟨i.ticker, hd, .gbm, g⟩, i.lsmc, true⟩), s') := by
  obtain ⟨s₁, s₂, e1, e2, k2, hg⟩ := entered (construct_accepted h.data) i.ticker i.r s
  have e3 : MainProgram.newSobol env i.dim c.rdSobol s₂ = (.ok s₂.gens.length, { s₂ with gens := s₂.gens ++ [.sobol st] }) := by
    unfold MainProgram.newSobol
    rw [Eff.bind_of_ok (show Eff.lift (Quasi.construct env.sobol i.dim c.rdSobol) s₂ = (.ok st, s₂) by rw [hq]; rfl)]
    rfl
  obtain ⟨s₄, hs₄⟩ : ∃ s₄ : Sys E Q F, s₄ = { s₂ with gens := s₂.gens ++ [.sobol st] ++ [.pseudo (Pseudo.constructRd env.engine i.dim c.rdPrng)] } := ⟨_, rfl⟩
  have e4 : Sys.newGen (.pseudo (Pseudo.constructRd env.engine i.dim c.rdPrng)) { s₂ with gens := s₂.gens ++ [.sobol st] } = (.ok (s₂.gens.length + 1), s₄) := by
    rw [hs₄]
    simp [Sys.newGen]
  have k4 : Knows s₄ i.ticker s.market.heap.length ⟨i.S, i.sigma, none⟩ i.r := by
    rw [hs₄]
    exact k2.newGen _
  obtain ⟨kh, eh⟩ := h.heston
  obtain ⟨km, em⟩ := h.merton
  obtain ⟨kk, ek⟩ := h.kou
  obtain ⟨kv, ev⟩ := h.varianceGamma
  obtain ⟨kb, eb⟩ := h.bates
  obtain ⟨e5, k5⟩ := k4.newOption (h.payoffArgs .american) (h.optionArgs .american) (.inr rfl) (main_contract h.strike h.maturity .put (.inr (.inl rfl))) rfl
  obtain ⟨e6, k6⟩ := k5.newOption (h.payoffArgs .european) (h.optionArgs .european) (.inl rfl) (main_contract h.strike h.maturity .call (.inl rfl)) rfl
  obtain ⟨e7, k7⟩ := k6.newOption (h.payoffArgs .european) (h.optionArgs .european) (.inr rfl) (main_contract h.strike h.maturity .put (.inl rfl)) rfl
  obtain ⟨e8, k8⟩ := k7.newOption (h.payoffArgs .arithmeticAsian) (h.optionArgs .arithmeticAsian) (.inl rfl) (main_contract h.strike h.maturity .call (.inr (.inr rfl))) rfl
  obtain ⟨e9, k9⟩ := k8.newOption (h.payoffArgs .arithmeticAsian) (h.optionArgs .arithmeticAsian) (.inl rfl) (main_contract h.strike h.maturity .call (.inr (.inr rfl))) rfl
  refine ⟨_, s.market.heap.length, s₂.gens.length, k9, ?_, ?_, ?_⟩
  · rw [hs₄]
    simp
  · rw [hs₄]
    simp
  unfold MainProgram.setup
  rw [Eff.bind_of_ok e1, Eff.bind_of_ok e2, Eff.bind_of_ok e3, Eff.bind_of_ok e4, Eff.bind_of_ok (k4.construct _ (k := .gbm) rfl),
    Eff.bind_of_ok (k4.construct _ (k := .gbm) rfl), Eff.bind_of_ok (k4.construct _ eh), Eff.bind_of_ok (k4.construct _ em),
    Eff.bind_of_ok (k4.construct _ ek), Eff.bind_of_ok (k4.construct _ (kind := fun d => ModelKind.mkVarianceGamma d.sigma i.nu i.thetaGamma) ev), Eff.bind_of_ok (k4.construct _ eb),
    Eff.bind_of_ok e5, Eff.bind_of_ok (buildWith_eq env _ (b := (Builder.construct .american i.lsmc).setStrategies i.lsmcLaguerre) rfl rfl _ _),
    Eff.bind_of_ok e6, Eff.bind_of_ok e7, Eff.bind_of_ok e8, Eff.bind_of_ok e9,
    Eff.bind_of_ok (buildWith_eq env _ (b := Builder.construct .arithmeticAsian i.lsmc) rfl rfl _ _)]
  dsimp only
  rw [Eff.bind_of_ok (buildWith_eq env _ (b := { Builder.construct .arithmeticAsian i.lsmc with option := _, model := _ }) rfl rfl _ _)]
  rfl

theorem Quasi.sobol_embeds : (GenObj.gen env).Embeds GenObj.sobol (Quasi.gen env.sobol) := ⟨fun _ _ => rfl, fun _ _ => rfl⟩

/-- A pricer on a Sobol generator. -/
theorem Pricer.onGenerator_sobol (p : Pricer F) (hm : p.md = true) (v : View F) (N : ℕ) (st : Quasi.State Q F) :
    p.onGenerator env v N (.sobol st) =
      ((p.cls.price false p.strat p.option (p.model.kind.source (Quasi.gen env.sobol) st.dim v) v.r N st).1,
        .sobol (p.cls.price false p.strat p.option (p.model.kind.source (Quasi.gen env.sobol) st.dim v) v.r N st).2) := by
  have hs := Sim.source_embeds (Quasi.sobol_embeds env) st.dim v p.model.kind
  have hr : Embeds (GenObj.sobol : Quasi.State Q F → GenObj E Q F) (pure v.r) (pure v.r) := .pure _
  unfold Pricer.onGenerator Pricer.onSource
  rw [hm]
  generalize p.cls = c
  cases c
  · exact MC.singlePath_embeds hs hr _ _ _ st
  · exact MC.american_embeds hs hr false _ _ _ _ st
  · exact MC.asian_embeds hs hr _ _ _ _ st
  · exact MC.asian_embeds hs hr _ _ _ _ st
  · exact MC.barrier_embeds hs hr _ _ _ _ _ st
  · exact MC.barrier_embeds hs hr _ _ _ _ _ st
  · exact MC.lookback_embeds hs hr _ _ _ _ st
  · exact MC.lookback_embeds hs hr _ _ _ _ st

theorem mainSession_accepted {c : MainChoices} {i : MainData F} (h : AcceptedMain i c) :
    AcceptedSession (mainSession i) (mainSessionChoices c) .gbm (mainOption i) where
  data := h.data
  model := rfl
  callPut := .inl rfl
  option := main_contract h.strike h.maturity .call (.inr (.inr rfl))
  ticker := rfl
  family := by simp [mainSession, Family]
  payoffArgs := h.payoffArgs _
  optionArgs := h.optionArgs _

theorem Console.quiet_ok {α : Type} {x : Eff (Sys E Q F) α} {s : Console E Q F} {r : Res α} {s' : Sys E Q F} (h : x s.sys = (r, s')) :
    Console.quiet x s = (r, ⟨s', s.out⟩) := by
  unfold Console.quiet
  rw [h]

/-- What the program does, in terms of the two prices. -/
theorem main_eq {c : MainChoices} {i : MainData F} (h : AcceptedMain i c) {st : Quasi.State Q F}
    (hq : Quasi.construct env.sobol i.dim c.rdSobol = .ok st) (s : Console E Q F) (s₀ : Sys E Q F) :
    ∃ (s₁ s₂ : Sys E Q F), MainProgram.main env c i s =
      match ((mainSession i).price env (mainSessionChoices c) s₀).1 with
      | .ok x =>
        match (Pricer.calculatePrice env ⟨.arithmeticAsian, mainOption i, ⟨i.ticker, 0, .gbm, 0⟩, i.lsmc, true⟩ i.N
          (alone i.ticker ⟨i.S, i.sigma, none⟩ i.r (.sobol st))).1 with
        | .ok y => (.ok (), ⟨s₂, s.out ++ outLine "Price MC PRNG: " x ++ outLine "Price MC QRNG: " y⟩)
        | .throw e => (.throw e, ⟨s₂, s.out ++ outLine "Price MC PRNG: " x ++ [.text "Price MC QRNG: "]⟩)
        | .ub => (.ub, ⟨s₂, s.out ++ outLine "Price MC PRNG: " x ++ [.text "Price MC QRNG: "]⟩)
      | .throw e => (.throw e, ⟨s₁, s.out ++ [.text "Price MC PRNG: "]⟩)
      | .ub => (.ub, ⟨s₁, s.out ++ [.text "Price MC PRNG: "]⟩) := by
  obtain ⟨s', hd, g, hk, hg, hg1, he⟩ := setup_eq env h hq s.sys
  have hdim : st.dim = i.dim := by
    unfold Quasi.construct at hq
    cases h1 : env.sobol.seeded i.dim c.rdSobol with
    | ok q =>
      rw [h1, Res.bind_ok] at hq
      split at hq <;> cases hq
      rfl
    | throw e => rw [h1] at hq; cases hq
    | ub => rw [h1] at hq; cases hq
  -- the first price
  obtain ⟨p₁, hp₁⟩ : ∃ p₁ : Pricer F, p₁ = ⟨.arithmeticAsian, mainOption i, ⟨i.ticker, hd, .gbm, g + 1⟩, i.lsmc, true⟩ := ⟨_, rfl⟩
  obtain ⟨p₂, hp₂⟩ : ∃ p₂ : Pricer F, p₂ = ⟨.arithmeticAsian, mainOption i, ⟨i.ticker, hd, .gbm, g⟩, i.lsmc, true⟩ := ⟨_, rfl⟩
  have f1 := Pricer.calculatePrice_eq env p₁ i.N (s := s') (d := ⟨i.S, i.sigma, none⟩)
    (o := .pseudo (Pseudo.constructRd env.engine i.dim c.rdPrng)) (by rw [hp₁]; exact hk.heap) (by rw [hp₁]; exact hg1)
  have f1' : (p₁.onGenerator env (ModelObj.seen ⟨i.S, i.sigma, none⟩ s'.market.r) i.N (.pseudo (Pseudo.constructRd env.engine i.dim c.rdPrng))).1 =
      ((mainSession i).price env (mainSessionChoices c) s₀).1 := by
    rw [session_eq env (mainSession_accepted h), hk.rate, hp₁]
    exact congrArg Prod.fst (Pricer.onGenerator_pseudo env ⟨.arithmeticAsian, mainOption i, ⟨i.ticker, hd, .gbm, g + 1⟩, i.lsmc, true⟩ rfl
      (ModelObj.seen ⟨i.S, i.sigma, none⟩ i.r) i.N i.dim c.rdPrng env.engine.default)
  obtain ⟨s₁, hs₁⟩ : ∃ s₁ : Sys E Q F, s₁ = s'.put (g + 1)
    (p₁.onGenerator env (ModelObj.seen ⟨i.S, i.sigma, none⟩ s'.market.r) i.N (.pseudo (Pseudo.constructRd env.engine i.dim c.rdPrng))).2 := ⟨_, rfl⟩
  have f1'' : p₁.calculatePrice env i.N s' = (((mainSession i).price env (mainSessionChoices c) s₀).1, s₁) := by
    rw [f1, f1', hs₁, hp₁]
  -- the second price
  have hg₁ : s₁.gens[g]? = some (.sobol st) := by
    rw [hs₁]
    unfold Sys.put
    dsimp only
    rw [List.getElem?_set_ne (by omega)]
    exact hg
  have hh₁ : s₁.market.heap[hd]? = some ⟨i.S, i.sigma, none⟩ := by
    rw [hs₁]
    exact hk.heap
  have hr₁ : s₁.market.r = i.r := by
    rw [hs₁]
    exact hk.rate
  have f2 := Pricer.calculatePrice_eq env p₂ i.N (s := s₁) (d := ⟨i.S, i.sigma, none⟩) (o := .sobol st) (by rw [hp₂]; exact hh₁) (by rw [hp₂]; exact hg₁)
  have f2' : (p₂.onGenerator env (ModelObj.seen ⟨i.S, i.sigma, none⟩ s₁.market.r) i.N (.sobol st)).1 =
      (Pricer.calculatePrice env ⟨.arithmeticAsian, mainOption i, ⟨i.ticker, 0, .gbm, 0⟩, i.lsmc, true⟩ i.N
          (alone i.ticker ⟨i.S, i.sigma, none⟩ i.r (.sobol st))).1 := by
    rw [Pricer.calculatePrice_eq env _ i.N (s := alone i.ticker ⟨i.S, i.sigma, none⟩ i.r (.sobol st)) (d := ⟨i.S, i.sigma, none⟩) (o := .sobol st) rfl rfl, hr₁, hp₂]
    rfl
  obtain ⟨s₂, hs₂⟩ : ∃ s₂ : Sys E Q F, s₂ = s₁.put g (p₂.onGenerator env (ModelObj.seen ⟨i.S, i.sigma, none⟩ s₁.market.r) i.N (.sobol st)).2 := ⟨_, rfl⟩
  have f2'' : p₂.calculatePrice env i.N s₁ = ((Pricer.calculatePrice env ⟨.arithmeticAsian, mainOption i, ⟨i.ticker, 0, .gbm, 0⟩, i.lsmc, true⟩ i.N
          (alone i.ticker ⟨i.S, i.sigma, none⟩ i.r (.sobol st))).1, s₂) := by
    rw [f2, f2', hs₂, hp₂]
  refine ⟨s₁, s₂, ?_⟩
  rw [← hp₁, ← hp₂] at he
  generalize ((mainSession i).price env (mainSessionChoices c) s₀).1 = r₁ at f1''
  generalize (Pricer.calculatePrice env ⟨.arithmeticAsian, mainOption i, ⟨i.ticker, 0, .gbm, 0⟩, i.lsmc, true⟩ i.N
          (alone i.ticker ⟨i.S, i.sigma, none⟩ i.r (.sobol st))).1 = r₂ at f2''
  unfold MainProgram.main
  rw [Eff.bind_of_ok (Console.quiet_ok he)]
  dsimp only
  rw [Eff.bind_of_ok (show Console.print (.text "Price MC PRNG: ") (⟨s', s.out⟩ : Console E Q F) = (.ok (), ⟨s', s.out ++ [.text "Price MC PRNG: "]⟩) from rfl)]
  have g1 : Console.quiet (MainProgram.solve env ((MCSolver.construct.setN i.N).setPricer (some p₁))) (⟨s', s.out ++ [.text "Price MC PRNG: "]⟩ : Console E Q F) =
      (r₁, ⟨s₁, s.out ++ [.text "Price MC PRNG: "]⟩) := Console.quiet_ok f1''
  have g2 : ∀ out, Console.quiet (MainProgram.solve env (((MCSolver.construct.setN i.N).setPricer (some p₁)).setPricer (some p₂))) (⟨s₁, out⟩ : Console E Q F) =
      (r₂, ⟨s₂, out⟩) := fun out => Console.quiet_ok f2''
  cases r₁ with
  | throw e => rw [Eff.bind_of_throw g1]
  | ub => rw [Eff.bind_of_ub g1]
  | ok x =>
    rw [Eff.bind_of_ok g1]
    rw [Eff.bind_of_ok (show Console.print (.num x) (⟨s₁, s.out ++ [.text "Price MC PRNG: "]⟩ : Console E Q F) =
      (.ok (), ⟨s₁, s.out ++ [.text "Price MC PRNG: "] ++ [.num x]⟩) from rfl)]
    rw [Eff.bind_of_ok (show Console.print (.text "\n") (⟨s₁, s.out ++ [.text "Price MC PRNG: "] ++ [.num x]⟩ : Console E Q F) =
      (.ok (), ⟨s₁, s.out ++ [.text "Price MC PRNG: "] ++ [.num x] ++ [.text "\n"]⟩) from rfl)]
    rw [Eff.bind_of_ok (show Console.print (.text "Price MC QRNG: ") (⟨s₁, s.out ++ [.text "Price MC PRNG: "] ++ [.num x] ++ [.text "\n"]⟩ : Console E Q F) =
      (.ok (), ⟨s₁, s.out ++ [.text "Price MC PRNG: "] ++ [.num x] ++ [.text "\n"] ++ [.text "Price MC QRNG: "]⟩) from rfl)]
    cases r₂ with
    | throw e => rw [Eff.bind_of_throw (g2 _)]; simp [outLine]
    | ub => rw [Eff.bind_of_ub (g2 _)]; simp [outLine]
    | ok y =>
      rw [Eff.bind_of_ok (g2 _)]
      rw [Eff.bind_of_ok (show Console.print (.num y) (⟨s₂, s.out ++ [.text "Price MC PRNG: "] ++ [.num x] ++ [.text "\n"] ++ [.text "Price MC QRNG: "]⟩ : Console E Q F) =
        (.ok (), ⟨s₂, s.out ++ [.text "Price MC PRNG: "] ++ [.num x] ++ [.text "\n"] ++ [.text "Price MC QRNG: "] ++ [.num y]⟩) from rfl)]
      simp [Console.print, outLine]

/-- **C78.** For all data the library accepts and for every state in which the program starts: if the Asian session on its own
gives the price `x` and a pricer on a new Sobol generator, alone in the world, gives the price `y`, then `main` ends normally
and has written exactly the two lines with `x` and `y`.  The five other models, four other options and the American pricer,
the shared builder and the shared solver change nothing. -/
theorem C78_output {c : MainChoices} {i : MainData F} (h : AcceptedMain i c) {st : Quasi.State Q F}
    (hq : Quasi.construct env.sobol i.dim c.rdSobol = .ok st) (s : Console E Q F) {s₀ : Sys E Q F} {x y : F}
    (hx : ((mainSession i).price env (mainSessionChoices c) s₀).1 = .ok x)
    (hy : (Pricer.calculatePrice env ⟨.arithmeticAsian, mainOption i, ⟨i.ticker, 0, .gbm, 0⟩, i.lsmc, true⟩ i.N
      (alone i.ticker ⟨i.S, i.sigma, none⟩ i.r (.sobol st))).1 = .ok y) :
    (MainProgram.main env c i s).1 = .ok () ∧
      (MainProgram.main env c i s).2.out = s.out ++ outLine "Price MC PRNG: " x ++ outLine "Price MC QRNG: " y := by
  obtain ⟨s₁, s₂, e⟩ := main_eq env h hq s s₀
  rw [e, hx, hy]
  exact ⟨rfl, rfl⟩

/-- **C78.** If the second pricing throws, the program ends with this exception after the first line and the text that
announces the second price. -/
theorem C78_second {c : MainChoices} {i : MainData F} (h : AcceptedMain i c) {st : Quasi.State Q F}
    (hq : Quasi.construct env.sobol i.dim c.rdSobol = .ok st) (s : Console E Q F) {s₀ : Sys E Q F} {x : F} {e : Exc}
    (hx : ((mainSession i).price env (mainSessionChoices c) s₀).1 = .ok x)
    (hy : (Pricer.calculatePrice env ⟨.arithmeticAsian, mainOption i, ⟨i.ticker, 0, .gbm, 0⟩, i.lsmc, true⟩ i.N
      (alone i.ticker ⟨i.S, i.sigma, none⟩ i.r (.sobol st))).1 = .throw e) :
    (MainProgram.main env c i s).1 = .throw e ∧
      (MainProgram.main env c i s).2.out = s.out ++ outLine "Price MC PRNG: " x ++ [.text "Price MC QRNG: "] := by
  obtain ⟨s₁, s₂, he⟩ := main_eq env h hq s s₀
  rw [he, hx, hy]
  exact ⟨rfl, rfl⟩

/-- **C78.** If Boost has no Sobol sequence of this dimension the program ends with Boost's exception and writes nothing. -/
theorem C78_dimension {c : MainChoices} {i : MainData F} (h : AcceptedMain i c) {e : Exc}
    (hq : Quasi.construct env.sobol i.dim c.rdSobol = .throw e) (s : Console E Q F) :
    (MainProgram.main env c i s).1 = .throw e ∧ (MainProgram.main env c i s).2.out = s.out := by
  obtain ⟨s₁, s₂, e1, e2, k2, hg⟩ := entered (construct_accepted h.data) i.ticker i.r s.sys
  have e3 : MainProgram.newSobol env i.dim c.rdSobol s₂ = (.throw e, s₂) := by
    unfold MainProgram.newSobol
    rw [Eff.bind_of_throw (show Eff.lift (Quasi.construct env.sobol i.dim c.rdSobol) s₂ = (.throw e, s₂) by rw [hq]; rfl)]
  have e4 : MainProgram.setup env c i s.sys = (.throw e, s₂) := by
    unfold MainProgram.setup
    rw [Eff.bind_of_ok e1, Eff.bind_of_ok e2, Eff.bind_of_throw e3]
  unfold MainProgram.main
  rw [Eff.bind_of_throw (Console.quiet_ok e4)]
  exact ⟨rfl, rfl⟩

end

/-! ## With a perfect engine and real numbers -/

section
variable {E Q : Type} [MeasurableSpace E] {μ : Measure E} [IsProbabilityMeasure μ] {count : ℝ → Measure ℕ} [FlInf ℝ] {env : Env E Q ℝ}

theorem construct_dim {F : Type} {q : Quasi.Sequence Q F} {dim seed : ℕ} {st : Quasi.State Q F} (hq : Quasi.construct q dim seed = .ok st) : st.dim = dim := by
  unfold Quasi.construct at hq
  cases h1 : q.seeded dim seed with
  | ok s =>
    rw [h1, Res.bind_ok] at hq
    split at hq <;> cases hq
    rfl
  | throw e => rw [h1] at hq; cases hq
  | ub => rw [h1] at hq; cases hq

/-- The independent draws of a path as one vector. -/
theorem Spec.IidNormal.map_vector {Ω : Type} [MeasurableSpace Ω] {P : Measure Ω} [IsProbabilityMeasure P] {Z : ℕ → Ω → ℝ} (h : IidNormal P Z) (d : ℕ) :
    P.map (fun ω (j : Fin d) => Z j ω) = Measure.pi fun _ => gaussianReal 0 1 := by
  have hi : iIndepFun (fun j : Fin d => Z j) P := h.indep.precomp Fin.val_injective
  rw [iIndepFun.map_fun_eq_pi_map (f := fun j : Fin d => Z j) (fun j => (h.measurable j).aemeasurable) hi]
  simp only [h.law]

theorem measurable_asianCallPayoff (i : MainData ℝ) (d : ℕ) : Measurable fun z : Fin d → ℝ => asianCallPayoff i id z := by
  unfold asianCallPayoff quasiPath
  fun_prop

theorem gbmPrice_quasiPath {Ω : Type} (v : View ℝ) (T : ℝ) (d : ℕ) (Z : ℕ → Ω → ℝ) (k : Fin d) (ω : Ω) :
    gbmPrice v T d Z 0 k ω = quasiPath v.price v.r (v.coupon.getD 0) v.sigma T id (fun j : Fin d => Z j ω) k := by
  unfold gbmPrice quasiPath drawSum
  congr 4
  rw [zero_add]
  refine Finset.sum_bij' (i := fun j hj => (⟨j, by have := Finset.mem_Ico.mp hj; omega⟩ : Fin d)) (j := fun j _ => (j : ℕ)) ?_ ?_ ?_ ?_ ?_
  · intro j hj
    simp only [Finset.mem_Iic, Fin.le_def]
    have := Finset.mem_Ico.mp hj
    omega
  · intro j hj
    simp only [Finset.mem_Iic, Fin.le_def] at hj
    simp only [Finset.mem_Ico]
    omega
  · intro j hj; rfl
  · intro j hj; rfl
  · intro j hj; rfl

/-- **C78.** With a perfect Mersenne twister and Sobol points in the open unit cube `main` always ends normally with two lines.
The first number is an unbiased estimator of the price of the arithmetic Asian call in the Black-Scholes model, with the
variance of the discounted payoff divided by the number of paths; the second is the mean of the discounted payoff over the
first `N` points of the sequence, mapped with `inv_cdf`, and does not depend on the twister. -/
theorem C78_estimates (he : RandomEngine env.engine μ count) {c : MainChoices} {i : MainData ℝ} (h : AcceptedMain i c) (h0 : 0 < i.dim) (h2 : i.dim ≤ INT_MAX)
    (hN : 0 < i.N) {q₀ : Q} {P : ℕ → Fin i.dim → ℝ} {Z : ℝ → ℝ} (hq : env.sobol.seeded i.dim c.rdSobol = .ok q₀) (hP : Yields env.sobol.generate q₀ P)
    (hZ : ∀ u, 0 < u → u < 1 → moroInvCdf u = .ok (Z u)) (hc : ∀ n < i.N, (fun j => P n j / env.sobol.scale) ∈ cube i.dim) (s : Console E Q ℝ) :
    ∃ A : E → ℝ, MemLp A 2 μ ∧ ∫ x, A x ∂μ = asianCallPrice i ∧ Var[A; μ] = asianCallVariance i / i.N ∧
      ∀ x, ∃ s', MainProgram.main (startAt env x) c i s = (.ok (), ⟨s', s.out ++ outLine "Price MC PRNG: " (A x) ++
        outLine "Price MC QRNG: " ((∑ n ∈ Finset.range i.N, asianCallPayoff i Z fun j => P n j / env.sobol.scale) / i.N)⟩) := by
  obtain ⟨Zd, hZd, hp⟩ := exists_draws (randomSource_engine he)
  have ha := mainSession_accepted h
  have hS : 0 < (ModelObj.seen (stockOf (mainSession i)) i.r).price := accepted_price ha
  -- the first number
  have hav : Averages μ (started env (mainSessionChoices c) (mainSession i) s.sys) Set.univ (Real.exp (-(i.r * i.T)))
      fun x => max ((∑ k ∈ Finset.range i.dim, gbmPrice (ModelObj.seen (stockOf (mainSession i)) i.r) i.T i.dim Zd 0 k x) / i.dim - i.K) 0 := by
    refine Averages.of_eq (C70_asian (randomSource_engine he) hS h2 (k := .gbm) trivial (f := fun x => max (x - i.K) 0) (by fun_prop)
      (pay := (mainOption i).payoff.eval1) (fun x => by simp [mainOption, Payoff.eval1]) (hp _ i.T _ h2)).1 fun N x => ?_
    rw [started_eq env ha s.sys N x]
    rfl
  have hsum : ∀ x, (∑ k ∈ Finset.range i.dim, gbmPrice (ModelObj.seen (stockOf (mainSession i)) i.r) i.T i.dim Zd 0 k x) =
      ∑ k, quasiPath i.S i.r 0 i.sigma i.T id (fun j : Fin i.dim => Zd j x) k := by
    intro x
    rw [← Fin.sum_univ_eq_sum_range]
    exact Finset.sum_congr rfl fun k _ => gbmPrice_quasiPath _ _ _ _ k x
  have hL : MemLp (fun x => max ((∑ k ∈ Finset.range i.dim, gbmPrice (ModelObj.seen (stockOf (mainSession i)) i.r) i.T i.dim Zd 0 k x) / i.dim - i.K) 0) 2 μ := by
    refine MemLp.pos_part (MemLp.sub ?_ (memLp_const _))
    have := (memLp_finset_sum (Finset.range i.dim) fun k _ => memLp_gbmPrice hZd (ModelObj.seen (stockOf (mainSession i)) i.r) i.T i.dim 0 k).const_mul ((i.dim : ℝ)⁻¹)
    refine this.congr_norm ?_ (.of_forall fun x => ?_)
    · exact ((Finset.measurable_sum _ fun k _ => measurable_gbmPrice hZd _ _ _ _ k).div_const _).aestronglyMeasurable
    · rw [div_eq_inv_mul]
  obtain ⟨A, h3, h4, h5, h6⟩ := C70_estimator hav hL (Set.mem_univ i.N) hN
  have hvec : Measurable fun x (j : Fin i.dim) => Zd j x := measurable_pi_lambda _ fun j => hZd.measurable j
  refine ⟨A, h4, ?_, ?_, fun x => ?_⟩
  · rw [h5, asianCallPrice, ← hZd.map_vector, integral_map hvec.aemeasurable (measurable_asianCallPayoff i _).aestronglyMeasurable, ← integral_const_mul]
    refine integral_congr_ae (.of_forall fun x => ?_)
    simp only [asianCallPayoff, hsum]
  · rw [h6, asianCallVariance, ← hZd.map_vector, variance_map]
    · simp only [Function.comp_def, asianCallPayoff, hsum]
    · exact (measurable_asianCallPayoff i _).aemeasurable
    · exact hvec.aemeasurable
  -- the second number
  obtain ⟨st, e1, e2⟩ := C77_asian h0 h2 hq hP hZ
  have hy : (Pricer.calculatePrice (startAt env x) ⟨.arithmeticAsian, mainOption i, ⟨i.ticker, 0, .gbm, 0⟩, i.lsmc, true⟩ i.N
      (alone i.ticker ⟨i.S, i.sigma, none⟩ i.r (.sobol st))).1 =
      .ok ((∑ n ∈ Finset.range i.N, asianCallPayoff i Z fun j => P n j / env.sobol.scale) / i.N) := by
    rw [Pricer.calculatePrice_eq (startAt env x) _ i.N (s := alone i.ticker ⟨i.S, i.sigma, none⟩ i.r (.sobol st)) (d := ⟨i.S, i.sigma, none⟩) (o := .sobol st) rfl rfl,
      Pricer.onGenerator_sobol _ _ rfl, construct_dim e1]
    refine ((e2 (ModelObj.seen ⟨i.S, i.sigma, none⟩ i.r) i.T (fun x => max (x - i.K) 0) (mainOption i).payoff.eval1 hS
      (fun x => by simp [mainOption, Payoff.eval1]) i.N hc).1).trans ?_
    congr 1
    rw [← mul_div_assoc, Finset.mul_sum]
    rfl
  obtain ⟨s', hs'⟩ := h3 x
  obtain ⟨s₁, s₂, e⟩ := main_eq (startAt env x) h (st := st) e1 s s.sys
  refine ⟨s₂, ?_⟩
  rw [e, hy]
  have : ((mainSession i).price (startAt env x) (mainSessionChoices c) s.sys).1 = .ok (A x) := congrArg Prod.fst hs'
  rw [this]

/-- **C78.** If one of the Sobol points used has a coordinate which, scaled, is not strictly between 0 and 1, the program
announces the second price and ends with `invalid_argument` instead of writing it. -/
theorem C78_boundary (he : RandomEngine env.engine μ count) {c : MainChoices} {i : MainData ℝ} (h : AcceptedMain i c) (h0 : 0 < i.dim) (h2 : i.dim ≤ INT_MAX)
    {q₀ : Q} {P : ℕ → Fin i.dim → ℝ} (hq : env.sobol.seeded i.dim c.rdSobol = .ok q₀) (hP : Yields env.sobol.generate q₀ P)
    {n : ℕ} (hn : n ≤ INT_MAX) (hnN : n < i.N) (hc : ∀ j < n, (fun k => P j k / env.sobol.scale) ∈ cube i.dim) (hb : (fun k => P n k / env.sobol.scale) ∉ cube i.dim)
    (x : E) (s : Console E Q ℝ) :
    ∃ A, (MainProgram.main (startAt env x) c i s).1.Throws .invalidArgument ∧
      (MainProgram.main (startAt env x) c i s).2.out = s.out ++ outLine "Price MC PRNG: " A ++ [.text "Price MC QRNG: "] := by
  have ha := mainSession_accepted h
  obtain ⟨X, -, -, h5⟩ := C73_path env he ha h2 (k := .gbm) trivial
  obtain ⟨Y, -, -, hY⟩ := C73_arithmeticAsian env he ha rfl h2 (k := .gbm) trivial (f := fun x => max (x - i.K) 0) (by fun_prop)
    (fun x => by simp [mainOption, Payoff.eval1]) h5 s.sys
  obtain ⟨s', hs'⟩ := hY i.N (Set.mem_univ _) (by omega) x
  have hx : ((mainSession i).price (startAt env x) (mainSessionChoices c) s.sys).1 = .ok _ := congrArg Prod.fst hs'
  obtain ⟨st, e1, e2⟩ := C77_throws h0 h2 hq hP hn hc hb
  obtain ⟨m, hm⟩ := (e2 (ModelObj.seen ⟨i.S, i.sigma, none⟩ i.r) i.T (fun x => max (x - i.K) 0) (mainOption i).payoff.eval1
    (fun x => by simp [mainOption, Payoff.eval1]) i.N hnN).2.1 .arithmetic
  have hy : (Pricer.calculatePrice (startAt env x) ⟨.arithmeticAsian, mainOption i, ⟨i.ticker, 0, .gbm, 0⟩, i.lsmc, true⟩ i.N
      (alone i.ticker ⟨i.S, i.sigma, none⟩ i.r (.sobol st))).1 = .throw ⟨.invalidArgument, m⟩ := by
    rw [Pricer.calculatePrice_eq (startAt env x) _ i.N (s := alone i.ticker ⟨i.S, i.sigma, none⟩ i.r (.sobol st)) (d := ⟨i.S, i.sigma, none⟩) (o := .sobol st) rfl rfl,
      Pricer.onGenerator_sobol _ _ rfl, construct_dim e1]
    exact hm
  obtain ⟨e3, e4⟩ := C78_second (startAt env x) h (st := st) e1 s hx hy
  exact ⟨_, ⟨m, e3⟩, e4⟩

end

/-! ## The numbers of `main.cpp` -/

theorem mainCpp_accepted (l l' : Lsmc ℝ) {c : MainChoices} (hP : ∀ f, (c.ordP f).Perm f.payoffArgs) (hO : ∀ f, (c.ordO f).Perm f.optionArgs) :
    AcceptedMain (mainCpp l l') c where
  data := by simp [mainCpp, Accepted]; norm_num
  strike := by simp [mainCpp]
  maturity := by simp [mainCpp]
  heston := ⟨_, by simp [mainCpp, ModelKind.mkHeston, Fl.gt]; norm_num; rfl⟩
  merton := ⟨_, by simp [mainCpp, ModelKind.mkMerton]; norm_num; rfl⟩
  kou := ⟨_, by simp [mainCpp, ModelKind.mkKou, Fl.gt]; norm_num; rfl⟩
  varianceGamma := ⟨_, by simp [mainCpp, ModelKind.mkVarianceGamma]; norm_num; rfl⟩
  bates := ⟨_, by simp [mainCpp, ModelKind.mkBates, Fl.gt]; norm_num; rfl⟩
  payoffArgs := hP
  optionArgs := hO

namespace MainExample
open SessionExample

/-- A perfect twister, and a sequence of given points. -/
noncomputable def env {d : ℕ} (P : ℕ → Fin d → ℝ) : Env PerfectState ℕ ℝ := ⟨engine, pointSeq P, pointSeq P⟩

def choices : MainChoices := ⟨fun f => f.payoffArgs, fun f => f.optionArgs.reverse, 3, 17, fun n => n⟩

noncomputable def strategies : Lsmc ℝ := ⟨fun _ => .ok [], fun _ _ => .ok []⟩

theorem accepted : AcceptedMain (mainCpp strategies strategies) choices := mainCpp_accepted _ _ (fun _ => .refl _) fun _ => List.reverse_perm _

/-- The program with its own numbers: two lines; the first price is unbiased. -/
example [FlInf ℝ] : ∃ A : PerfectState → ℝ, ∫ x, A x ∂perfectMeasure = asianCallPrice (mainCpp strategies strategies) ∧
    ∀ x, ∃ y, (MainProgram.main (startAt (env fun n (j : Fin 1000) => 1 / ((n : ℝ) + j + 2)) x) choices (mainCpp strategies strategies) ⟨⟨Market.init, []⟩, []⟩).2.out =
      outLine "Price MC PRNG: " (A x) ++ outLine "Price MC QRNG: " y := by
  obtain ⟨A, -, h1, -, h2⟩ := C78_estimates (env := env fun n (j : Fin 1000) => 1 / ((n : ℝ) + j + 2)) randomEngine accepted (by decide : 0 < 1000) (by decide)
    (by decide : 0 < 100000) (q₀ := 0) (P := fun n (j : Fin 1000) => 1 / ((n : ℝ) + j + 2)) (Z := quantile) rfl (pointSeq_yields _) (fun u => moroInvCdf_real)
    (by
      intro n _ j
      have : (1 : ℝ) < (n : ℝ) + j + 2 := by
        have : (0 : ℝ) ≤ (n : ℝ) + j := by positivity
        linarith
      simp only [env, pointSeq, div_one]
      exact ⟨by positivity, by rw [div_lt_one (by linarith)]; exact this⟩) ⟨⟨Market.init, []⟩, []⟩
  refine ⟨A, h1, fun x => ?_⟩
  obtain ⟨s', e⟩ := h2 x
  exact ⟨_, by rw [e]; rfl⟩

/-- A point with a coordinate 0 ends the program. -/
example [FlInf ℝ] (x : PerfectState) :
    (MainProgram.main (startAt (env fun n (j : Fin 1000) => if n = 5000 ∧ j = 7 then 0 else 1 / 3) x) choices (mainCpp strategies strategies)
      ⟨⟨Market.init, []⟩, []⟩).1.Throws .invalidArgument := by
  obtain ⟨A, h, -⟩ := C78_boundary (env := env fun n (j : Fin 1000) => if n = 5000 ∧ j = 7 then 0 else 1 / 3) randomEngine accepted (by decide : 0 < 1000) (by decide)
    (q₀ := 0) (P := fun n (j : Fin 1000) => if n = 5000 ∧ j = 7 then 0 else 1 / 3) rfl (pointSeq_yields _) (n := 5000) (by decide) (by decide : 5000 < 100000)
    (by
      intro n hn j
      have : n ≠ 5000 := by omega
      simp only [env, pointSeq, div_one, this, false_and, if_false]
      norm_num)
    (by
      intro h
      have h7 := (h (7 : Fin 1000)).1
      simp only [env, pointSeq, div_one, and_self, if_true, lt_irrefl] at h7) x ⟨⟨Market.init, []⟩, []⟩
  exact h

/-- A dimension without Sobol sequence. -/
example [FlInf ℝ] : (MainProgram.main ⟨engine, ⟨fun _ _ => .throw ⟨.invalidArgument, "too many dimensions"⟩, fun n => (.ok [], n), 1⟩, pointSeq fun _ (_ : Fin 1) => 1 / 2⟩
    choices (mainCpp strategies strategies) ⟨⟨Market.init, []⟩, []⟩).2.out = [] :=
  (C78_dimension (Q := ℕ) ⟨engine, ⟨fun _ _ => .throw ⟨.invalidArgument, "too many dimensions"⟩, fun n => (.ok [], n), 1⟩, pointSeq fun _ (_ : Fin 1) => 1 / 2⟩ accepted rfl _).2

end MainExample
end Verif
