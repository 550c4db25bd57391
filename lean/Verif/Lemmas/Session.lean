import Verif.Lemmas.Embed
import Verif.Lemmas.Factory
import Verif.Model.Session

/-!
# Pricing sessions
-/

set_option linter.unusedSectionVars false

namespace Verif

/-! ## Generators inside larger states -/

/-- On the states `mk t` the generator `g` does to `t` what `g'` does. -/
structure Gen.Embeds {σ τ F : Type} (mk : τ → σ) (g : Gen σ F) (g' : Gen τ F) : Prop where
  draw : ∀ d, Verif.Embeds mk (g.draw d) (g'.draw d)
  newDist : ∀ d t, g.newDist d (mk t) = mk (g'.newDist d t)

namespace Sim
variable {σ τ F : Type} [Fl F] [Add F] [Sub F] [Mul F] [Div F] [Neg F] {mk : τ → σ} {g : Gen σ F} {g' : Gen τ F}

theorem draw_embeds (h : g.Embeds mk g') (d : Dist F) : Embeds mk (draw g d) (draw g' d) := h.draw d

theorem newDist_embeds (h : g.Embeds mk g') (d : Res (Dist F)) : Embeds mk (newDist g d) (newDist g' d) := by
  refine (Embeds.lift d).bind fun d' t => ?_
  rw [h.newDist]

theorem drawCount_embeds [FlInt F] (h : g.Embeds mk g') (d : Dist F) : Embeds mk (drawCount g d) (drawCount g' d) := by
  refine (draw_embeds h d).bind fun x => ?_
  cases FlInt.toInt x with
  | some n => exact .pure _
  | none => exact .lift _

theorem gbmStep_embeds (h : g.Embeds mk g') (v : View F) (dt : F) (d : Dist F) (S : F) : Embeds mk (gbmStep g v dt d S) (gbmStep g' v dt d S) :=
  (draw_embeds h d).bind fun _ => .pure _

theorem hestonStep_embeds (h : g.Embeds mk g') (v : View F) (a b c e : F) (disc : CIR F) (dt : F) (d : Dist F) (x : F × F) :
    Embeds mk (hestonStep g v a b c e disc dt d x) (hestonStep g' v a b c e disc dt d x) :=
  (draw_embeds h d).bind fun _ => (draw_embeds h d).bind fun _ => .pure _

variable [FlInt F]

theorem batesStep_embeds (h : g.Embeds mk g') (v : View F) (a b c e : F) (disc : CIR F) (dt : F) (d d' d'' : Dist F) (x : F × F) :
    Embeds mk (batesStep g v a b c e disc dt d d' d'' x) (batesStep g' v a b c e disc dt d d' d'' x) :=
  (draw_embeds h d).bind fun _ => (draw_embeds h d).bind fun _ => (drawCount_embeds h d').bind fun n =>
    (Embeds.forN (fun _ => (draw_embeds h d'').bind fun _ => .pure _) n _).bind fun _ => .pure _

theorem kouJump_embeds (h : g.Embeds mk g') (p : F) (d d' d'' : Dist F) (j : F) : Embeds mk (kouJump g p d d' d'' j) (kouJump g' p d d' d'' j) := by
  refine (draw_embeds h d).bind fun u => Embeds.bind ?_ fun _ => (draw_embeds h d'').bind fun _ => .pure _
  split
  · exact (draw_embeds h d').bind fun _ => .pure _
  · exact .pure _

theorem kouStep_embeds (h : g.Embeds mk g') (v : View F) (a b c dt : F) (d₁ d₂ d₃ d₄ d₅ : Dist F) (S : F) :
    Embeds mk (kouStep g v a b c dt d₁ d₂ d₃ d₄ d₅ S) (kouStep g' v a b c dt d₁ d₂ d₃ d₄ d₅ S) :=
  (draw_embeds h d₁).bind fun _ => (drawCount_embeds h d₂).bind fun n =>
    (Embeds.forN (fun _ => kouJump_embeds h _ _ _ _ _) n _).bind fun _ => .pure _

theorem mertonStep_embeds (h : g.Embeds mk g') (v : View F) (dt : F) (d d' d'' : Dist F) (S : F) :
    Embeds mk (mertonStep g v dt d d' d'' S) (mertonStep g' v dt d d' d'' S) :=
  (draw_embeds h d).bind fun _ => (drawCount_embeds h d').bind fun n =>
    (Embeds.forN (fun _ => (draw_embeds h d'').bind fun _ => .pure _) n _).bind fun _ => .pure _

theorem vgStep_embeds (h : g.Embeds mk g') (v : View F) (a b dt : F) (d d' : Dist F) (S : F) :
    Embeds mk (vgStep g v a b dt d d' S) (vgStep g' v a b dt d d' S) :=
  (draw_embeds h d).bind fun _ => (draw_embeds h d').bind fun _ => .pure _

theorem prices_embeds (h : g.Embeds mk g') (steps : ℕ) (v : View F) (T : F) (k : ModelKind F) :
    Embeds mk (prices g steps v T k) (prices g' steps v T k) := by
  cases k with
  | gbm => exact (newDist_embeds h _).bind fun _ => .unfoldInt (fun _ => gbmStep_embeds h _ _ _ _) _ _
  | heston => exact (newDist_embeds h _).bind fun _ => .unfoldInt (fun _ => hestonStep_embeds h _ _ _ _ _ _ _ _ _) _ _
  | bates =>
    exact (newDist_embeds h _).bind fun _ => (newDist_embeds h _).bind fun _ => (newDist_embeds h _).bind fun _ =>
      .unfoldInt (fun _ => batesStep_embeds h _ _ _ _ _ _ _ _ _ _ _) _ _
  | kou =>
    exact (newDist_embeds h _).bind fun _ => (newDist_embeds h _).bind fun _ => (newDist_embeds h _).bind fun _ =>
      (newDist_embeds h _).bind fun _ => (newDist_embeds h _).bind fun _ => .unfoldInt (fun _ => kouStep_embeds h _ _ _ _ _ _ _ _ _ _ _) _ _
  | merton =>
    exact (newDist_embeds h _).bind fun _ => (newDist_embeds h _).bind fun _ => (newDist_embeds h _).bind fun _ =>
      .unfoldInt (fun _ => mertonStep_embeds h _ _ _ _ _ _) _ _
  | varianceGamma =>
    exact (newDist_embeds h _).bind fun _ => (newDist_embeds h _).bind fun _ => .unfoldInt (fun _ => vgStep_embeds h _ _ _ _ _ _ _) _ _

theorem maturity_embeds (h : g.Embeds mk g') (steps : ℕ) (v : View F) (T : F) (k : ModelKind F) :
    Embeds mk (maturity g steps v T k) (maturity g' steps v T k) := (prices_embeds h steps v T k).bind fun _ => .lift _

theorem backward_embeds (h : g.Embeds mk g') (v : View F) (S t t' : F) (k : ModelKind F) :
    Embeds mk (backward g v S t t' k) (backward g' v S t t' k) := by
  cases k with
  | gbm => exact (newDist_embeds h _).bind fun _ => (draw_embeds h _).bind fun _ => .pure _
  | _ => exact .lift _

theorem source_embeds (h : g.Embeds mk g') (steps : ℕ) (v : View F) (k : ModelKind F) :
    (k.source g steps v).Embeds mk (k.source g' steps v) :=
  ⟨rfl, fun T => prices_embeds h steps v T k, fun T => maturity_embeds h steps v T k, fun S t t' => backward_embeds h v S t t' k⟩

end Sim

/-! ## Pseudo random generators as engines -/

/-- The engine of a pseudo random generator as a `Gen`: only the state of the engine changes. -/
def Engine.gen {E F : Type} [Fl F] [Div F] (e : Engine E F) : Gen E F where
  draw d x := (.ok (e.sample d.law x).1, (e.sample d.law x).2)
  newDist d x := e.forget d.law x

theorem Engine.gen_embeds {E Q F : Type} [Fl F] [Add F] [Sub F] [Mul F] [Div F] [Neg F] (env : Env E Q F) (dim seed : ℕ) :
    (GenObj.gen env).Embeds (fun x => .pseudo ⟨dim, seed, x⟩) env.engine.gen :=
  ⟨fun _ _ => rfl, fun _ _ => rfl⟩

/-- `calculatePrice` of the pricer classes over a price source; `b`: the American pricer uses the Brownian bridge. -/
def PricerClass.price {G F : Type} [Fl F] [Add F] [Sub F] [Mul F] [Div F] [Neg F] [FlInf F] (c : PricerClass) (b : Bool) (strat : Lsmc F)
    (o : OptObj F) (src : PathSource G F) (r : F) (N : ℕ) : Eff G F :=
  match c with
  | .singlePath => MC.singlePath src (pure r) o.payoff.eval1 o.T N
  | .american => MC.american b strat src (pure r) o.payoff.eval1 o.T N
  | .arithmeticAsian => MC.asian .arithmetic src (pure r) o.payoff.eval1 o.T N
  | .geometricAsian => MC.asian .geometric src (pure r) o.payoff.eval1 o.T N
  | .knockIn => MC.barrier .knockIn src (pure r) (Pricer.isActive o) o.payoff.eval1 o.T N
  | .knockOut => MC.barrier .knockOut src (pure r) (Pricer.isActive o) o.payoff.eval1 o.T N
  | .floatingLookback => MC.lookback .floating src (pure r) o.payoff o.T N
  | .fixedLookback => MC.lookback .fixed src (pure r) o.payoff o.T N

/-- Whether the model is a GBM. -/
def ModelKind.isGbm {F : Type} : ModelKind F → Bool
  | .gbm => true
  | _ => false

section
variable {E Q F : Type} [Fl F] [Add F] [Sub F] [Mul F] [Div F] [Neg F] [FlInt F] [FlInf F] (env : Env E Q F)

theorem Pricer.onGenerator_pseudo (p : Pricer F) (hm : p.md = true) (v : View F) (N dim seed : ℕ) :
    Embeds (fun x => GenObj.pseudo ⟨dim, seed, x⟩) (p.onGenerator env v N)
      (p.cls.price p.model.kind.isGbm p.strat p.option (p.model.kind.source env.engine.gen dim v) v.r N) := by
  intro x
  have hs := Sim.source_embeds (Engine.gen_embeds env dim seed) dim v p.model.kind
  have hr : Embeds (fun x : E => (GenObj.pseudo ⟨dim, seed, x⟩ : GenObj E Q F)) (pure v.r) (pure v.r) := .pure _
  unfold Pricer.onGenerator Pricer.onSource
  rw [hm]
  generalize p.cls = c
  cases c
  · exact MC.singlePath_embeds hs hr _ _ _ x
  · refine Eq.trans ?_ (MC.american_embeds hs hr p.model.kind.isGbm _ _ _ _ x)
    generalize p.model.kind = kk
    cases kk <;> rfl
  · exact MC.asian_embeds hs hr _ _ _ _ x
  · exact MC.asian_embeds hs hr _ _ _ _ x
  · exact MC.barrier_embeds hs hr _ _ _ _ _ x
  · exact MC.barrier_embeds hs hr _ _ _ _ _ x
  · exact MC.lookback_embeds hs hr _ _ _ _ x
  · exact MC.lookback_embeds hs hr _ _ _ _ x

/-! ## The calls of a session -/

theorem notifyObserversLoop_eq (os : List ℕ) (m : Market F) : ∃ l, Market.notifyObserversLoop os m = { m with log := l } := by
  induction os generalizing m with
  | nil => exact ⟨m.log, rfl⟩
  | cons o os ih =>
    unfold Market.notifyObserversLoop
    split
    · split
      · obtain ⟨l, h⟩ := ih (m.deliver o _)
        exact ⟨l, h⟩
      · exact ih m
    · exact ih m

/-- A session whose data are accepted: the pricer is built, with the option, the model and the market data of the session. -/
theorem Session.price_eq (c : Session.Choices) (i : Session F) {d : StockData F} {k : ModelKind F} {o : OptObj F}
    (hd : StockData.construct i.S i.sigma i.coupon = .ok d) (hk : i.kind d = .ok k) (hP : c.ordP.Perm i.factory.payoffArgs)
    (hO : c.ordO.Perm i.factory.optionArgs) (hty : i.ty = .call ∨ i.ty = .put) (ho : Spec.Contract i.factory i.params i.ty o)
    (ht : o.ticker = i.ticker) (hcast : Builder.casts i.cls i.factory = true) (s : Sys E Q F) :
    (i.price env c s).1 = (i.cls.price k.isGbm i.strat o (k.source env.engine.gen i.dim (ModelObj.seen d i.r)) i.r i.N env.engine.default).1 := by
  -- the market data after addStock and setR
  obtain ⟨m₁, hm₁⟩ : ∃ m₁ : Market F, m₁ = ⟨s.market.heap ++ [d], mapAssign i.ticker s.market.heap.length s.market.stockDataMap, s.market.r,
    s.market.observers, s.market.objs, s.market.log⟩ := ⟨_, rfl⟩
  have hadd : Market.addStock i.ticker i.S i.sigma i.coupon s.market = (.ok (), m₁) := by
    unfold Market.addStock
    rw [hd, hm₁]
  obtain ⟨l, hl'⟩ := notifyObserversLoop_eq m₁.observers { m₁ with r := i.r }
  obtain ⟨m₂, hm₂⟩ : ∃ m₂ : Market F, m₂ = ⟨s.market.heap ++ [d], mapAssign i.ticker s.market.heap.length s.market.stockDataMap, i.r,
    s.market.observers, s.market.objs, l⟩ := ⟨_, rfl⟩
  have hl : Market.setR i.r m₁ = (.ok (), m₂) := by
    refine (show Market.setR i.r m₁ = (.ok (), Market.notifyObserversLoop m₁.observers { m₁ with r := i.r }) from rfl).trans ?_
    rw [hl', hm₁, hm₂]
  have hfind : mapFind i.ticker m₂.stockDataMap = some s.market.heap.length := by rw [hm₂]; rw [mapFind_mapAssign, if_pos rfl]
  have hheap : m₂.heap[s.market.heap.length]? = some d := by rw [hm₂]; simp
  have hr : m₂.r = i.r := by rw [hm₂]
  -- the generator
  obtain ⟨o₀, ho₀⟩ : ∃ o₀ : GenObj E Q F, o₀ = .pseudo (Pseudo.constructRd env.engine i.dim c.rd) := ⟨_, rfl⟩
  -- the option
  have hbody : OptionModel.createBody i.factory c.ordP c.ordO (World.mkParams i.params) i.ty m₂ = (.ok o, m₂) := by
    rw [OptionModel.createBody_ok_iff i.factory hP hO i.params hty]
    refine ⟨ho, ?_⟩
    rw [ht]
    have : (do let p ← Market.getStockData i.ticker; return Val.handle p : Eff (Market F) (Val F)) m₂ = (.ok (.handle s.market.heap.length), m₂) := by
      rw [Eff.bind_of_ok (show Market.getStockData i.ticker m₂ = (.ok s.market.heap.length, m₂) by unfold Market.getStockData; rw [hfind])]
      rfl
    exact ⟨_, congrArg Prod.fst this⟩
  have hcreate : OptionModel.createOption i.factory c.ordP c.ordO (World.mkParams i.params) i.ty m₂ =
      (.ok m₂.objs.length, OptionModel.withOption m₂ o) := by
    rcases OptionModel.createOption_cases i.factory c.ordP c.ordO (World.mkParams i.params) i.ty m₂ with ⟨o', h1, h2⟩ | ⟨msg, h1, h2⟩
    · rw [hbody] at h1
      cases h1
      exact h2
    · rw [hbody] at h1
      cases h1
  -- the model object and the pricer
  have hmodel : ModelObj.construct i.ticker s.gens.length i.kind (⟨m₂, s.gens ++ [o₀]⟩ : Sys E Q F) =
      (.ok ⟨i.ticker, s.market.heap.length, k, s.gens.length⟩, ⟨m₂, s.gens ++ [o₀]⟩) := by
    unfold ModelObj.construct
    rw [Eff.bind_of_ok (s' := (⟨m₂, s.gens ++ [o₀]⟩ : Sys E Q F)) (a := s.market.heap.length) (by simp [Sys.onMarket, Market.getStockData, hfind]),
      Eff.bind_of_ok (s' := (⟨m₂, s.gens ++ [o₀]⟩ : Sys E Q F)) (a := d) (by simp [Sys.onMarket, Market.deref, hheap]),
      Eff.bind_of_ok (s' := (⟨m₂, s.gens ++ [o₀]⟩ : Sys E Q F)) (a := k) (by simp [hk])]
    rfl
  have hopt : Session.optionAt m₂.objs.length (⟨OptionModel.withOption m₂ o, s.gens ++ [o₀]⟩ : Sys E Q F) =
      (.ok o, ⟨OptionModel.withOption m₂ o, s.gens ++ [o₀]⟩) := by
    unfold Session.optionAt
    simp [OptionModel.withOption]
  obtain ⟨mo, hmo⟩ : ∃ mo : ModelObj F, mo = ⟨i.ticker, s.market.heap.length, k, s.gens.length⟩ := ⟨_, rfl⟩
  rw [← hmo] at hmodel
  have hbuild : Session.buildPricer env c.rdBuild i.cls i.strat o mo (⟨OptionModel.withOption m₂ o, s.gens ++ [o₀]⟩ : Sys E Q F) =
      (.ok ⟨i.cls, o, mo, i.strat, true⟩, ⟨OptionModel.withOption m₂ o, s.gens ++ [o₀]⟩) := by
    have h1 : o.cls = i.factory := ho.1
    have : Builder.setOption (some o) (Builder.construct i.cls i.strat) = (.ok (), { Builder.construct i.cls i.strat with option := some o }) := by
      simp [Builder.setOption, Builder.construct, Option.filter, h1, hcast]
    unfold Session.buildPricer
    rw [this]
    rfl
  unfold Session.price
  rw [Eff.bind_of_ok (show Sys.onMarket (Market.addStock i.ticker i.S i.sigma i.coupon) s = (.ok (), ⟨m₁, s.gens⟩) by
      unfold Sys.onMarket; rw [hadd]),
    Eff.bind_of_ok (show Sys.onMarket (Market.setR i.r) (⟨m₁, s.gens⟩ : Sys E Q F) = (.ok (), ⟨m₂, s.gens⟩) by unfold Sys.onMarket; rw [hl]),
    Eff.bind_of_ok (show Sys.newGen (.pseudo (Pseudo.constructRd env.engine i.dim c.rd)) (⟨m₂, s.gens⟩ : Sys E Q F) =
      (.ok s.gens.length, ⟨m₂, s.gens ++ [o₀]⟩) by rw [ho₀]; rfl),
    Eff.bind_of_ok hmodel,
    Eff.bind_of_ok (show Sys.onMarket (OptionModel.createOption i.factory c.ordP c.ordO (World.mkParams i.params) i.ty) (⟨m₂, s.gens ++ [o₀]⟩ : Sys E Q F) =
      (.ok m₂.objs.length, ⟨OptionModel.withOption m₂ o, s.gens ++ [o₀]⟩) by unfold Sys.onMarket; rw [hcreate]),
    Eff.bind_of_ok hopt, Eff.bind_of_ok hbuild]
  have hfin := Pricer.calculatePrice_eq env ⟨i.cls, o, mo, i.strat, true⟩ i.N (s := (⟨OptionModel.withOption m₂ o, s.gens ++ [o₀]⟩ : Sys E Q F)) (d := d) (o := o₀)
    (by rw [hmo]; exact hheap) (by rw [hmo]; simp)
  have hpseudo := Pricer.onGenerator_pseudo env ⟨i.cls, o, mo, i.strat, true⟩ rfl (ModelObj.seen d i.r) i.N i.dim c.rd env.engine.default
  have hr' : (OptionModel.withOption m₂ o).r = i.r := hr
  refine (congrArg Prod.fst hfin).trans ?_
  rw [show (⟨OptionModel.withOption m₂ o, s.gens ++ [o₀]⟩ : Sys E Q F).market.r = i.r from hr', ho₀]
  refine (congrArg Prod.fst hpseudo).trans ?_
  rw [hmo]
  rfl

end
end Verif
