import Verif.Model.System

/-!
# Code that works on a part of the state
-/

set_option linter.unusedSectionVars false

namespace Verif

/-- On the states `mk t` the code `x` does to `t` what `y` does. -/
def Embeds {σ τ α : Type} (mk : τ → σ) (x : Eff σ α) (y : Eff τ α) : Prop :=
  ∀ t, x (mk t) = ((y t).1, mk (y t).2)

namespace Embeds
variable {σ τ α β : Type} {mk : τ → σ}

theorem pure (a : α) : Embeds mk (Pure.pure a) (Pure.pure a) := fun _ => rfl
theorem lift (r : Res α) : Embeds mk (Eff.lift r) (Eff.lift r) := fun _ => rfl

theorem bind {x : Eff σ α} {y : Eff τ α} {f : α → Eff σ β} {g : α → Eff τ β} (h : Embeds mk x y)
    (hf : ∀ a, Embeds mk (f a) (g a)) : Embeds mk (x >>= f) (y >>= g) := by
  intro t
  have := h t
  rcases hy : y t with ⟨r, t'⟩
  rw [hy] at this
  cases r with
  | ok a => rw [Eff.bind_of_ok this, Eff.bind_of_ok hy, hf a t']
  | throw e => rw [Eff.bind_of_throw this, Eff.bind_of_throw hy]
  | ub => rw [Eff.bind_of_ub this, Eff.bind_of_ub hy]

theorem forN {f : α → Eff σ α} {g : α → Eff τ α} (hf : ∀ a, Embeds mk (f a) (g a)) :
    ∀ n a, Embeds mk (Eff.forN f n a) (Eff.forN g n a)
  | 0, a => pure a
  | n + 1, a => (hf a).bind fun a' => forN hf n a'

theorem forInt {f : α → Eff σ α} {g : α → Eff τ α} (hf : ∀ a, Embeds mk (f a) (g a)) (n : ℕ) (a : α) :
    Embeds mk (Eff.forInt f n a) (Eff.forInt g n a) := by
  refine (forN hf _ a).bind fun a' => ?_
  split
  · exact pure _
  · exact lift _

theorem unfoldN {f : α → Eff σ (α × β)} {g : α → Eff τ (α × β)} (hf : ∀ a, Embeds mk (f a) (g a)) :
    ∀ n a, Embeds mk (Eff.unfoldN f n a) (Eff.unfoldN g n a)
  | 0, _ => pure _
  | n + 1, a => (hf a).bind fun x => (unfoldN hf n x.1).bind fun _ => pure _

theorem unfoldInt {f : α → Eff σ (α × β)} {g : α → Eff τ (α × β)} (hf : ∀ a, Embeds mk (f a) (g a)) (n : ℕ) (a : α) :
    Embeds mk (Eff.unfoldInt f n a) (Eff.unfoldInt g n a) := by
  refine (unfoldN hf _ a).bind fun a' => ?_
  split
  · exact pure _
  · exact lift _

theorem each {f : α → Eff σ β} {g : α → Eff τ β} (hf : ∀ a, Embeds mk (f a) (g a)) :
    ∀ l, Embeds mk (Eff.each f l) (Eff.each g l)
  | [] => pure _
  | a :: l => (hf a).bind fun _ => (each hf l).bind fun _ => pure _

end Embeds

/-- Two price sources, of which the first works on the part `mk` of the state. -/
structure PathSource.Embeds {σ τ F : Type} (mk : τ → σ) (src : PathSource σ F) (src' : PathSource τ F) : Prop where
  steps : src.steps = src'.steps
  prices : ∀ T, Verif.Embeds mk (src.simulatePrices T) (src'.simulatePrices T)
  maturity : ∀ T, Verif.Embeds mk (src.simulatePriceAtMaturity T) (src'.simulatePriceAtMaturity T)
  backward : ∀ S t t', Verif.Embeds mk (src.simulatePriceBackward S t t') (src'.simulatePriceBackward S t t')

namespace MC
variable {σ τ F : Type} {mk : τ → σ} [Fl F] [Add F] [Sub F] [Mul F] [Div F] [Neg F] {src : PathSource σ F} {src' : PathSource τ F}
  {getR : Eff σ F} {getR' : Eff τ F}

theorem singlePath_embeds (h : src.Embeds mk src') (hr : Embeds mk getR getR') (pay : F → Res F) (T : F) (N : ℕ) :
    Embeds mk (singlePath src getR pay T N) (singlePath src' getR' pay T N) :=
  hr.bind fun _ => (Embeds.forInt (fun _ => (h.maturity T).bind fun _ => (Embeds.lift _).bind fun _ => .pure _) _ _).bind
    fun _ => .pure _

theorem asian_embeds (h : src.Embeds mk src') (hr : Embeds mk getR getR') (k : AsianKind) (pay : F → Res F) (T : F) (N : ℕ) :
    Embeds mk (asian k src getR pay T N) (asian k src' getR' pay T N) := by
  unfold asian
  rw [h.steps]
  exact hr.bind fun _ => (Embeds.forN (fun _ => (h.prices T).bind fun _ => (Embeds.lift _).bind fun _ => .pure _) _ _).bind
    fun _ => .pure _

theorem barrier_embeds (h : src.Embeds mk src') (hr : Embeds mk getR getR') (k : KnockKind) (act : F → Bool) (pay : F → Res F)
    (T : F) (N : ℕ) : Embeds mk (barrier k src getR act pay T N) (barrier k src' getR' act pay T N) := by
  unfold barrier
  rw [h.steps]
  exact hr.bind fun _ => (Embeds.forInt (fun _ => (h.prices T).bind fun _ => (Embeds.lift _).bind fun _ => .pure _) _ _).bind
    fun _ => .pure _

theorem lookback_embeds [FlInf F] (h : src.Embeds mk src') (hr : Embeds mk getR getR') (k : LookbackKind) (p : Payoff F)
    (T : F) (N : ℕ) : Embeds mk (lookback k src getR p T N) (lookback k src' getR' p T N) := by
  unfold lookback
  rw [h.steps]
  exact hr.bind fun _ => (Embeds.forInt (fun _ => (h.prices T).bind fun _ => (Embeds.lift _).bind fun _ => .pure _) _ _).bind
    fun _ => .pure _

theorem simulateRow_embeds (h : src.Embeds mk src') (T : F) : Embeds mk (simulateRow src T) (simulateRow src' T) := by
  unfold simulateRow
  rw [h.steps]
  refine (h.prices T).bind fun l => ?_
  split
  · exact .pure _
  · exact .lift _

theorem simulateN_embeds {α : Type} {x : Eff σ α} {y : Eff τ α} (h : Embeds mk x y) (N : ℕ) :
    Embeds mk (simulateN x N) (simulateN y N) :=
  Embeds.unfoldInt (fun _ => h.bind fun _ => .pure _) _ _

theorem bridgeLoop_embeds (h : src.Embeds mk src') (strat : Lsmc F) (pay : F → Res F) (dt df : F) :
    ∀ k st, Embeds mk (bridgeLoop strat src pay dt df k st) (bridgeLoop strat src' pay dt df k st)
  | 0, _ => .pure _
  | k + 1, st => by
    refine Embeds.bind ?_ fun st' => bridgeLoop_embeds h strat pay dt df k st'
    exact (Embeds.each (fun S => (h.backward _ _ _).bind fun _ => (Embeds.lift _).bind fun _ => .pure _) _).bind
      fun _ => (Embeds.lift _).bind fun _ => .pure _

theorem american_embeds (h : src.Embeds mk src') (hr : Embeds mk getR getR') (b : Bool) (strat : Lsmc F) (pay : F → Res F)
    (T : F) (N : ℕ) : Embeds mk (american b strat src getR pay T N) (american b strat src' getR' pay T N) := by
  unfold american
  cases b
  · simp only [Bool.false_eq_true, if_false]
    unfold americanStandard
    rw [h.steps]
    exact hr.bind fun _ => (simulateN_embeds (simulateRow_embeds h T) N).bind fun _ => .lift _
  · simp only [if_true]
    unfold americanBridge
    rw [h.steps]
    refine hr.bind fun _ => (simulateN_embeds (h.maturity T) N).bind fun _ => (Embeds.lift _).bind fun _ => Embeds.bind ?_
      fun _ => (Embeds.lift _).bind fun _ => .pure _
    split
    · exact .lift _
    · exact bridgeLoop_embeds h _ _ _ _ _ _

end MC
end Verif

namespace Verif

/-- The price source of a model with its generator, market data fixed. -/
def ModelKind.source {G F : Type} [Fl F] [Add F] [Sub F] [Mul F] [Div F] [Neg F] [FlInt F] (g : Gen G F) (steps : ℕ) (v : View F)
    (k : ModelKind F) : PathSource G F where
  steps := steps
  simulatePrices T := Sim.prices g steps v T k
  simulatePriceAtMaturity T := Sim.maturity g steps v T k
  simulatePriceBackward S t t' := Sim.backward g v S t t' k

namespace Sys
variable {E Q F α : Type}

/-- Put an object in the place of generator `g`. -/
def put (s : Sys E Q F) (g : ℕ) (o : GenObj E Q F) : Sys E Q F := { s with gens := s.gens.set g o }

theorem put_self {s : Sys E Q F} {g : ℕ} {o : GenObj E Q F} (h : s.gens[g]? = some o) : s.put g o = s := by
  obtain ⟨hl, he⟩ := List.getElem?_eq_some_iff.mp h
  unfold put
  rw [← he, List.set_getElem_self]

theorem put_get {s : Sys E Q F} {g : ℕ} (h : g < s.gens.length) (o : GenObj E Q F) : (s.put g o).gens[g]? = some o := by
  simp [put, h]

theorem onGen_embeds {s : Sys E Q F} {g : ℕ} (h : g < s.gens.length) (x : Eff (GenObj E Q F) α) :
    Embeds (s.put g) (Sys.onGen g x) x := by
  intro o
  unfold Sys.onGen
  rw [put_get h]
  simp [put, List.set_set]

end Sys

namespace ModelObj
variable {E Q F : Type} [Fl F]

/-- What the model reads. -/
def seen (d : StockData F) (r : F) : View F := { price := d.price, sigma := d.sigma, coupon := d.coupon, r := r }

theorem view_embeds {s : Sys E Q F} {mo : ModelObj F} {d : StockData F} (hd : s.market.heap[mo.handle]? = some d) (g : ℕ) :
    Embeds (s.put g) (mo.view : Eff (Sys E Q F) (View F)) (Pure.pure (seen d s.market.r)) := by
  intro o
  have : Sys.onMarket (Market.deref mo.handle) (s.put g o) = (.ok d, s.put g o) := by
    simp [Sys.onMarket, Market.deref, Sys.put, hd]
  unfold view
  rw [Eff.bind_of_ok this]
  rfl

variable [Add F] [Sub F] [Mul F] [Div F] [Neg F] [FlInt F]

theorem source_embeds {s : Sys E Q F} (env : Env E Q F) {mo : ModelObj F} {d : StockData F} (hd : s.market.heap[mo.handle]? = some d)
    (hg : mo.gen < s.gens.length) (steps : ℕ) :
    (mo.source env steps).Embeds (s.put mo.gen) (mo.kind.source (GenObj.gen env) steps (seen d s.market.r)) where
  steps := rfl
  prices T := (view_embeds hd _).bind (g := fun v => Sim.prices (GenObj.gen env) steps v T mo.kind) fun _ => Sys.onGen_embeds hg _
  maturity T := (view_embeds hd _).bind (g := fun v => Sim.maturity (GenObj.gen env) steps v T mo.kind) fun _ => Sys.onGen_embeds hg _
  backward S t t' := (view_embeds hd _).bind (g := fun v => Sim.backward (GenObj.gen env) v S t t' mo.kind)
    fun _ => Sys.onGen_embeds hg _

end ModelObj

namespace Pricer
variable {E Q F : Type} [Fl F]

theorem getSteps_eq {mo : ModelObj F} {s : Sys E Q F} {o : GenObj E Q F} (ho : s.gens[mo.gen]? = some o) :
    (mo.getSteps : Eff (Sys E Q F) ℕ) s = (.ok o.dim, s) := by
  unfold ModelObj.getSteps Sys.onGen
  rw [ho]
  simp only
  exact Prod.ext rfl (Sys.put_self ho)

end Pricer

namespace Pricer
variable {E Q F : Type} [Fl F] [Add F] [Sub F] [Mul F] [Div F] [Neg F] [FlInt F] [FlInf F]

/-- `calculatePrice` on the generator alone, with the source `src` of prices and the rate `r`. -/
def onSource (p : Pricer F) (src : PathSource (GenObj E Q F) F) (r : F) (N : ℕ) : Eff (GenObj E Q F) F := fun o =>
  let getR : Eff (GenObj E Q F) F := if p.md then Pure.pure r else Eff.lift .ub
  let pay := p.option.payoff.eval1
  let T := p.option.T
  (match p.cls with
  | .singlePath => MC.singlePath src getR pay T N
  | .american => MC.american (o.isPseudo && match p.model.kind with | .gbm => true | _ => false) p.strat src getR pay T N
  | .arithmeticAsian => MC.asian .arithmetic src getR pay T N
  | .geometricAsian => MC.asian .geometric src getR pay T N
  | .knockIn => MC.barrier .knockIn src getR (isActive p.option) pay T N
  | .knockOut => MC.barrier .knockOut src getR (isActive p.option) pay T N
  | .floatingLookback => MC.lookback .floating src getR p.option.payoff T N
  | .fixedLookback => MC.lookback .fixed src getR p.option.payoff T N) o

/-- `calculatePrice` on the generator alone, with the market data `v`. -/
def onGenerator (env : Env E Q F) (p : Pricer F) (v : View F) (N : ℕ) : Eff (GenObj E Q F) F := fun o =>
  p.onSource (p.model.kind.source (GenObj.gen env) o.dim v) v.r N o

theorem getR_embeds (s : Sys E Q F) (p : Pricer F) (g : ℕ) :
    Embeds (s.put g) (p.getR : Eff (Sys E Q F) F) (if p.md then Pure.pure s.market.r else Eff.lift .ub) := by
  unfold getR
  split
  · intro o; rfl
  · exact .lift _

theorem calculatePrice_source (env : Env E Q F) (p : Pricer F) (N : ℕ) {s : Sys E Q F} {o : GenObj E Q F}
    (ho : s.gens[p.model.gen]? = some o) {src : PathSource (GenObj E Q F) F}
    (hsrc : (p.model.source env o.dim).Embeds (s.put p.model.gen) src) :
    p.calculatePrice env N s = ((p.onSource src s.market.r N o).1, s.put p.model.gen (p.onSource src s.market.r N o).2) := by
  have hs := Sys.put_self ho
  have hb : p.useBridge s = (o.isPseudo && match p.model.kind with | .gbm => true | _ => false) := by
    unfold useBridge
    rw [ho]
    cases p.model.kind <;> rfl
  unfold calculatePrice
  rw [Eff.bind_of_ok (getSteps_eq ho)]
  have hr := getR_embeds s p p.model.gen
  unfold onSource
  generalize p.cls = c
  rw [hb]
  conv_lhs => rw [← hs]
  cases c
  · exact MC.singlePath_embeds hsrc hr _ _ _ o
  · rw [hs]
    have := MC.american_embeds hsrc hr (o.isPseudo && match p.model.kind with | .gbm => true | _ => false) p.strat
      p.option.payoff.eval1 p.option.T N o
    rw [hs] at this
    exact this
  · exact MC.asian_embeds hsrc hr _ _ _ _ o
  · exact MC.asian_embeds hsrc hr _ _ _ _ o
  · exact MC.barrier_embeds hsrc hr _ _ _ _ _ o
  · exact MC.barrier_embeds hsrc hr _ _ _ _ _ o
  · exact MC.lookback_embeds hsrc hr _ _ _ _ o
  · exact MC.lookback_embeds hsrc hr _ _ _ _ o

/-- The price on a system is the price on the generator of the model, with the data the model's pointer refers to and the
rate; everything else stays as it is. -/
theorem calculatePrice_eq (env : Env E Q F) (p : Pricer F) (N : ℕ) {s : Sys E Q F} {d : StockData F} {o : GenObj E Q F}
    (hd : s.market.heap[p.model.handle]? = some d) (ho : s.gens[p.model.gen]? = some o) :
    p.calculatePrice env N s = ((p.onGenerator env (ModelObj.seen d s.market.r) N o).1,
      s.put p.model.gen (p.onGenerator env (ModelObj.seen d s.market.r) N o).2) :=
  calculatePrice_source env p N ho (ModelObj.source_embeds env hd (List.getElem?_eq_some_iff.mp ho).1 o.dim)

end Pricer

/-! ## What simulation and pricing leave unchanged -/

/-- The code changes at most generator `g`, for every outcome. -/
def TouchesOnly {E Q F α : Type} (g : ℕ) (x : Eff (Sys E Q F) α) : Prop := ∀ s, (x s).2 = s ∨ ∃ o, (x s).2 = s.put g o

section
variable {E Q F : Type} [Fl F] [Add F] [Sub F] [Mul F] [Div F] [Neg F] [FlInt F]

theorem view_dangling {s : Sys E Q F} {mo : ModelObj F} (hd : s.market.heap[mo.handle]? = none) (g : ℕ) :
    Embeds (s.put g) (mo.view : Eff (Sys E Q F) (View F)) (Eff.lift .ub) := by
  intro o
  have : Sys.onMarket (Market.deref mo.handle) (s.put g o) = (.ub, s.put g o) := by
    simp [Sys.onMarket, Market.deref, Sys.put, hd]
  unfold ModelObj.view
  rw [Eff.bind_of_ub this]
  rfl

theorem source_exists {s : Sys E Q F} (env : Env E Q F) (mo : ModelObj F) (hg : mo.gen < s.gens.length) (steps : ℕ) :
    ∃ src, (mo.source env steps).Embeds (s.put mo.gen) src := by
  cases hd : s.market.heap[mo.handle]? with
  | some d => exact ⟨_, ModelObj.source_embeds env hd hg steps⟩
  | none =>
    refine ⟨⟨steps, fun _ => Eff.lift .ub, fun _ => Eff.lift .ub, fun _ _ _ => Eff.lift .ub⟩, rfl, fun T => ?_, fun T => ?_,
      fun S t t' => ?_⟩
    all_goals
      intro o
      exact Eff.bind_of_ub (view_dangling hd _ o)

theorem touchesOnly_embeds {α : Type} {g : ℕ} {x : Eff (Sys E Q F) α} {s : Sys E Q F} {o : GenObj E Q F} (ho : s.gens[g]? = some o)
    {y : Eff (GenObj E Q F) α} (h : Embeds (s.put g) x y) : ∃ o', (x s).2 = s.put g o' := by
  have := h o
  rw [Sys.put_self ho] at this
  exact ⟨_, congrArg Prod.snd this⟩

theorem runPrices_touches (env : Env E Q F) (mo : ModelObj F) (T : F) : TouchesOnly mo.gen (SysCall.runPrices env mo T) := by
  intro s
  unfold SysCall.runPrices
  cases ho : s.gens[mo.gen]? with
  | none =>
    have : (mo.getSteps : Eff (Sys E Q F) ℕ) s = (.ub, s) := by
      unfold ModelObj.getSteps Sys.onGen
      rw [ho]
    rw [Eff.bind_of_ub this]
    exact .inl rfl
  | some o =>
    obtain ⟨src, hsrc⟩ := source_exists env mo (List.getElem?_eq_some_iff.mp ho).1 o.dim
    rw [Eff.bind_of_ok (Pricer.getSteps_eq ho)]
    exact .inr (touchesOnly_embeds ho (hsrc.prices T))

theorem runMaturity_touches (env : Env E Q F) (mo : ModelObj F) (T : F) : TouchesOnly mo.gen (SysCall.runMaturity env mo T) := by
  intro s
  unfold SysCall.runMaturity
  cases ho : s.gens[mo.gen]? with
  | none =>
    have : (mo.getSteps : Eff (Sys E Q F) ℕ) s = (.ub, s) := by
      unfold ModelObj.getSteps Sys.onGen
      rw [ho]
    rw [Eff.bind_of_ub this]
    exact .inl rfl
  | some o =>
    obtain ⟨src, hsrc⟩ := source_exists env mo (List.getElem?_eq_some_iff.mp ho).1 o.dim
    rw [Eff.bind_of_ok (Pricer.getSteps_eq ho)]
    exact .inr (touchesOnly_embeds ho (hsrc.maturity T))

theorem onGen_touches {α : Type} (g : ℕ) (x : Eff (GenObj E Q F) α) : TouchesOnly g (Sys.onGen g x) := by
  intro s
  unfold Sys.onGen
  cases s.gens[g]? with
  | none => exact .inl rfl
  | some o => exact .inr ⟨_, rfl⟩

theorem runBackward_touches (env : Env E Q F) (mo : ModelObj F) (S t t' : F) : TouchesOnly mo.gen (SysCall.runBackward env mo S t t') := by
  intro s
  unfold SysCall.runBackward ModelObj.source
  simp only
  cases hd : s.market.heap[mo.handle]? with
  | none =>
    have : (mo.view : Eff (Sys E Q F) (View F)) s = (.ub, s) := by
      unfold ModelObj.view
      rw [Eff.bind_of_ub (s' := s) (by simp [Sys.onMarket, Market.deref, hd])]
    rw [Eff.bind_of_ub this]
    exact .inl rfl
  | some d =>
    have : (mo.view : Eff (Sys E Q F) (View F)) s = (.ok (ModelObj.seen d s.market.r), s) := by
      unfold ModelObj.view
      rw [Eff.bind_of_ok (s' := s) (a := d) (by simp [Sys.onMarket, Market.deref, hd])]
      rfl
    rw [Eff.bind_of_ok this]
    exact onGen_touches _ _ s

variable [FlInf F]

theorem calculatePrice_touches (env : Env E Q F) (p : Pricer F) (N : ℕ) : TouchesOnly p.model.gen (p.calculatePrice env N) := by
  intro s
  cases ho : s.gens[p.model.gen]? with
  | none =>
    have : (p.model.getSteps : Eff (Sys E Q F) ℕ) s = (.ub, s) := by
      unfold ModelObj.getSteps Sys.onGen
      rw [ho]
    unfold Pricer.calculatePrice
    rw [Eff.bind_of_ub this]
    exact .inl rfl
  | some o =>
    obtain ⟨src, hsrc⟩ := source_exists env p.model (List.getElem?_eq_some_iff.mp ho).1 o.dim
    rw [Pricer.calculatePrice_source env p N ho hsrc]
    exact .inr ⟨_, rfl⟩

end
end Verif
