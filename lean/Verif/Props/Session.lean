import Verif.Lemmas.Session
import Verif.Spec.SessionSpec
import Verif.Spec.SystemSpec
import Verif.Props.Concentration
import Verif.Props.Pricers
import Verif.Lemmas.PerfectGenerator

/-!
# Property C73: pricing sessions, from the market data to the price
-/

set_option linter.unusedSectionVars false

namespace Verif
open MeasureTheory ProbabilityTheory Spec

/-! ## Sessions do not depend on what happened before -/

section
variable {E Q F : Type} [Fl F] [Add F] [Sub F] [Mul F] [Div F] [Neg F] [FlInt F] [FlInf F] (env : Env E Q F)

omit [Add F] [Sub F] [Mul F] [Div F] [Neg F] [FlInt F] [FlInf F] in
theorem construct_accepted {S sigma : F} {c : Option F} (h : Accepted S sigma c) : StockData.construct S sigma c = .ok ⟨S, sigma, c⟩ := by
  obtain ⟨h1, h2, h3⟩ := h
  unfold StockData.construct StockData.validate
  simp only [h1, h2]
  cases c with
  | none => rfl
  | some x =>
    obtain ⟨h4, h5⟩ := h3 x rfl
    simp [Fl.gt, h4, h5]

theorem session_eq {i : Session F} {c : Session.Choices} {k : ModelKind F} {o : OptObj F} (h : AcceptedSession i c k o)
    (s : Sys E Q F) : (i.price env c s).1 =
      (i.cls.price k.isGbm i.strat o (k.source env.engine.gen i.dim (ModelObj.seen (stockOf i) i.r)) i.r i.N env.engine.default).1 :=
  Session.price_eq env c i (construct_accepted h.data) h.model h.payoffArgs h.optionArgs h.callPut h.option h.ticker ((casts_iff _ _).mpr h.family) s

/-- **C73.** The price of a session is the price which a pricer of the session's builder gives for the option described by
the parameters, with the session's model, in a system that contains the session's stock data and rate and a new generator
and nothing else: whatever the program did before, the session prices the contract it was given. -/
theorem C73_session {i : Session F} {c : Session.Choices} {k : ModelKind F} {o : OptObj F} (h : AcceptedSession i c k o)
    (s : Sys E Q F) : (i.price env c s).1 =
      (Pricer.calculatePrice env ⟨i.cls, o, ⟨i.ticker, 0, k, 0⟩, i.strat, true⟩ i.N
        (alone i.ticker (stockOf i) i.r (.pseudo ⟨i.dim, c.rd, env.engine.default⟩))).1 := by
  rw [session_eq env h, Pricer.calculatePrice_eq env _ i.N (s := alone i.ticker (stockOf i) i.r (.pseudo ⟨i.dim, c.rd, env.engine.default⟩))
    (d := stockOf i) (o := .pseudo ⟨i.dim, c.rd, env.engine.default⟩) rfl rfl]
  exact (congrArg Prod.fst (Pricer.onGenerator_pseudo env ⟨i.cls, o, ⟨i.ticker, 0, k, 0⟩, i.strat, true⟩ rfl (ModelObj.seen (stockOf i) i.r) i.N i.dim c.rd
    env.engine.default)).symm

/-- **C73.** Repeating a session gives the same price, to the last bit: in any two states of the program, for any two
outcomes of the random device and any two orders of evaluation. -/
theorem C73_reproducible {i : Session F} {c c' : Session.Choices} {k : ModelKind F} {o : OptObj F}
    (h : AcceptedSession i c k o) (hP : c'.ordP.Perm i.factory.payoffArgs) (hO : c'.ordO.Perm i.factory.optionArgs) (s s' : Sys E Q F) :
    (i.price env c s).1 = (i.price env c' s').1 := by
  rw [session_eq env h, session_eq env (⟨h.data, h.model, h.callPut, h.option, h.ticker, h.family, hP, hO⟩ : AcceptedSession i c' k o)]

end

/-! ## Sessions with a perfect engine -/

section
variable {E Q : Type} [MeasurableSpace E] {μ : Measure E} [IsProbabilityMeasure μ] {count : ℝ → Measure ℕ}

theorem randomSource_engine {e : Engine E ℝ} (h : RandomEngine e μ count) : RandomSource e.gen μ count where
  draw d hd := by
    obtain ⟨h1, h2⟩ := h.sample d.law hd
    exact ⟨fun x => (e.sample d.law x).1, fun x => (e.sample d.law x).2, h1.fst, h1.snd, fun _ => rfl, h2⟩
  integer mean s s' x hm he := by
    obtain ⟨n, hn, e'⟩ := h.integer mean s hm
    refine ⟨n, hn, ?_⟩
    injection he with h1 _
    injection h1 with h1
    rw [← h1]
    exact e'
  newDist d := h.forget d.law

/-- A perfect generator serves independent standard normal draws. -/
theorem exists_normals {G : Type} [MeasurableSpace G] {μ : Measure G} [IsProbabilityMeasure μ] {g : Gen G ℝ} (hg : RandomSource g μ count) :
    ∃ (Z : ℕ → G → ℝ) (next : ℕ → G → G), IidNormal μ Z ∧ (∀ n, MeasurePreserving (next n) μ μ) ∧
      ∀ n s, Draws (g.draw .stdNormal) (g.newDist .stdNormal s) ((List.range n).map fun j => Z j s) (next n s) := by
  obtain ⟨y, t, hs⟩ := Sim.random_draw (α := Unit) hg Sim.valid_stdNormal
  have hm := hg.newDist .stdNormal
  have my := hs.measurable_ya ()
  have hlaw : μ.map (y ()) = gaussianReal 0 1 := by
    obtain ⟨x, t', hx, ht, hr, hp⟩ := hg.draw .stdNormal Sim.valid_stdNormal
    have e : y () = x := by
      funext s
      have := (hs.run () s).symm.trans (hr s)
      injection this with h1 _
      injection h1
    have h1 : (μ.map fun s => (x s, t' s)).map Prod.fst = μ.map x := by
      rw [Measure.map_map measurable_fst (hx.prodMk ht)]; rfl
    rw [e, ← h1, hp, Measure.map_fst_prod]
    simp [stdMeasure, Dist.law]
    rfl
  have hi := hs.iIndep_runs
  refine ⟨fun j s => y () ((t ())^[j] (g.newDist .stdNormal s)), fun n s => (t ())^[n] (g.newDist .stdNormal s), ⟨fun j => ?_, fun j => ?_, ?_⟩,
    fun n => (hs.preserving_iterate n).comp hm, fun n s => hs.draws n (g.newDist .stdNormal s)⟩
  · exact my.comp ((hs.preserving_iterate j).measurable.comp hm.measurable)
  · have hp := (hs.preserving_iterate j).comp hm
    rw [← hlaw]
    conv_rhs => rw [← hp.map_eq, Measure.map_map my hp.measurable]
    rfl
  · rw [iIndepFun_iff_measure_inter_preimage_eq_mul] at hi ⊢
    intro S sets hsets
    have ms : ∀ j ∈ S, MeasurableSet ((fun s => y () ((t ())^[j] s)) ⁻¹' sets j) := fun j hj =>
      (my.comp (hs.preserving_iterate j).measurable) (hsets j hj)
    have e1 := hm.measure_preimage (s := ⋂ j ∈ S, (fun s => y () ((t ())^[j] s)) ⁻¹' sets j)
      (MeasurableSet.biInter S.countable_toSet ms).nullMeasurableSet
    have e2 := hi S hsets
    rw [← e1] at e2
    rw [Set.preimage_iInter₂] at e2
    refine e2.trans (Finset.prod_congr rfl fun j hj => ?_)
    exact (hm.measure_preimage (ms j hj).nullMeasurableSet).symm

theorem prices_of_draws {G : Type} {g : Gen G ℝ} {s s' : G} {z : ℕ → ℝ} {steps : ℕ} (hst : steps ≤ INT_MAX)
    (h : Draws (g.draw .stdNormal) (g.newDist .stdNormal s) ((List.range steps).map z) s') (v : View ℝ) (T : ℝ) :
    Sim.prices g steps v T .gbm s = (.ok ((List.range steps).map fun k => v.price * Real.exp ((v.r - v.coupon.getD 0 - v.sigma ^ 2 / 2) * ((k + 1) * (T / steps)) +
      v.sigma * Real.sqrt (T / steps) * ∑ j ∈ Finset.range (k + 1), z j)), s') := by
  refine (C33_closedForm g steps v T s _ _).mpr ⟨hst, _, h, by simp, ?_⟩
  refine List.map_congr_left fun k hk => ?_
  have := sum_take_range z 0 (k := k + 1) (n := steps) (by have := List.mem_range.mp hk; omega)
  simp only [Nat.zero_add] at this
  rw [this, Finset.range_eq_Ico]

/-- The GBM paths are built from these draws. -/
theorem exists_draws {G : Type} [MeasurableSpace G] {μ : Measure G} [IsProbabilityMeasure μ] {g : Gen G ℝ} (hg : RandomSource g μ count) :
    ∃ Z : ℕ → G → ℝ, IidNormal μ Z ∧ ∀ (v : View ℝ) (T : ℝ) (steps : ℕ), steps ≤ INT_MAX → SimulatedPath (Sim.prices g steps v T .gbm) steps
      (gbmPrice v T steps Z 0) := by
  obtain ⟨Z, next, hZ, -, hd⟩ := exists_normals hg
  refine ⟨Z, hZ, fun v T steps hst s => ⟨next steps s, ?_⟩⟩
  rw [prices_of_draws hst (hd steps s) v T]
  simp only [gbmPrice, drawSum, Nat.zero_add, Finset.range_eq_Ico]

variable [FlInf ℝ] (env : Env E Q ℝ)

theorem started_eq {i : Session ℝ} {c : Session.Choices} {k : ModelKind ℝ} {o : OptObj ℝ} (h : AcceptedSession i c k o)
    (s : Sys E Q ℝ) (N : ℕ) (x : E) : (started env c i s N x).1 =
      (i.cls.price k.isGbm i.strat o (k.source env.engine.gen i.dim (ModelObj.seen (stockOf i) i.r)) i.r N x).1 :=
  session_eq (startAt env x) (⟨h.data, h.model, h.callPut, h.option, h.ticker, h.family, h.payoffArgs, h.optionArgs⟩ :
    AcceptedSession { i with N := N } c k o) s

/-- The prices a model simulates in the system of `C73_session` are those of the engine. -/
theorem simulatedPath_engine {k : ModelKind ℝ} {d : StockData ℝ} {r T : ℝ} {t : String} {dim rd : ℕ} {X : ℕ → E → ℝ}
    (hX : ∀ x, ∃ s', SysCall.runPrices env ⟨t, 0, k, 0⟩ T (alone t d r (.pseudo ⟨dim, rd, x⟩)) = (.ok ((List.range dim).map fun j => X j x), s')) :
    SimulatedPath (Sim.prices env.engine.gen dim (ModelObj.seen d r) T k) dim X := by
  intro x
  obtain ⟨s', h⟩ := hX x
  have h1 : (⟨t, 0, k, 0⟩ : ModelObj ℝ).getSteps (alone t d r (.pseudo ⟨dim, rd, x⟩) : Sys E Q ℝ) = (.ok dim, alone t d r (.pseudo ⟨dim, rd, x⟩)) :=
    Pricer.getSteps_eq (o := .pseudo ⟨dim, rd, x⟩) rfl
  unfold SysCall.runPrices at h
  rw [Eff.bind_of_ok h1] at h
  have h2 := (ModelObj.source_embeds (s := alone t d r (.pseudo ⟨dim, rd, x⟩)) env (mo := ⟨t, 0, k, 0⟩) (d := d) rfl (by simp [alone]) dim).prices T
    (.pseudo ⟨dim, rd, x⟩)
  have h3 := Sim.prices_embeds (Engine.gen_embeds env dim rd) dim (ModelObj.seen d r) T k x
  rw [show (alone t d r (.pseudo ⟨dim, rd, x⟩) : Sys E Q ℝ).put 0 (.pseudo ⟨dim, rd, x⟩) = alone t d r (.pseudo ⟨dim, rd, x⟩) from rfl, h] at h2
  have h4 := congrArg Prod.fst h2
  refine ⟨(Sim.prices env.engine.gen dim (ModelObj.seen d r) T k x).2, Prod.ext ?_ rfl⟩
  have h5 : (Sim.prices (GenObj.gen env) dim (ModelObj.seen d r) T k (.pseudo ⟨dim, rd, x⟩)).1 = .ok ((List.range dim).map fun j => X j x) := h4.symm
  rw [h3] at h5
  exact h5

theorem accepted_price {i : Session ℝ} {c : Session.Choices} {k : ModelKind ℝ} {o : OptObj ℝ} (h : AcceptedSession i c k o) :
    0 < (ModelObj.seen (stockOf i) i.r).price := by
  have := h.data.1
  simpa [ModelObj.seen, stockOf] using this

/-- **C73.** The prices that the theorems below speak about exist: in every model, the engine determines one path. -/
theorem C73_path (he : RandomEngine env.engine μ count) {i : Session ℝ} {c : Session.Choices} {k : ModelKind ℝ} {o : OptObj ℝ}
    (h : AcceptedSession i c k o) (h2 : i.dim ≤ INT_MAX) (hk : Simulatable (o.T / i.dim) k) : ∃ X : ℕ → E → ℝ, (∀ j, Measurable (X j)) ∧
      (∀ j < i.dim, ∀ x, 0 < X j x) ∧
      ∀ x, ∃ s', SysCall.runPrices env ⟨i.ticker, 0, k, 0⟩ o.T (alone i.ticker (stockOf i) i.r (.pseudo ⟨i.dim, c.rd, x⟩)) =
        (.ok ((List.range i.dim).map fun j => X j x), s') := by
  have hS : 0 < (ModelObj.seen (stockOf i) i.r).price := accepted_price h
  obtain ⟨X, h3, h4, h5⟩ := C65_path (randomSource_engine he) hS o.T h2 hk
  refine ⟨X, h4, h5, fun x => ?_⟩
  obtain ⟨x', hx⟩ := h3 x
  have e1 : (⟨i.ticker, 0, k, 0⟩ : ModelObj ℝ).getSteps (alone i.ticker (stockOf i) i.r (.pseudo ⟨i.dim, c.rd, x⟩) : Sys E Q ℝ) =
      (.ok i.dim, alone i.ticker (stockOf i) i.r (.pseudo ⟨i.dim, c.rd, x⟩)) := Pricer.getSteps_eq (o := .pseudo ⟨i.dim, c.rd, x⟩) rfl
  have e2 := (ModelObj.source_embeds (s := alone i.ticker (stockOf i) i.r (.pseudo ⟨i.dim, c.rd, x⟩)) env (mo := ⟨i.ticker, 0, k, 0⟩) (d := stockOf i) rfl
    (by simp [alone]) i.dim).prices o.T (.pseudo ⟨i.dim, c.rd, x⟩)
  have e3 := Sim.prices_embeds (Engine.gen_embeds env i.dim c.rd) i.dim (ModelObj.seen (stockOf i) i.r) o.T k x
  unfold SysCall.runPrices
  rw [Eff.bind_of_ok e1]
  refine ⟨_, Prod.ext ?_ rfl⟩
  refine (congrArg Prod.fst e2).trans ?_
  show (Sim.prices (GenObj.gen env) i.dim (ModelObj.seen (stockOf i) i.r) o.T k (.pseudo ⟨i.dim, c.rd, x⟩)).1 = _
  rw [e3, hx]

theorem Averages.of_eq {G : Type} [MeasurableSpace G] {μ : Measure G} {run run' : ℕ → Eff G ℝ} {ok : Set ℕ} {a : ℝ} {V : G → ℝ} (h : Averages μ run ok a V)
    (e : ∀ N s, (run' N s).1 = (run N s).1) : Averages μ run' ok a V := by
  obtain ⟨X, h1, h2, h3⟩ := h
  refine ⟨X, h1, h2, fun N hN h0 s => ?_⟩
  obtain ⟨s', h⟩ := h3 N hN h0 s
  exact ⟨(run' N s).2, Prod.ext ((e N s).trans (by rw [h])) rfl⟩

/-- **C73.** European, digital and double digital options, in every model: with a perfect engine the session returns the
discounted average of the payoffs of independent copies of the price at maturity. -/
theorem C73_singlePath (he : RandomEngine env.engine μ count) {i : Session ℝ} {c : Session.Choices} {k : ModelKind ℝ} {o : OptObj ℝ}
    (h : AcceptedSession i c k o) (hcls : i.cls = .singlePath) (h1 : 0 < i.dim) (h2 : i.dim ≤ INT_MAX) (hk : Simulatable (o.T / i.dim) k)
    {f : ℝ → ℝ} (hf : Measurable f) (hpay : ∀ x, o.payoff.eval1 x = .ok (f x)) {X : ℕ → E → ℝ}
    (hX : ∀ x, ∃ s', SysCall.runPrices env ⟨i.ticker, 0, k, 0⟩ o.T (alone i.ticker (stockOf i) i.r (.pseudo ⟨i.dim, c.rd, x⟩)) =
      (.ok ((List.range i.dim).map fun j => X j x), s')) (s : Sys E Q ℝ) :
    Averages μ (started env c i s) (Set.Iic INT_MAX) (Real.exp (-(i.r * o.T))) fun x => f (X (i.dim - 1) x) := by
  refine Averages.of_eq (C70_singlePath (randomSource_engine he) h1 h2 hk hf hpay (v := ModelObj.seen (stockOf i) i.r) (simulatedPath_engine env hX)) fun N x => ?_
  rw [started_eq env h s N x, hcls]
  rfl

/-- **C73.** Arithmetic Asian options, in every model. -/
theorem C73_arithmeticAsian (he : RandomEngine env.engine μ count) {i : Session ℝ} {c : Session.Choices} {k : ModelKind ℝ} {o : OptObj ℝ}
    (h : AcceptedSession i c k o) (hcls : i.cls = .arithmeticAsian) (h2 : i.dim ≤ INT_MAX) (hk : Simulatable (o.T / i.dim) k)
    {f : ℝ → ℝ} (hf : Measurable f) (hpay : ∀ x, o.payoff.eval1 x = .ok (f x)) {X : ℕ → E → ℝ}
    (hX : ∀ x, ∃ s', SysCall.runPrices env ⟨i.ticker, 0, k, 0⟩ o.T (alone i.ticker (stockOf i) i.r (.pseudo ⟨i.dim, c.rd, x⟩)) =
      (.ok ((List.range i.dim).map fun j => X j x), s')) (s : Sys E Q ℝ) :
    Averages μ (started env c i s) Set.univ (Real.exp (-(i.r * o.T))) fun x => f ((∑ j ∈ Finset.range i.dim, X j x) / i.dim) := by
  have hS : 0 < (ModelObj.seen (stockOf i) i.r).price := accepted_price h
  refine Averages.of_eq (C70_asian (randomSource_engine he) hS h2 hk hf hpay (v := ModelObj.seen (stockOf i) i.r) (simulatedPath_engine env hX)).1 fun N x => ?_
  rw [started_eq env h s N x, hcls]
  rfl

/-- **C73.** Geometric Asian options, in every model. -/
theorem C73_geometricAsian (he : RandomEngine env.engine μ count) {i : Session ℝ} {c : Session.Choices} {k : ModelKind ℝ} {o : OptObj ℝ}
    (h : AcceptedSession i c k o) (hcls : i.cls = .geometricAsian) (h2 : i.dim ≤ INT_MAX) (hk : Simulatable (o.T / i.dim) k)
    {f : ℝ → ℝ} (hf : Measurable f) (hpay : ∀ x, o.payoff.eval1 x = .ok (f x)) {X : ℕ → E → ℝ}
    (hX : ∀ x, ∃ s', SysCall.runPrices env ⟨i.ticker, 0, k, 0⟩ o.T (alone i.ticker (stockOf i) i.r (.pseudo ⟨i.dim, c.rd, x⟩)) =
      (.ok ((List.range i.dim).map fun j => X j x), s')) (s : Sys E Q ℝ) :
    Averages μ (started env c i s) Set.univ (Real.exp (-(i.r * o.T))) fun x => f ((∏ j ∈ Finset.range i.dim, X j x) ^ ((1 : ℝ) / i.dim)) := by
  have hS : 0 < (ModelObj.seen (stockOf i) i.r).price := accepted_price h
  refine Averages.of_eq (C70_asian (randomSource_engine he) hS h2 hk hf hpay (v := ModelObj.seen (stockOf i) i.r) (simulatedPath_engine env hX)).2 fun N x => ?_
  rw [started_eq env h s N x, hcls]
  rfl

open Classical in
/-- **C73.** Knock-in options, in every model. -/
theorem C73_knockIn (he : RandomEngine env.engine μ count) {i : Session ℝ} {c : Session.Choices} {k : ModelKind ℝ} {o : OptObj ℝ}
    (h : AcceptedSession i c k o) (hcls : i.cls = .knockIn) (h1 : 0 < i.dim) (h2 : i.dim ≤ INT_MAX) (hk : Simulatable (o.T / i.dim) k)
    {f : ℝ → ℝ} (hf : Measurable f) (hpay : ∀ x, o.payoff.eval1 x = .ok (f x)) {B : ℝ} {dir : BarrierDirection} (hB : o.barrier = some (B, dir)) {X : ℕ → E → ℝ}
    (hX : ∀ x, ∃ s', SysCall.runPrices env ⟨i.ticker, 0, k, 0⟩ o.T (alone i.ticker (stockOf i) i.r (.pseudo ⟨i.dim, c.rd, x⟩)) =
      (.ok ((List.range i.dim).map fun j => X j x), s')) (s : Sys E Q ℝ) :
    Averages μ (started env c i s) (Set.Iic INT_MAX) (Real.exp (-(i.r * o.T)))
      fun x => if ∃ j < i.dim, Beyond dir B (X j x) then f (X (i.dim - 1) x) else 0 := by
  have hS : 0 < (ModelObj.seen (stockOf i) i.r).price := accepted_price h
  refine Averages.of_eq (C70_barrier (randomSource_engine he) hS h1 h2 hk hf hpay dir B (v := ModelObj.seen (stockOf i) i.r) (simulatedPath_engine env hX)).1 fun N x => ?_
  have hc : o.cls = .knockIn := by
    have := h.family
    rw [hcls, ← h.option.1] at this
    simpa [Family] using this
  have hact : Pricer.isActive o = OptionModel.knockInIsActive B dir := by
    funext x
    simp [Pricer.isActive, hB, hc]
  rw [started_eq env h s N x, hcls]
  unfold PricerClass.price
  rw [hact]
  rfl

open Classical in
/-- **C73.** Knock-out options, in every model. -/
theorem C73_knockOut (he : RandomEngine env.engine μ count) {i : Session ℝ} {c : Session.Choices} {k : ModelKind ℝ} {o : OptObj ℝ}
    (h : AcceptedSession i c k o) (hcls : i.cls = .knockOut) (h1 : 0 < i.dim) (h2 : i.dim ≤ INT_MAX) (hk : Simulatable (o.T / i.dim) k)
    {f : ℝ → ℝ} (hf : Measurable f) (hpay : ∀ x, o.payoff.eval1 x = .ok (f x)) {B : ℝ} {dir : BarrierDirection} (hB : o.barrier = some (B, dir)) {X : ℕ → E → ℝ}
    (hX : ∀ x, ∃ s', SysCall.runPrices env ⟨i.ticker, 0, k, 0⟩ o.T (alone i.ticker (stockOf i) i.r (.pseudo ⟨i.dim, c.rd, x⟩)) =
      (.ok ((List.range i.dim).map fun j => X j x), s')) (s : Sys E Q ℝ) :
    Averages μ (started env c i s) (Set.Iic INT_MAX) (Real.exp (-(i.r * o.T)))
      fun x => if ∃ j < i.dim, Beyond dir B (X j x) then 0 else f (X (i.dim - 1) x) := by
  have hS : 0 < (ModelObj.seen (stockOf i) i.r).price := accepted_price h
  refine Averages.of_eq (C70_barrier (randomSource_engine he) hS h1 h2 hk hf hpay dir B (v := ModelObj.seen (stockOf i) i.r) (simulatedPath_engine env hX)).2 fun N x => ?_
  have hc : o.cls = .knockOut := by
    have := h.family
    rw [hcls, ← h.option.1] at this
    simpa [Family] using this
  have hact : Pricer.isActive o = OptionModel.knockOutIsActive B dir := by
    funext x
    simp [Pricer.isActive, hB, hc]
  rw [started_eq env h s N x, hcls]
  unfold PricerClass.price
  rw [hact]
  rfl

/-! ## European options under Black and Scholes -/

/-- The Black-Scholes value of the discounted expected payoffs along the draws. -/
theorem blackScholes_gbmPrice {Ω : Type} [MeasurableSpace Ω] {P : Measure Ω} [IsProbabilityMeasure P] {Z : ℕ → Ω → ℝ} (h : IidNormal P Z) (v : View ℝ)
    (hS : 0 < v.price) (hσ : 0 < v.sigma) {T : ℝ} (hT : 0 < T) {K : ℝ} (hK : 0 < K) {steps : ℕ} (hs : 0 < steps) (hm : steps ≤ INT_MAX) :
    Real.exp (-(v.r * T)) * ∫ ω, max (gbmPrice v T steps Z 0 (steps - 1) ω - K) 0 ∂P = blackScholesCall v.price v.sigma v.r (v.coupon.getD 0) T K ∧
    Real.exp (-(v.r * T)) * ∫ ω, max (K - gbmPrice v T steps Z 0 (steps - 1) ω) 0 ∂P = blackScholesPut v.price v.sigma v.r (v.coupon.getD 0) T K := by
  obtain ⟨C, Q, h1, h2, h3, h4⟩ := C34_blackScholes h v hS hσ hT hK hs hm (N := 1) one_pos (by decide) 0
  have e1 : ∀ ω, C ω = Real.exp (-(v.r * T)) * max (gbmPrice v T steps Z 0 (steps - 1) ω - K) 0 := by
    intro ω
    have := (h1 ω).symm.trans (singlePath_mcEstimate (Z := Z) v T hs hm (f := fun x => max (x - K) 0) (fun x => by simp [Payoff.eval1]) (N := 1) (by decide) 0 ω)
    injection this with h _
    injection h with h
    rw [h]
    simp [mcEstimate]
  have e2 : ∀ ω, Q ω = Real.exp (-(v.r * T)) * max (K - gbmPrice v T steps Z 0 (steps - 1) ω) 0 := by
    intro ω
    have := (h2 ω).symm.trans (singlePath_mcEstimate (Z := Z) v T hs hm (f := fun x => max (K - x) 0) (fun x => by simp [Payoff.eval1]) (N := 1) (by decide) 0 ω)
    injection this with h _
    injection h with h
    rw [h]
    simp [mcEstimate]
  simp only [e1, e2] at h3 h4
  rw [integral_const_mul] at h3 h4
  exact ⟨h3, h4⟩

theorem memLp_gbmPrice {Ω : Type} [MeasurableSpace Ω] {P : Measure Ω} [IsProbabilityMeasure P] {Z : ℕ → Ω → ℝ} (h : IidNormal P Z) (v : View ℝ) (T : ℝ)
    (steps i k : ℕ) : MemLp (gbmPrice v T steps Z i k) 2 P := by
  refine (memLp_two_iff_integrable_sq (measurable_gbmPrice h v T steps i k).aestronglyMeasurable).mpr ?_
  refine ((h.integrable_exp i (k + 1) (2 * (v.sigma * Real.sqrt (T / steps)))).const_mul
    (v.price ^ 2 * Real.exp (2 * ((v.r - v.coupon.getD 0 - v.sigma ^ 2 / 2) * ((k + 1) * (T / steps)))))).congr (.of_forall fun ω => ?_)
  simp only [gbmPrice]
  rw [mul_pow, ← Real.exp_nat_mul, mul_assoc, ← Real.exp_add]
  congr 2
  push_cast
  ring

theorem european_option {i : Session ℝ} {c : Session.Choices} {k : ModelKind ℝ} {o : OptObj ℝ} (h : AcceptedSession i c k o) (hf : i.factory = .european) {K T : ℝ}
    (hK : lastSet i.params "K" = some (.dbl K)) (hT : lastSet i.params "T" = some (.dbl T)) : o.payoff = .vanilla i.ty K ∧ o.T = T := by
  obtain ⟨-, -, h3, -, h5, -⟩ := h.option
  rw [hf] at h5
  obtain ⟨K', h6, -, h7⟩ := h5
  rw [hK] at h6
  cases h6
  rw [hT] at h3
  cases h3
  exact ⟨h7, rfl⟩

/-- The price of a European session, from the engine state on. -/
theorem european_averages (he : RandomEngine env.engine μ count) {i : Session ℝ} {c : Session.Choices} {o : OptObj ℝ} (h : AcceptedSession i c .gbm o)
    (hcls : i.cls = .singlePath) (h1 : 0 < i.dim) (h2 : i.dim ≤ INT_MAX) {f : ℝ → ℝ} (hf : Measurable f) (hpay : ∀ x, o.payoff.eval1 x = .ok (f x))
    {Z : ℕ → E → ℝ} (hZ : ∀ (v : View ℝ) (T : ℝ) (steps : ℕ), steps ≤ INT_MAX → SimulatedPath (Sim.prices env.engine.gen steps v T .gbm) steps
      (gbmPrice v T steps Z 0)) (s : Sys E Q ℝ) :
    Averages μ (started env c i s) (Set.Iic INT_MAX) (Real.exp (-(i.r * o.T)))
      fun x => f (gbmPrice (ModelObj.seen (stockOf i) i.r) o.T i.dim Z 0 (i.dim - 1) x) := by
  refine Averages.of_eq (C70_singlePath (randomSource_engine he) h1 h2 (k := .gbm) trivial hf hpay (v := ModelObj.seen (stockOf i) i.r) (hZ _ _ _ h2)) fun N x => ?_
  rw [started_eq env h s N x, hcls]
  rfl

/-- **C73.** A European call in the GBM model: whatever the program did before, with a perfect engine the price returned by
the session is an unbiased estimator of the Black-Scholes price; its variance is the variance of the discounted payoff
divided by the number of paths, for any number of time steps. -/
theorem C73_call (he : RandomEngine env.engine μ count) {i : Session ℝ} {c : Session.Choices} {o : OptObj ℝ} (h : AcceptedSession i c .gbm o)
    (hcls : i.cls = .singlePath) (hfac : i.factory = .european) (hty : i.ty = .call) {K T : ℝ} (hK : lastSet i.params "K" = some (.dbl K))
    (hT : lastSet i.params "T" = some (.dbl T)) (hK0 : 0 < K) (hT0 : 0 < T) (hσ : 0 < i.sigma) (h1 : 0 < i.dim) (h2 : i.dim ≤ INT_MAX)
    {N : ℕ} (hN : 0 < N) (hN2 : N ≤ INT_MAX) (s : Sys E Q ℝ) :
    Estimator μ (started env c i s N) (blackScholesCall i.S i.sigma i.r (i.coupon.getD 0) T K)
      (Var[fun z => Real.exp (-(i.r * T)) * max (i.S * Real.exp ((i.r - i.coupon.getD 0 - i.sigma ^ 2 / 2) * T + i.sigma * Real.sqrt T * z) - K) 0;
        gaussianReal 0 1] / N) := by
  obtain ⟨Z, hZ, hp⟩ := exists_draws (randomSource_engine he)
  obtain ⟨ho, hoT⟩ := european_option h hfac hK hT
  have hS := accepted_price h
  set v := ModelObj.seen (stockOf i) i.r with hv
  have ha := european_averages env he h hcls h1 h2 (f := fun x => max (x - K) 0) (by fun_prop) (fun x => by rw [ho, hty]; simp [Payoff.eval1]) hp s
  have hL : MemLp (fun x => max (gbmPrice v T i.dim Z 0 (i.dim - 1) x - K) 0) 2 μ :=
    ((memLp_gbmPrice hZ v T i.dim 0 (i.dim - 1)).sub (memLp_const K)).pos_part
  rw [hoT] at ha
  have := C70_estimator ha hL (N := N) hN2 hN
  have hb : Real.exp (-(i.r * T)) * ∫ x, max (gbmPrice v T i.dim Z 0 (i.dim - 1) x - K) 0 ∂μ =
      blackScholesCall i.S i.sigma i.r (i.coupon.getD 0) T K := (blackScholes_gbmPrice hZ v hS hσ hT0 hK0 h1 h2).1
  rw [← hv, hb] at this
  have hvar : Var[fun x => Real.exp (-(i.r * T)) * max (gbmPrice v T i.dim Z 0 (i.dim - 1) x - K) 0; μ] =
      Var[fun z => Real.exp (-(i.r * T)) * max (blackScholesPrice v T z - K) 0; gaussianReal 0 1] := by
    have m1 := measurable_gbmPrice hZ v T i.dim 0 (i.dim - 1)
    have m2 := measurable_blackScholesPrice v T
    have e := map_gbmPrice_last hZ v hT0.le h1 0
    have a1 := variance_map (X := fun y => Real.exp (-(i.r * T)) * max (y - K) 0) (μ := μ) (Y := gbmPrice v T i.dim Z 0 (i.dim - 1)) (by fun_prop) m1.aemeasurable
    have a2 := variance_map (X := fun y => Real.exp (-(i.r * T)) * max (y - K) 0) (μ := gaussianReal 0 1) (Y := blackScholesPrice v T) (by fun_prop) m2.aemeasurable
    rw [e, a2] at a1
    exact a1.symm
  rw [hvar] at this
  exact this

/-- **C73.** A European put in the GBM model: the price returned by the session is an unbiased estimator of the
Black-Scholes price, and it is off by `ε` or more with probability at most `2 exp(-2 N ε² / (exp(-rT) K)²)`. -/
theorem C73_put (he : RandomEngine env.engine μ count) {i : Session ℝ} {c : Session.Choices} {o : OptObj ℝ} (h : AcceptedSession i c .gbm o)
    (hcls : i.cls = .singlePath) (hfac : i.factory = .european) (hty : i.ty = .put) {K T : ℝ} (hK : lastSet i.params "K" = some (.dbl K))
    (hT : lastSet i.params "T" = some (.dbl T)) (hK0 : 0 < K) (hT0 : 0 < T) (hσ : 0 < i.sigma) (h1 : 0 < i.dim) (h2 : i.dim ≤ INT_MAX)
    {N : ℕ} (hN : 0 < N) (hN2 : N ≤ INT_MAX) (s : Sys E Q ℝ) :
    (∃ var, Estimator μ (started env c i s N) (blackScholesPut i.S i.sigma i.r (i.coupon.getD 0) T K) var) ∧
    Deviates μ (started env c i s N) (blackScholesPut i.S i.sigma i.r (i.coupon.getD 0) T K)
      fun ε => 2 * Real.exp (-(2 * N * ε ^ 2) / (Real.exp (-(i.r * T)) * K) ^ 2) := by
  obtain ⟨Z, hZ, hp⟩ := exists_draws (randomSource_engine he)
  obtain ⟨ho, hoT⟩ := european_option h hfac hK hT
  have hS := accepted_price h
  set v := ModelObj.seen (stockOf i) i.r with hv
  have ha := european_averages env he h hcls h1 h2 (f := fun x => max (K - x) 0) (by fun_prop) (fun x => by rw [ho, hty]; simp [Payoff.eval1]) hp s
  have hpos : ∀ x, 0 < gbmPrice v T i.dim Z 0 (i.dim - 1) x := fun x => mul_pos hS (Real.exp_pos _)
  have hL : MemLp (fun x => max (K - gbmPrice v T i.dim Z 0 (i.dim - 1) x) 0) 2 μ :=
    ((memLp_const K).sub (memLp_gbmPrice hZ v T i.dim 0 (i.dim - 1))).pos_part
  rw [hoT] at ha
  have hb : Real.exp (-(i.r * T)) * ∫ x, max (K - gbmPrice v T i.dim Z 0 (i.dim - 1) x) 0 ∂μ =
      blackScholesPut i.S i.sigma i.r (i.coupon.getD 0) T K := (blackScholes_gbmPrice hZ v hS hσ hT0 hK0 h1 h2).2
  constructor
  · have := C70_estimator ha hL (N := N) hN2 hN
    rw [← hv, hb] at this
    exact ⟨_, this⟩
  · have := C70_hoeffding (Real.exp_pos _) ha hK0 (fun x => ⟨le_max_right _ _, max_le (by linarith [hpos x]) hK0.le⟩) (N := N) hN2 hN
    rw [← hv, hb] at this
    simpa only [sub_zero] using this

end

/-! ## Examples -/

namespace SessionExample

/-- A perfect engine. -/
noncomputable def engine : Engine PerfectState ℝ where
  default := fun _ _ => 0
  seeded _ := fun _ _ => 0
  sample l s := (clipCount l (s 0 l), fun n => s (n + 1))
  forget _ s := s

theorem randomEngine : RandomEngine engine perfectMeasure clippedPoisson where
  sample l hl := ⟨measurable_perfect l, map_perfect hl⟩
  integer mean x _ := ⟨min ⌊x 0 (.poisson mean)⌋₊ INT_MAX, min_le_right _ _, rfl⟩
  forget _ := .id _

noncomputable def env : Env PerfectState Unit ℝ := ⟨engine, (toyEnv (F := ℝ)).sobol, (toyEnv (F := ℝ)).faure⟩

/-- Market data, option parameters and generator as in main.cpp:53-91. -/
noncomputable def session (f : OptClass) (ty : PayoffType) (k : ModelKind ℝ) (cls : PricerClass) (n : ℕ := 1000) : Session ℝ :=
  ⟨"AAPL", 100, 1/5, none, 1/20, [("ticker", .str "AAPL"), ("T", .dbl 1), ("K", .dbl 100), ("B", .dbl 80), ("direction", .dir .down)], f, ty,
    fun _ => .ok k, n, cls, ⟨fun _ => .ok [], fun _ _ => .ok []⟩, 100000⟩

def choices (f : Factory) : Session.Choices := ⟨f.payoffArgs, f.optionArgs.reverse, 17, 4⟩

noncomputable def option (f : OptClass) (ty : PayoffType) (b : Option (ℝ × BarrierDirection)) : OptObj ℝ := ⟨f, "AAPL", .vanilla ty 100, 1, b⟩

theorem accepted {f : OptClass} {ty : PayoffType} (hty : ty = .call ∨ ty = .put) (k : ModelKind ℝ) {cls : PricerClass} {n : ℕ} (hf : f ∈ Family cls)
    {b : Option (ℝ × BarrierDirection)} (hp : PayoffOf f (session f ty k cls n).params ty (.vanilla ty 100))
    (hb : BarrierOf f (session f ty k cls n).params b) : AcceptedSession (session f ty k cls n) (choices f) k (option f ty b) where
  data := by simp [session, Accepted]
  model := rfl
  callPut := hty
  option := ⟨rfl, rfl, rfl, by simp [option], hp, hb⟩
  ticker := rfl
  family := hf
  payoffArgs := .refl _
  optionArgs := List.reverse_perm _

theorem european {ty : PayoffType} (hty : ty = .call ∨ ty = .put) (k : ModelKind ℝ) :
    AcceptedSession (session .european ty k .singlePath) (choices .european) k (option .european ty none) :=
  accepted hty k (by simp [Family]) ⟨100, rfl, by simp, rfl⟩ rfl

/-- Two runs of a session after different histories. -/
example [FlInf ℝ] (s s' : Sys PerfectState Unit ℝ) : ((session .european .call .gbm .singlePath).price env (choices .european) s).1 =
    ((session .european .call .gbm .singlePath).price env ⟨[.K], [.ticker, .T], 5, 6⟩ s').1 :=
  C73_reproducible env (european (.inl rfl) .gbm) (.refl _) (.refl _) s s'

example [FlInf ℝ] (s : Sys PerfectState Unit ℝ) : ((session .european .call .gbm .singlePath).price env (choices .european) s).1 =
    (Pricer.calculatePrice env ⟨.singlePath, option .european .call none, ⟨"AAPL", 0, .gbm, 0⟩, ⟨fun _ => .ok [], fun _ _ => .ok []⟩, true⟩ 100000
      (alone "AAPL" ⟨100, 1/5, none⟩ (1/20) (.pseudo ⟨1000, 17, engine.default⟩))).1 :=
  C73_session env (european (.inl rfl) .gbm) s

/-- The European call of the example is estimated without bias. -/
example [FlInf ℝ] (s : Sys PerfectState Unit ℝ) : ∃ var, Estimator perfectMeasure
    (started env (choices .european) (session .european .call .gbm .singlePath) s 100000) (blackScholesCall 100 (1/5) (1/20) 0 1 100) var :=
  ⟨_, C73_call env randomEngine (european (.inl rfl) .gbm) rfl rfl rfl (K := 100) (T := 1) rfl rfl (by norm_num) (by norm_num)
    (by simp [session]) (by simp [session]) (by simp [session, INT_MAX]) (by norm_num) (by simp [INT_MAX]) s⟩

/-- The put: an error of one unit with 100000 paths has probability at most `2 exp(-20)`. -/
example [FlInf ℝ] (s : Sys PerfectState Unit ℝ) : ∃ Y : PerfectState → ℝ,
    (∀ x, ∃ x', started env (choices .european) (session .european .put .gbm .singlePath) s 100000 x = (.ok (Y x), x')) ∧
    perfectMeasure.real {x | 1 ≤ |Y x - blackScholesPut 100 (1/5) (1/20) 0 1 100|} ≤ 2 * Real.exp (-20) := by
  obtain ⟨Y, h1, h2⟩ := (C73_put env randomEngine (european (.inr rfl) .gbm) rfl rfl rfl (K := 100) (T := 1) rfl rfl (by norm_num) (by norm_num)
    (by simp [session]) (by simp [session]) (by simp [session, INT_MAX]) (N := 100000) (by norm_num) (by simp [INT_MAX]) s).2
  refine ⟨Y, h1, (h2 1 (by norm_num)).trans ?_⟩
  refine mul_le_mul_of_nonneg_left (Real.exp_le_exp.mpr ?_) (by norm_num)
  have e1 : Real.exp (-((session .european .put .gbm .singlePath).r * 1)) ≤ 1 := Real.exp_le_one_iff.mpr (by simp [session])
  have e0 := Real.exp_pos (-((session .european .put .gbm .singlePath).r * 1))
  rw [neg_div, neg_le_neg_iff, le_div_iff₀ (by positivity)]
  push_cast
  nlinarith

theorem simulatable_merton : Simulatable ((1 : ℝ) / (1000 : ℕ)) (.merton (1/10) (-1/20) (1/5)) := by constructor <;> norm_num

/-- A put in the Merton model. -/
example [FlInf ℝ] (s : Sys PerfectState Unit ℝ) : ∃ X : ℕ → PerfectState → ℝ, (∀ j < 1000, ∀ x, 0 < X j x) ∧
    Averages perfectMeasure (started env (choices .european) (session .european .put (.merton (1/10) (-1/20) (1/5)) .singlePath) s) (Set.Iic INT_MAX)
      (Real.exp (-(1/20 * 1))) fun x => max (100 - X 999 x) 0 := by
  have h := european (.inr rfl) (.merton (1/10) (-1/20) (1/5))
  obtain ⟨X, -, h2, h3⟩ := C73_path env randomEngine h (by simp [session, INT_MAX]) simulatable_merton
  exact ⟨X, h2, C73_singlePath env randomEngine h rfl (by simp [session]) (by simp [session, INT_MAX]) simulatable_merton (f := fun x => max (100 - x) 0)
    (by fun_prop) (fun x => by simp [option, Payoff.eval1]) h3 s⟩

open Classical in
example [FlInf ℝ] (n : ℕ) (h0 : 0 < n) (hn : n ≤ INT_MAX) (s : Sys PerfectState Unit ℝ) : ∃ X : ℕ → PerfectState → ℝ, (∀ j < n, ∀ x, 0 < X j x) ∧
    Averages perfectMeasure (started env (choices .knockOut) (session .knockOut .put (.merton (1/10) (-1/20) (1/5)) .knockOut n) s) (Set.Iic INT_MAX)
      (Real.exp (-(1/20 * 1))) (fun x => if ∃ j < n, Beyond .down 80 (X j x) then 0 else max (100 - X (n - 1) x) 0) ∧
    Averages perfectMeasure (started env (choices .knockIn) (session .knockIn .put (.merton (1/10) (-1/20) (1/5)) .knockIn n) s) (Set.Iic INT_MAX)
      (Real.exp (-(1/20 * 1))) (fun x => if ∃ j < n, Beyond .down 80 (X j x) then max (100 - X (n - 1) x) 0 else 0) := by
  have hk : Simulatable ((1 : ℝ) / n) (.merton (1/10) (-1/20) (1/5)) := by
    refine ⟨?_, by norm_num⟩
    positivity
  have h := accepted (f := .knockOut) (.inr rfl) (.merton (1/10) (-1/20) (1/5)) (cls := .knockOut) (n := n) (by simp [Family]) ⟨100, rfl, by simp, rfl⟩
    ⟨80, .down, rfl, rfl, rfl⟩
  have h' := accepted (f := .knockIn) (.inr rfl) (.merton (1/10) (-1/20) (1/5)) (cls := .knockIn) (n := n) (by simp [Family]) ⟨100, rfl, by simp, rfl⟩
    ⟨80, .down, rfl, rfl, rfl⟩
  obtain ⟨X, -, h2, h3⟩ := C73_path env randomEngine h hn hk
  exact ⟨X, h2, C73_knockOut env randomEngine h rfl h0 hn hk (f := fun x => max (100 - x) 0)
    (by fun_prop) (fun x => by simp [option, Payoff.eval1]) rfl h3 s,
    C73_knockIn env randomEngine h' rfl h0 hn hk (f := fun x => max (100 - x) 0)
    (by fun_prop) (fun x => by simp [option, Payoff.eval1]) rfl h3 s⟩

example [FlInf ℝ] (s : Sys PerfectState Unit ℝ) : ∃ X : ℕ → PerfectState → ℝ, (∀ j < 1000, ∀ x, 0 < X j x) ∧
    Averages perfectMeasure (started env (choices .arithmeticAsian) (session .arithmeticAsian .call .gbm .arithmeticAsian) s) Set.univ
      (Real.exp (-(1/20 * 1))) (fun x => max ((∑ j ∈ Finset.range 1000, X j x) / (1000 : ℕ) - 100) 0) ∧
    Averages perfectMeasure (started env (choices .geometricAsian) (session .geometricAsian .call .gbm .geometricAsian) s) Set.univ
      (Real.exp (-(1/20 * 1))) (fun x => max ((∏ j ∈ Finset.range 1000, X j x) ^ ((1 : ℝ) / (1000 : ℕ)) - 100) 0) := by
  have h := accepted (f := .arithmeticAsian) (.inl rfl) .gbm (cls := .arithmeticAsian) (n := 1000) (by simp [Family]) ⟨100, rfl, by simp, rfl⟩ rfl
  have h' := accepted (f := .geometricAsian) (.inl rfl) .gbm (cls := .geometricAsian) (n := 1000) (by simp [Family]) ⟨100, rfl, by simp, rfl⟩ rfl
  obtain ⟨X, -, h2, h3⟩ := C73_path env randomEngine h (by simp [session, INT_MAX]) trivial
  exact ⟨X, h2, C73_arithmeticAsian env randomEngine h rfl (by simp [session, INT_MAX]) trivial (f := fun x => max (x - 100) 0)
    (by fun_prop) (fun x => by simp [option, Payoff.eval1]) h3 s,
    C73_geometricAsian env randomEngine h' rfl (by simp [session, INT_MAX]) trivial (f := fun x => max (x - 100) 0)
    (by fun_prop) (fun x => by simp [option, Payoff.eval1]) h3 s⟩

end SessionExample
end Verif
