import Verif.Lemmas.Exact
import Verif.Props.Session
import Verif.Props.PathDependent
import Mathlib.Probability.Independence.InfinitePi

/-!
# Property C80: a lookback session estimates the price of the lookback contract
-/

set_option linter.unusedSectionVars false

namespace Verif
open MeasureTheory ProbabilityTheory Spec

/-! ## Extremes of a path -/

section
variable {n : ℕ} (hn : 0 < n) (x : ℕ → ℝ)
include hn

theorem lowest_mem : ∃ j < n, lowest n x = x j := by
  obtain ⟨j, hj, e⟩ := Set.Nonempty.csInf_mem (s := x '' Set.Iio n) ⟨x 0, 0, hn, rfl⟩ ((Set.finite_Iio n).image x)
  exact ⟨j, hj, e.symm⟩

theorem lowest_le {j : ℕ} (hj : j < n) : lowest n x ≤ x j := csInf_le ((Set.finite_Iio n).image x).bddBelow ⟨j, hj, rfl⟩

theorem highest_mem : ∃ j < n, highest n x = x j := by
  obtain ⟨j, hj, e⟩ := Set.Nonempty.csSup_mem (s := x '' Set.Iio n) ⟨x 0, 0, hn, rfl⟩ ((Set.finite_Iio n).image x)
  exact ⟨j, hj, e.symm⟩

theorem le_highest {j : ℕ} (hj : j < n) : x j ≤ highest n x := le_csSup ((Set.finite_Iio n).image x).bddAbove ⟨j, hj, rfl⟩

theorem isMin_lowest : IsMin ((List.range n).map x) (lowest n x) := by
  obtain ⟨j, hj, e⟩ := lowest_mem hn x
  refine ⟨?_, fun y hy => ?_⟩
  · rw [e]
    exact List.mem_map.mpr ⟨j, List.mem_range.mpr hj, rfl⟩
  · obtain ⟨j, hj, rfl⟩ := List.mem_map.mp hy
    exact lowest_le hn x (List.mem_range.mp hj)

theorem isMax_highest : IsMax ((List.range n).map x) (highest n x) := by
  obtain ⟨j, hj, e⟩ := highest_mem hn x
  refine ⟨?_, fun y hy => ?_⟩
  · rw [e]
    exact List.mem_map.mpr ⟨j, List.mem_range.mpr hj, rfl⟩
  · obtain ⟨j, hj, rfl⟩ := List.mem_map.mp hy
    exact le_highest hn x (List.mem_range.mp hj)

end

theorem lowest_congr {n : ℕ} {x y : ℕ → ℝ} (h : ∀ j < n, x j = y j) : lowest n x = lowest n y := by
  unfold lowest
  rw [Set.image_congr (s := Set.Iio n) (f := x) (g := y) fun j hj => h j hj]

theorem highest_congr {n : ℕ} {x y : ℕ → ℝ} (h : ∀ j < n, x j = y j) : highest n x = highest n y := by
  unfold highest
  rw [Set.image_congr (s := Set.Iio n) (f := x) (g := y) fun j hj => h j hj]

theorem measurable_lowest {Ω : Type} [MeasurableSpace Ω] {X : ℕ → Ω → ℝ} (n : ℕ) (h : ∀ j < n, Measurable (X j)) : Measurable fun ω => lowest n fun j => X j ω := by
  unfold lowest
  simp only [sInf_image']
  exact Measurable.iInf fun j => h j j.2

theorem measurable_highest {Ω : Type} [MeasurableSpace Ω] {X : ℕ → Ω → ℝ} (n : ℕ) (h : ∀ j < n, Measurable (X j)) : Measurable fun ω => highest n fun j => X j ω := by
  unfold highest
  simp only [sSup_image']
  exact Measurable.iSup fun j => h j j.2

theorem measurable_fixedLookback {Ω : Type} [MeasurableSpace Ω] (c : Prop) [Decidable c] (K : ℝ) {X : ℕ → Ω → ℝ} (n : ℕ) (h : ∀ j < n, Measurable (X j)) :
    Measurable fun ω => fixedLookback c K n fun j => X j ω := by
  have h1 := measurable_lowest n h
  have h2 := measurable_highest n h
  unfold fixedLookback
  split <;> fun_prop

theorem measurable_floatingLookback {Ω : Type} [MeasurableSpace Ω] (c : Prop) [Decidable c] {X : ℕ → Ω → ℝ} {n : ℕ} (hn : 0 < n) (h : ∀ j < n, Measurable (X j)) :
    Measurable fun ω => floatingLookback c n fun j => X j ω := by
  have h1 := measurable_lowest n h
  have h2 := measurable_highest n h
  have h3 := h (n - 1) (by omega)
  unfold floatingLookback
  split <;> fun_prop

theorem lookbackPath_fixed (ty : PayoffType) (K : ℝ) {n : ℕ} (h1 : 0 < n) (h2 : n ≤ INT_MAX) (x : ℕ → ℝ) :
    MC.lookbackPath .fixed (.vanilla ty (fin K)) n (((List.range n).map x).map fin) = .ok (fin (fixedLookback (ty = .call) K n x)) := by
  have hl : ((List.range n).map x).length = n := by simp
  have hs := lookback_scan (R := .exact) (isMin_lowest h1 x) (isMax_highest h1 x) (by rw [hl]; exact h2)
  have hne : (List.range n).map x ≠ [] := by
    rw [← List.length_pos_iff, hl]; exact h1
  have hv := vget_last_map (R := .exact) hne
  rw [hl] at hs hv
  unfold MC.lookbackPath
  rw [hs, Res.bind_ok, hv, Res.bind_ok]
  unfold fixedLookback
  simp only [MC.LookbackKind.payoff, Payoff.payoffType, Payoff.eval1]
  split <;> simp only [Ext.sub, Ext.lit, Ext.max, Fl.max_real, Fl.lit_real, Rat.cast_zero]

theorem lookbackPath_floating (ty : PayoffType) {n : ℕ} (h1 : 0 < n) (h2 : n ≤ INT_MAX) (x : ℕ → ℝ) :
    MC.lookbackPath .floating (.floatingLookback ty) n (((List.range n).map x).map fin) = .ok (fin (floatingLookback (ty = .call) n x)) := by
  have hl : ((List.range n).map x).length = n := by simp
  have hs := lookback_scan (R := .exact) (isMin_lowest h1 x) (isMax_highest h1 x) (by rw [hl]; exact h2)
  have hne : (List.range n).map x ≠ [] := by
    rw [← List.length_pos_iff, hl]; exact h1
  have hv := vget_last_map (R := .exact) hne
  have hlast : ((List.range n).map x).getLast hne = x (n - 1) := by
    rw [List.getLast_eq_getElem]
    simp
  rw [hl, hlast] at hv
  rw [hl] at hs
  unfold MC.lookbackPath
  rw [hs, Res.bind_ok, hv, Res.bind_ok]
  unfold floatingLookback
  simp only [MC.LookbackKind.payoff, Payoff.payoffType, Payoff.eval2]
  have a1 := lowest_le h1 x (j := n - 1) (by omega)
  have a2 := le_highest h1 x (j := n - 1) (by omega)
  split <;> simp only [Ext.sub, Ext.lit, Ext.max, Fl.max_real, Fl.lit_real, Rat.cast_zero]
  · rw [max_eq_left (by linarith)]
  · rw [max_eq_left (by linarith)]

/-! ## Sessions -/

section
variable {E Q F : Type} [Fl F] [Add F] [Sub F] [Mul F] [Div F] [Neg F] [FlInt F] [FlInf F] (env : Env E Q F)

theorem started_price {i : Session F} {c : Session.Choices} {k : ModelKind F} {o : OptObj F} (h : AcceptedSession i c k o)
    (s : Sys E Q F) (N : ℕ) (x : E) : (started env c i s N x).1 =
      (i.cls.price k.isGbm i.strat o (k.source env.engine.gen i.dim (ModelObj.seen (stockOf i) i.r)) i.r N x).1 :=
  session_eq (startAt env x) (⟨h.data, h.model, h.callPut, h.option, h.ticker, h.family, h.payoffArgs, h.optionArgs⟩ :
    AcceptedSession { i with N := N } c k o) s

/-- What a model simulates in the system of `C73_session` comes from the engine. -/
theorem runPrices_engine (k : ModelKind F) (d : StockData F) (r T : F) (t : String) (dim rd : ℕ) (x : E) :
    (SysCall.runPrices env ⟨t, 0, k, 0⟩ T (alone t d r (.pseudo ⟨dim, rd, x⟩))).1 = (Sim.prices env.engine.gen dim (ModelObj.seen d r) T k x).1 := by
  have h1 : (⟨t, 0, k, 0⟩ : ModelObj F).getSteps (alone t d r (.pseudo ⟨dim, rd, x⟩) : Sys E Q F) = (.ok dim, alone t d r (.pseudo ⟨dim, rd, x⟩)) :=
    Pricer.getSteps_eq (o := .pseudo ⟨dim, rd, x⟩) rfl
  have h2 := (ModelObj.source_embeds (s := alone t d r (.pseudo ⟨dim, rd, x⟩)) env (mo := ⟨t, 0, k, 0⟩) (d := d) rfl (by simp [alone]) dim).prices T
    (.pseudo ⟨dim, rd, x⟩)
  have h3 := Sim.prices_embeds (Engine.gen_embeds env dim rd) dim (ModelObj.seen d r) T k x
  unfold SysCall.runPrices
  rw [Eff.bind_of_ok h1]
  refine (congrArg Prod.fst h2).trans ?_
  show (Sim.prices (GenObj.gen env) dim (ModelObj.seen d r) T k (.pseudo ⟨dim, rd, x⟩)).1 = _
  rw [h3]

end

section
variable {E Q : Type} [MeasurableSpace E] {μ : Measure E} [IsProbabilityMeasure μ] {count : ℝ → Measure ℕ}

theorem seen_finite {i : Session Ext} {v : View ℝ} (hv : FiniteData i v) : ModelObj.seen (stockOf i) i.r = Sim.finView v := by
  unfold ModelObj.seen stockOf Sim.finView
  rw [hv.S, hv.sigma, hv.coupon, hv.r]

theorem finite_price {i : Session Ext} {c : Session.Choices} {k : ModelKind Ext} {o : OptObj Ext} (h : AcceptedSession i c k o) {v : View ℝ} (hv : FiniteData i v) :
    0 < v.price := by
  have := h.data.1
  rw [hv.S, Ext.lit, Ext.le] at this
  simpa using this

theorem finite_maturity {i : Session Ext} {c : Session.Choices} {k : ModelKind Ext} {o : OptObj Ext} (h : AcceptedSession i c k o) {T : ℝ}
    (hT : lastSet i.params "T" = some (.dbl (fin T))) : o.T = fin T ∧ 0 ≤ T := by
  obtain ⟨-, -, h3, h4, -⟩ := h.option
  rw [hT] at h3
  have e : fin T = o.T := Param.dbl.inj (Option.some.inj h3)
  refine ⟨e.symm, ?_⟩
  rw [← e, Ext.lit, Ext.lt] at h4
  simpa using h4

theorem simulatable_nu {dt : ℝ} {k : ModelKind ℝ} (hk : Simulatable dt k) : ∀ nu a b, k = .varianceGamma nu a b → nu ≠ 0 := by
  rintro nu a b rfl
  exact hk.2.ne'

theorem gamma_engine {e : Engine E ℝ} {k : ModelKind ℝ} (h : GammaNonneg e k) : ∀ nu a b, k = .varianceGamma nu a b → ∀ a b s x s', 0 < a → 0 < b →
    e.gen.draw (.gamma a b) s = (.ok x, s') → 0 ≤ x := by
  rintro nu a b rfl a b s x s' ha hb hx
  cases hx
  exact h _ _ _ ha (by simpa using hb)

theorem fin_injective : Function.Injective fin := by
  intro a b h
  injection h with h
  exact_mod_cast h

theorem via_ok {α β : Type} {f : α → β} (hf : Function.Injective f) {r : Res α} {a : α} (h : r.via f = .ok (f a)) : r = .ok a := by
  cases r with
  | ok b => rw [hf (Res.ok.inj h)]
  | throw e => cases h
  | ub => cases h

variable (env : Env E Q Ext) {e : Engine E ℝ}

/-- **C80.** In every model, with finite data, the engine determines one path of finite prices. -/
theorem C80_path (he : RandomEngine e μ count) (hE : SameEngine env.engine e) {i : Session Ext} {c : Session.Choices} {k' : ModelKind Ext} {o : OptObj Ext}
    (h : AcceptedSession i c k' o) {v : View ℝ} (hv : FiniteData i v) {k : ModelKind ℝ} (hkk : SameModel k' k) {T : ℝ}
    (hT : lastSet i.params "T" = some (.dbl (fin T))) (h1 : 0 < i.dim) (h2 : i.dim ≤ INT_MAX) (hk : Simulatable (T / i.dim) k) (hG : GammaNonneg e k) :
    ∃ X : ℕ → E → ℝ, (∀ j, Measurable (X j)) ∧ (∀ j < i.dim, ∀ x, 0 < X j x) ∧
      ∀ x, ∃ s', SysCall.runPrices env ⟨i.ticker, 0, k', 0⟩ o.T (alone i.ticker (stockOf i) i.r (.pseudo ⟨i.dim, c.rd, x⟩)) =
        (.ok ((List.range i.dim).map fun j => fin (X j x)), s') := by
  obtain ⟨hoT, hT0⟩ := finite_maturity h hT
  obtain ⟨X, h3, h4, h5⟩ := C65_path (randomSource_engine he) (finite_price h hv) T h2 hk
  refine ⟨X, h4, h5, fun x => ?_⟩
  obtain ⟨x', hx⟩ := h3 x
  refine ⟨_, Prod.ext ?_ rfl⟩
  rw [runPrices_engine, seen_finite hv, hoT, Sim.maps_prices (SameEngine.gen hE) hkk (simulatable_nu hk) (gamma_engine hG) v hT0 h1 x, hx]
  show Res.ok _ = _
  rw [List.map_map]
  rfl

/-- The path of a session, on the level of the engine. -/
theorem simulatedPath_finite (hE : SameEngine env.engine e) {i : Session Ext} {c : Session.Choices} {k' : ModelKind Ext} {o : OptObj Ext}
    (h : AcceptedSession i c k' o) {v : View ℝ} (hv : FiniteData i v) {k : ModelKind ℝ} (hkk : SameModel k' k) {T : ℝ}
    (hT : lastSet i.params "T" = some (.dbl (fin T))) (h1 : 0 < i.dim) (hk : Simulatable (T / i.dim) k) (hG : GammaNonneg e k) {X : ℕ → E → ℝ}
    (hX : ∀ x, ∃ s', SysCall.runPrices env ⟨i.ticker, 0, k', 0⟩ o.T (alone i.ticker (stockOf i) i.r (.pseudo ⟨i.dim, c.rd, x⟩)) =
      (.ok ((List.range i.dim).map fun j => fin (X j x)), s')) : SimulatedPath (Sim.prices e.gen i.dim v T k) i.dim X := by
  obtain ⟨hoT, hT0⟩ := finite_maturity h hT
  intro x
  obtain ⟨s', hx⟩ := hX x
  have := congrArg Prod.fst hx
  rw [runPrices_engine, seen_finite hv, hoT, Sim.maps_prices (SameEngine.gen hE) hkk (simulatable_nu hk) (gamma_engine hG) v hT0 h1 x] at this
  refine ⟨_, Prod.ext (via_ok (List.map_injective_iff.mpr fin_injective) (this.trans ?_)) rfl⟩
  rw [List.map_map]
  rfl

/-- The common part of the two lookback pricers. -/
theorem lookback_averages (he : RandomEngine e μ count) (hE : SameEngine env.engine e) {i : Session Ext} {c : Session.Choices} {k' : ModelKind Ext}
    {o : OptObj Ext} (h : AcceptedSession i c k' o) {v : View ℝ} (hv : FiniteData i v) {k : ModelKind ℝ} (hkk : SameModel k' k) {T : ℝ}
    (hT : lastSet i.params "T" = some (.dbl (fin T))) (h1 : 0 < i.dim) (h2 : i.dim ≤ INT_MAX) (hk : Simulatable (T / i.dim) k) (hG : GammaNonneg e k)
    {X : ℕ → E → ℝ} (hX : ∀ x, ∃ s', SysCall.runPrices env ⟨i.ticker, 0, k', 0⟩ o.T (alone i.ticker (stockOf i) i.r (.pseudo ⟨i.dim, c.rd, x⟩)) =
      (.ok ((List.range i.dim).map fun j => fin (X j x)), s')) {kind : MC.LookbackKind}
    (hprice : ∀ (N : ℕ) (x : E), (i.cls.price k'.isGbm i.strat o (k'.source env.engine.gen i.dim (ModelObj.seen (stockOf i) i.r)) i.r N x).1 =
      (MC.lookback kind (k'.source env.engine.gen i.dim (ModelObj.seen (stockOf i) i.r)) (Eff.lift (.ok i.r)) o.payoff o.T N x).1)
    {f : (ℕ → ℝ) → ℝ} (hpath : ∀ x, MC.lookbackPath kind o.payoff i.dim (((List.range i.dim).map x).map fin) = .ok (fin (f x)))
    (hfm : Measurable fun l : List ℝ => f fun j => l.getD j 0) (hfc : ∀ x y : ℕ → ℝ, (∀ j < i.dim, x j = y j) → f x = f y) (s : Sys E Q Ext) :
    ∃ run : ℕ → Eff E ℝ, (∀ N, 0 < N → N ≤ INT_MAX → SameRun (started env c i s N) (run N)) ∧
      Averages μ run (Set.Iic INT_MAX) (Real.exp (-(v.r * T))) fun x => f fun j => X j x := by
  letI : FlInf ℝ := ⟨0⟩
  obtain ⟨hoT, hT0⟩ := finite_maturity h hT
  have hsim := simulatedPath_finite env hE h hv hkk hT h1 hk hG hX
  have hg : ∀ l : List ℝ, l.length = i.dim → l = (List.range i.dim).map fun j => l.getD j 0 := by
    intro l hl
    refine List.ext_getElem (by simp [hl]) fun j hj _ => ?_
    simp [hj]
  have ha := averages_prices (randomSource_engine he) (finite_price h hv) h2 hk (pp := fun l => .ok (f fun j => l.getD j 0)) hfm (fun l _ _ => rfl) hsim v.r
  have hm : ∀ N, 0 < N → Maps fin (MC.longPricer (Sim.prices env.engine.gen i.dim (Sim.finView v) (fin T) k') (Eff.lift (.ok (fin v.r)))
      (MC.lookbackPath kind o.payoff i.dim) (fin T) N) (MC.longPricer (Sim.prices e.gen i.dim v T k) (Eff.lift (.ok v.r))
      (fun l => .ok (f fun j => l.getD j 0)) T N) := fun N hN => by
    refine MC.maps_longPricer (Sim.maps_prices (SameEngine.gen hE) hkk (simulatable_nu hk) (gamma_engine hG) v hT0 h1) (fun s l s' hl => ?_) _ _ hN
    have := C32_length _ _ _ _ _ _ _ _ hl
    conv_lhs => rw [hg l this]
    rw [hpath]
    rfl
  refine ⟨fun N x => ((MC.longPricer (Sim.prices e.gen i.dim v T k) (Eff.lift (.ok v.r)) (fun l => .ok (f fun j => l.getD j 0)) T N x).1, x), ?_, ?_⟩
  · intro N hN hN2 x y s' hy
    obtain ⟨hy1, rfl⟩ := Prod.mk.inj hy
    refine Prod.ext ?_ rfl
    rw [started_price env h s N x, hprice, MC.lookback_eq, MC.intPricer_eq_long hN2, seen_finite hv, hoT, hv.r]
    refine (congrArg Prod.fst (hm N hN x)).trans ?_
    rw [hy1]
    rfl
  · refine Averages.of_eq (averages_int (run' := fun N => MC.longPricer (Sim.prices e.gen i.dim v T k) (Eff.lift (.ok v.r)) (fun l => .ok (f fun j => l.getD j 0)) T N)
      ?_ fun N _ => rfl) fun N x => rfl
    convert ha using 2 with x
    refine hfc _ _ fun j hj => ?_
    simp [hj]

/-- **C80.** Fixed-strike lookbacks, in every model: with a perfect engine, the session prices the contract "largest price minus
strike, or zero" (call), resp. "strike minus smallest price, or zero" (put): it returns a finite number, the discount factor
times the average of independent copies of this payoff, the extremes being taken over all prices of the path. -/
theorem C80_fixed (he : RandomEngine e μ count) (hE : SameEngine env.engine e) {i : Session Ext} {c : Session.Choices} {k' : ModelKind Ext} {o : OptObj Ext}
    (h : AcceptedSession i c k' o) {v : View ℝ} (hv : FiniteData i v) {k : ModelKind ℝ} (hkk : SameModel k' k) (hcls : i.cls = .fixedLookback) {K T : ℝ}
    (hK : lastSet i.params "K" = some (.dbl (fin K))) (hT : lastSet i.params "T" = some (.dbl (fin T))) (h1 : 0 < i.dim) (h2 : i.dim ≤ INT_MAX)
    (hk : Simulatable (T / i.dim) k) (hG : GammaNonneg e k)
    {X : ℕ → E → ℝ} (hX : ∀ x, ∃ s', SysCall.runPrices env ⟨i.ticker, 0, k', 0⟩ o.T (alone i.ticker (stockOf i) i.r (.pseudo ⟨i.dim, c.rd, x⟩)) =
      (.ok ((List.range i.dim).map fun j => fin (X j x)), s')) (s : Sys E Q Ext) :
    ∃ run : ℕ → Eff E ℝ, (∀ N, 0 < N → N ≤ INT_MAX → SameRun (started env c i s N) (run N)) ∧
      Averages μ run (Set.Iic INT_MAX) (Real.exp (-(v.r * T))) fun x => fixedLookback (i.ty = .call) K i.dim fun j => X j x := by
  have hp : o.payoff = .vanilla i.ty (fin K) := by
    obtain ⟨-, -, -, -, h5, -⟩ := h.option
    have hf := h.family
    rw [hcls] at hf
    have hf' : i.factory = .fixedLookback := by simpa [Family] using hf
    rw [hf'] at h5
    obtain ⟨K', h6, -, h7⟩ := h5
    rw [hK] at h6
    cases h6
    exact h7
  refine lookback_averages env he hE h hv hkk hT h1 h2 hk hG hX (kind := .fixed) (fun N x => by rw [hcls]; rfl) (fun x => ?_) ?_ (fun x y hxy => ?_) s
  · rw [hp]
    exact lookbackPath_fixed i.ty K h1 h2 x
  · exact measurable_fixedLookback (i.ty = .call) K (X := fun j (l : List ℝ) => l.getD j 0) i.dim fun j _ => measurable_getD j
  · unfold fixedLookback
    rw [lowest_congr hxy, highest_congr hxy]

/-- **C80.** Floating-strike lookbacks, in every model: the contract "last price minus smallest price" (call), resp. "largest
price minus last price" (put). -/
theorem C80_floating (he : RandomEngine e μ count) (hE : SameEngine env.engine e) {i : Session Ext} {c : Session.Choices} {k' : ModelKind Ext} {o : OptObj Ext}
    (h : AcceptedSession i c k' o) {v : View ℝ} (hv : FiniteData i v) {k : ModelKind ℝ} (hkk : SameModel k' k) (hcls : i.cls = .floatingLookback) {T : ℝ}
    (hT : lastSet i.params "T" = some (.dbl (fin T))) (h1 : 0 < i.dim) (h2 : i.dim ≤ INT_MAX) (hk : Simulatable (T / i.dim) k) (hG : GammaNonneg e k)
    {X : ℕ → E → ℝ} (hX : ∀ x, ∃ s', SysCall.runPrices env ⟨i.ticker, 0, k', 0⟩ o.T (alone i.ticker (stockOf i) i.r (.pseudo ⟨i.dim, c.rd, x⟩)) =
      (.ok ((List.range i.dim).map fun j => fin (X j x)), s')) (s : Sys E Q Ext) :
    ∃ run : ℕ → Eff E ℝ, (∀ N, 0 < N → N ≤ INT_MAX → SameRun (started env c i s N) (run N)) ∧
      Averages μ run (Set.Iic INT_MAX) (Real.exp (-(v.r * T))) fun x => floatingLookback (i.ty = .call) i.dim fun j => X j x := by
  have hp : o.payoff = .floatingLookback i.ty := by
    obtain ⟨-, -, -, -, h5, -⟩ := h.option
    have hf := h.family
    rw [hcls] at hf
    have hf' : i.factory = .floatingLookback := by simpa [Family] using hf
    rw [hf'] at h5
    exact h5
  refine lookback_averages env he hE h hv hkk hT h1 h2 hk hG hX (kind := .floating) (fun N x => by rw [hcls]; rfl) (fun x => ?_) ?_ (fun x y hxy => ?_) s
  · rw [hp]
    exact lookbackPath_floating i.ty h1 h2 x
  · exact measurable_floatingLookback (i.ty = .call) (X := fun j (l : List ℝ) => l.getD j 0) h1 fun j _ => measurable_getD j
  · unfold floatingLookback
    rw [lowest_congr hxy, highest_congr hxy, hxy _ (by omega)]

/-- **C80.** Fixed-strike lookback puts, in every model: the probability of an error of `ε` or more with `N` paths is at most
`2 exp(-2 N ε² / (K exp(-rT))²)`. -/
theorem C80_put (he : RandomEngine e μ count) (hE : SameEngine env.engine e) {i : Session Ext} {c : Session.Choices} {k' : ModelKind Ext} {o : OptObj Ext}
    (h : AcceptedSession i c k' o) {v : View ℝ} (hv : FiniteData i v) {k : ModelKind ℝ} (hkk : SameModel k' k) (hcls : i.cls = .fixedLookback)
    (hty : i.ty = .put) {K T : ℝ} (hK0 : 0 < K)
    (hK : lastSet i.params "K" = some (.dbl (fin K))) (hT : lastSet i.params "T" = some (.dbl (fin T))) (h1 : 0 < i.dim) (h2 : i.dim ≤ INT_MAX)
    (hk : Simulatable (T / i.dim) k) (hG : GammaNonneg e k)
    {X : ℕ → E → ℝ} (hX : ∀ x, ∃ s', SysCall.runPrices env ⟨i.ticker, 0, k', 0⟩ o.T (alone i.ticker (stockOf i) i.r (.pseudo ⟨i.dim, c.rd, x⟩)) =
      (.ok ((List.range i.dim).map fun j => fin (X j x)), s')) {N : ℕ} (hN : 0 < N) (hN2 : N ≤ INT_MAX) (s : Sys E Q Ext) :
    ∃ run : Eff E ℝ, SameRun (started env c i s N) run ∧
      Deviates μ run (Real.exp (-(v.r * T)) * ∫ x, max (K - lowest i.dim fun j => X j x) 0 ∂μ)
        fun ε => 2 * Real.exp (-(2 * N * ε ^ 2) / (Real.exp (-(v.r * T)) * K) ^ 2) := by
  obtain ⟨run, hr, ha⟩ := C80_fixed env he hE h hv hkk hcls hK hT h1 h2 hk hG hX s
  have hf : ∀ x, fixedLookback (i.ty = .call) K i.dim (fun j => X j x) = max (K - lowest i.dim fun j => X j x) 0 := by
    intro x
    rw [hty]
    simp [fixedLookback]
  simp only [hf] at ha
  refine ⟨run N, hr N hN hN2, ?_⟩
  have hpos : ∀ x, 0 < lowest i.dim fun j => X j x := by
    intro x
    obtain ⟨j, hj, e'⟩ := lowest_mem h1 fun j => X j x
    rw [e']
    obtain ⟨x', hx⟩ := simulatedPath_finite env hE h hv hkk hT h1 hk hG hX x
    exact C32_positive _ _ _ (finite_price h hv) _ _ _ _ _ hx _ (List.mem_map.mpr ⟨j, List.mem_range.mpr hj, rfl⟩)
  have := C70_hoeffding (Real.exp_pos _) ha hK0 (fun x => ⟨le_max_right _ _, max_le (by linarith [hpos x]) hK0.le⟩) (show N ∈ Set.Iic INT_MAX from hN2) hN
  simpa using this

/-! ## Geometric Brownian motion -/

theorem map_normals {Z : ℕ → E → ℝ} (hZ : IidNormal μ Z) : μ.map (fun x j => Z j x) = normals := by
  rw [(iIndepFun_iff_map_fun_eq_infinitePi_map hZ.measurable).mp hZ.indep]
  unfold normals
  simp only [hZ.law]

theorem gbmPrice_eq_path (v : View ℝ) (T : ℝ) (n : ℕ) (Z : ℕ → E → ℝ) (j : ℕ) (x : E) :
    gbmPrice v T n Z 0 j x = gbmPath v.price v.sigma v.r (v.coupon.getD 0) T n (fun l => Z l x) j := by
  simp [gbmPrice, gbmPath, drawSum]

theorem measurable_gbmPath (S sigma r q T : ℝ) (n j : ℕ) : Measurable fun z : ℕ → ℝ => gbmPath S sigma r q T n z j := by
  unfold gbmPath
  fun_prop

theorem memLp_extremes {X : ℕ → E → ℝ} {n : ℕ} (hn : 0 < n) (hL : ∀ j < n, MemLp (X j) 2 μ) (hm : ∀ j < n, Measurable (X j)) (hp : ∀ j < n, ∀ x, 0 < X j x) :
    MemLp (fun x => lowest n fun j => X j x) 2 μ ∧ MemLp (fun x => highest n fun j => X j x) 2 μ := by
  have hs : MemLp (fun x => ∑ j ∈ Finset.range n, X j x) 2 μ := memLp_finset_sum _ fun j hj => hL j (Finset.mem_range.mp hj)
  have hle : ∀ x, ∀ j < n, X j x ≤ ∑ j ∈ Finset.range n, X j x := fun x j hj =>
    Finset.single_le_sum (f := fun j => X j x) (fun l hl => (hp l (Finset.mem_range.mp hl) x).le) (Finset.mem_range.mpr hj)
  refine ⟨hs.mono (measurable_lowest n hm).aestronglyMeasurable (.of_forall fun x => ?_), hs.mono (measurable_highest n hm).aestronglyMeasurable (.of_forall fun x => ?_)⟩
  · obtain ⟨j, hj, e⟩ := lowest_mem hn fun j => X j x
    rw [e, Real.norm_of_nonneg (hp j hj x).le]
    exact (hle x j hj).trans (le_abs_self _)
  · obtain ⟨j, hj, e⟩ := highest_mem hn fun j => X j x
    rw [e, Real.norm_of_nonneg (hp j hj x).le]
    exact (hle x j hj).trans (le_abs_self _)

theorem memLp_lookbacks {X : ℕ → E → ℝ} {n : ℕ} (hn : 0 < n) (hL : ∀ j < n, MemLp (X j) 2 μ) (hm : ∀ j < n, Measurable (X j)) (hp : ∀ j < n, ∀ x, 0 < X j x)
    (c : Prop) [Decidable c] (K : ℝ) :
    MemLp (fun x => fixedLookback c K n fun j => X j x) 2 μ ∧ MemLp (fun x => floatingLookback c n fun j => X j x) 2 μ := by
  obtain ⟨h1, h2⟩ := memLp_extremes hn hL hm hp
  have h3 := hL (n - 1) (by omega)
  unfold fixedLookback floatingLookback
  constructor <;> split
  · exact (h2.sub (memLp_const K)).pos_part
  · exact ((memLp_const K).sub h1).pos_part
  · exact h3.sub h1
  · exact h2.sub h3

/-- The paths of a GBM session. -/
theorem gbm_session (he : RandomEngine e μ count) (hE : SameEngine env.engine e) {i : Session Ext} {c : Session.Choices} {o : OptObj Ext}
    (h : AcceptedSession i c .gbm o) {v : View ℝ} (hv : FiniteData i v) {T : ℝ} (hT : lastSet i.params "T" = some (.dbl (fin T))) (h1 : 0 < i.dim)
    (h2 : i.dim ≤ INT_MAX) : ∃ Z : ℕ → E → ℝ, IidNormal μ Z ∧ (∀ x, ∃ s', SysCall.runPrices env ⟨i.ticker, 0, .gbm, 0⟩ o.T
      (alone i.ticker (stockOf i) i.r (.pseudo ⟨i.dim, c.rd, x⟩)) = (.ok ((List.range i.dim).map fun j => fin (gbmPrice v T i.dim Z 0 j x)), s')) := by
  obtain ⟨Z, hZ, hp⟩ := exists_draws (randomSource_engine he)
  obtain ⟨X, -, -, hX⟩ := C80_path env he hE h hv (k := .gbm) .gbm hT h1 h2 trivial trivial
  have hs := simulatedPath_finite env hE h hv (k := .gbm) .gbm hT h1 trivial trivial hX
  refine ⟨Z, hZ, fun x => ?_⟩
  obtain ⟨s', hx⟩ := hX x
  obtain ⟨a, ha⟩ := hs x
  obtain ⟨b, hb⟩ := hp v T i.dim h2 x
  rw [ha] at hb
  have e1 := Res.ok.inj (Prod.mk.inj hb).1
  refine ⟨s', hx.trans ?_⟩
  have e2 := congrArg (List.map fin) e1
  rw [List.map_map, List.map_map] at e2
  exact congrArg (fun l => (Res.ok l, s')) e2

/-- **C80.** Fixed-strike lookbacks on a geometric Brownian motion: the price returned by the session is an unbiased estimator
of the discounted expected payoff on the path at the monitoring dates, with variance proportional to `1 / N`. -/
theorem C80_gbm_fixed (he : RandomEngine e μ count) (hE : SameEngine env.engine e) {i : Session Ext} {c : Session.Choices} {o : OptObj Ext}
    (h : AcceptedSession i c .gbm o) {v : View ℝ} (hv : FiniteData i v) (hcls : i.cls = .fixedLookback) {K T : ℝ}
    (hK : lastSet i.params "K" = some (.dbl (fin K))) (hT : lastSet i.params "T" = some (.dbl (fin T))) (h1 : 0 < i.dim) (h2 : i.dim ≤ INT_MAX)
    {N : ℕ} (hN : 0 < N) (hN2 : N ≤ INT_MAX) (s : Sys E Q Ext) :
    ∃ run : Eff E ℝ, SameRun (started env c i s N) run ∧
      Estimator μ run
        (∫ z, Real.exp (-(v.r * T)) * fixedLookback (i.ty = .call) K i.dim (gbmPath v.price v.sigma v.r (v.coupon.getD 0) T i.dim z) ∂normals)
        (Var[fun z => Real.exp (-(v.r * T)) * fixedLookback (i.ty = .call) K i.dim (gbmPath v.price v.sigma v.r (v.coupon.getD 0) T i.dim z); normals] / N) := by
  letI : FlInf ℝ := ⟨0⟩
  obtain ⟨Z, hZ, hX⟩ := gbm_session env he hE h hv hT h1 h2
  obtain ⟨run, hr, ha⟩ := C80_fixed env he hE h hv (k := .gbm) .gbm hcls hK hT h1 h2 trivial trivial hX s
  refine ⟨run N, hr N hN hN2, ?_⟩
  have hS := finite_price h hv
  have hm : Measurable fun x j => Z j x := measurable_pi_lambda _ hZ.measurable
  have hf : Measurable fun z => Real.exp (-(v.r * T)) * fixedLookback (i.ty = .call) K i.dim (gbmPath v.price v.sigma v.r (v.coupon.getD 0) T i.dim z) :=
    (measurable_fixedLookback _ K (X := fun j z => gbmPath v.price v.sigma v.r (v.coupon.getD 0) T i.dim z j) i.dim fun j _ => measurable_gbmPath ..).const_mul _
  have := C70_estimator ha (memLp_lookbacks h1 (fun j _ => memLp_gbmPrice hZ v T i.dim 0 j) (fun j _ => measurable_gbmPrice hZ v T i.dim 0 j)
    (fun j _ x => mul_pos hS (Real.exp_pos _)) (i.ty = .call) K).1 (show N ∈ Set.Iic INT_MAX from hN2) hN
  simp only [gbmPrice_eq_path] at this
  rw [← map_normals hZ, integral_map hm.aemeasurable hf.aestronglyMeasurable, variance_map hf.aemeasurable hm.aemeasurable, integral_const_mul]
  exact this

/-- **C80.** The same for floating-strike lookbacks. -/
theorem C80_gbm_floating (he : RandomEngine e μ count) (hE : SameEngine env.engine e) {i : Session Ext} {c : Session.Choices} {o : OptObj Ext}
    (h : AcceptedSession i c .gbm o) {v : View ℝ} (hv : FiniteData i v) (hcls : i.cls = .floatingLookback) {T : ℝ}
    (hT : lastSet i.params "T" = some (.dbl (fin T))) (h1 : 0 < i.dim) (h2 : i.dim ≤ INT_MAX)
    {N : ℕ} (hN : 0 < N) (hN2 : N ≤ INT_MAX) (s : Sys E Q Ext) :
    ∃ run : Eff E ℝ, SameRun (started env c i s N) run ∧
      Estimator μ run
        (∫ z, Real.exp (-(v.r * T)) * floatingLookback (i.ty = .call) i.dim (gbmPath v.price v.sigma v.r (v.coupon.getD 0) T i.dim z) ∂normals)
        (Var[fun z => Real.exp (-(v.r * T)) * floatingLookback (i.ty = .call) i.dim (gbmPath v.price v.sigma v.r (v.coupon.getD 0) T i.dim z); normals] / N) := by
  letI : FlInf ℝ := ⟨0⟩
  obtain ⟨Z, hZ, hX⟩ := gbm_session env he hE h hv hT h1 h2
  obtain ⟨run, hr, ha⟩ := C80_floating env he hE h hv (k := .gbm) .gbm hcls hT h1 h2 trivial trivial hX s
  refine ⟨run N, hr N hN hN2, ?_⟩
  have hS := finite_price h hv
  have hm : Measurable fun x j => Z j x := measurable_pi_lambda _ hZ.measurable
  have hf : Measurable fun z => Real.exp (-(v.r * T)) * floatingLookback (i.ty = .call) i.dim (gbmPath v.price v.sigma v.r (v.coupon.getD 0) T i.dim z) :=
    (measurable_floatingLookback _ (X := fun j z => gbmPath v.price v.sigma v.r (v.coupon.getD 0) T i.dim z j) h1 fun j _ => measurable_gbmPath ..).const_mul _
  have := C70_estimator ha (memLp_lookbacks h1 (fun j _ => memLp_gbmPrice hZ v T i.dim 0 j) (fun j _ => measurable_gbmPrice hZ v T i.dim 0 j)
    (fun j _ x => mul_pos hS (Real.exp_pos _)) (i.ty = .call) 0).2 (show N ∈ Set.Iic INT_MAX from hN2) hN
  simp only [gbmPrice_eq_path] at this
  rw [← map_normals hZ, integral_map hm.aemeasurable hf.aestronglyMeasurable, variance_map hf.aemeasurable hm.aemeasurable, integral_const_mul]
  exact this

end

/-! ## Examples -/

namespace LookbackExample
open SessionExample

noncomputable def toReal : Ext → ℝ
  | .nan => 0
  | .num x => x.toReal

noncomputable def realLaw : Dist.StdLaw Ext → Dist.StdLaw ℝ
  | .normal mean stddev => .normal (toReal mean) (toReal stddev)
  | .poisson mean => .poisson (toReal mean)
  | .uniform a b => .uniform (toReal a) (toReal b)
  | .exponential lambda => .exponential (toReal lambda)
  | .gamma shape scale => .gamma (toReal shape) (toReal scale)

theorem realLaw_finLaw (l : Dist.StdLaw ℝ) : realLaw (finLaw l) = l := by cases l <;> rfl

/-- A perfect engine whose gamma variates are not negative. -/
noncomputable def positive (l : Dist.StdLaw ℝ) (x : ℝ) : ℝ :=
  match l with
  | .gamma _ _ => max x 0
  | _ => x

noncomputable def engine' : Engine PerfectState ℝ :=
  { engine with sample := fun l s => (positive l (engine.sample l s).1, (engine.sample l s).2) }

theorem gammaNonneg (k : ModelKind ℝ) : GammaNonneg engine' k := by
  cases k <;> first | trivial | exact fun _ _ _ _ _ => le_max_right _ _

theorem randomEngine' : RandomEngine engine' perfectMeasure clippedPoisson where
  sample l hl := by
    obtain ⟨m, hmap⟩ := randomEngine.sample l hl
    have mp : Measurable (positive l) := by
      unfold positive
      cases l <;> fun_prop
    have m' : Measurable (engine'.sample l) := (mp.comp m.fst).prodMk m.snd
    refine ⟨m', ?_⟩
    rw [← hmap]
    refine Measure.map_congr ?_
    cases l with
    | gamma a b =>
      have hlaw : perfectMeasure.map (fun s => (engine.sample (.gamma a b) s).1) = gammaMeasure a (1 / b) := by
        have := congrArg (Measure.map Prod.fst) hmap
        rw [Measure.map_map measurable_fst m] at this
        refine this.trans ?_
        exact Measure.map_fst_prod.trans (by rw [measure_univ, one_smul]; simp [stdMeasure])
      have hz : gammaMeasure a (1 / b) (Set.Iio 0) = 0 := by
        rw [gammaMeasure, withDensity_apply _ measurableSet_Iio]
        exact lintegral_gammaPDF_of_nonpos le_rfl
      rw [← hlaw, Measure.map_apply m.fst measurableSet_Iio] at hz
      refine (ae_iff.mpr (measure_mono_null (fun s hs => ?_) hz))
      simp only [Set.mem_setOf_eq, Set.mem_preimage, Set.mem_Iio]
      by_contra hc
      exact hs (Prod.ext (max_eq_left (not_lt.mp hc)) rfl)
    | _ => exact .of_forall fun s => rfl
  integer mean x hm := randomEngine.integer mean x hm
  forget l := randomEngine.forget l

/-- The same engine over the extended reals. -/
noncomputable def env' : Env PerfectState Unit Ext :=
  ⟨⟨engine'.default, engine'.seeded, fun l x => (fin (engine'.sample (realLaw l) x).1, (engine'.sample (realLaw l) x).2), fun l => engine'.forget (realLaw l)⟩,
    (toyEnv (F := Ext)).sobol, (toyEnv (F := Ext)).faure⟩

theorem sameEngine : SameEngine env'.engine engine' where
  sample l x := by
    show (fin (engine'.sample (realLaw (finLaw l)) x).1, (engine'.sample (realLaw (finLaw l)) x).2) = _
    rw [realLaw_finLaw]
  forget l x := by
    show engine'.forget (realLaw (finLaw l)) x = _
    rw [realLaw_finLaw]

/-- Market data, option parameters and generator as in main.cpp:53-91. -/
noncomputable def session' (f : OptClass) (ty : PayoffType) (k : ModelKind Ext) (cls : PricerClass) : Session Ext :=
  ⟨"AAPL", fin 100, fin (1/5), some (fin (1/50)), fin (1/20), [("ticker", .str "AAPL"), ("T", .dbl (fin 1)), ("K", .dbl (fin 100))], f, ty,
    fun _ => .ok k, 1000, cls, ⟨fun _ => .ok [], fun _ _ => .ok []⟩, 100000⟩

noncomputable def view' : View ℝ := ⟨100, 1/5, some (1/50), 1/20⟩

theorem finite (f : OptClass) (ty : PayoffType) (k : ModelKind Ext) (cls : PricerClass) : FiniteData (session' f ty k cls) view' := ⟨rfl, rfl, rfl, rfl⟩

theorem accepted_data : Accepted (fin 100) (fin (1/5)) (some (fin (1/50))) := by
  refine ⟨?_, ?_, ?_⟩
  · rw [Ext.lit, Ext.le]; simp
  · rw [Ext.lit, Ext.lt]; simp
  · rintro x hx
    cases hx
    rw [Ext.lit, Ext.lit, Ext.lt, Ext.lt]
    constructor <;> simp
    norm_num

theorem accepted_fixed {ty : PayoffType} (hty : ty = .call ∨ ty = .put) (k : ModelKind Ext) :
    AcceptedSession (session' .fixedLookback ty k .fixedLookback) (choices .fixedLookback) k ⟨.fixedLookback, "AAPL", .vanilla ty (fin 100), fin 1, none⟩ where
  data := accepted_data
  model := rfl
  callPut := hty
  option := ⟨rfl, rfl, rfl, by rw [Ext.lit, Ext.lt]; simp, ⟨fin 100, rfl, by rw [Ext.lit, Ext.lt]; simp, rfl⟩, rfl⟩
  ticker := rfl
  family := by simp [session', Family]
  payoffArgs := .refl _
  optionArgs := List.reverse_perm _

theorem accepted_floating {ty : PayoffType} (hty : ty = .call ∨ ty = .put) (k : ModelKind Ext) :
    AcceptedSession (session' .floatingLookback ty k .floatingLookback) (choices .floatingLookback) k ⟨.floatingLookback, "AAPL", .floatingLookback ty, fin 1, none⟩ where
  data := accepted_data
  model := rfl
  callPut := hty
  option := ⟨rfl, rfl, rfl, by rw [Ext.lit, Ext.lt]; simp, rfl, rfl⟩
  ticker := rfl
  family := by simp [session', Family]
  payoffArgs := .refl _
  optionArgs := List.reverse_perm _

/-- The fixed-strike call on a GBM. -/
example (s : Sys PerfectState Unit Ext) : ∃ run var, SameRun (started env' (choices .fixedLookback) (session' .fixedLookback .call .gbm .fixedLookback) s 100000) run ∧
    Estimator perfectMeasure run (∫ z, Real.exp (-(1/20 * 1)) * max (highest 1000 (gbmPath 100 (1/5) (1/20) (1/50) 1 1000 z) - 100) 0 ∂normals) var := by
  obtain ⟨run, h1, h2⟩ := C80_gbm_fixed env' randomEngine' sameEngine (accepted_fixed (.inl rfl) .gbm) (finite ..) rfl (K := 100) (T := 1) rfl rfl
    (by simp [session']) (by simp [session', INT_MAX]) (N := 100000) (by norm_num) (by simp [INT_MAX]) s
  exact ⟨run, _, h1, h2⟩

/-- The floating-strike put on a GBM. -/
example (s : Sys PerfectState Unit Ext) : ∃ run var, SameRun (started env' (choices .floatingLookback) (session' .floatingLookback .put .gbm .floatingLookback) s 100000) run ∧
    Estimator perfectMeasure run (∫ z, Real.exp (-(1/20 * 1)) * (highest 1000 (gbmPath 100 (1/5) (1/20) (1/50) 1 1000 z) -
      gbmPath 100 (1/5) (1/20) (1/50) 1 1000 z 999) ∂normals) var := by
  obtain ⟨run, h1, h2⟩ := C80_gbm_floating env' randomEngine' sameEngine (accepted_floating (.inr rfl) .gbm) (finite ..) rfl (T := 1) rfl
    (by simp [session']) (by simp [session', INT_MAX]) (N := 100000) (by norm_num) (by simp [INT_MAX]) s
  exact ⟨run, _, h1, h2⟩

/-- A put in the Heston model. -/
example (s : Sys PerfectState Unit Ext) : ∃ (X : ℕ → PerfectState → ℝ) (run : Eff PerfectState ℝ), (∀ j < 1000, ∀ x, 0 < X j x) ∧
    SameRun (started env' (choices .fixedLookback) (session' .fixedLookback .put (.heston (fin 2) (fin (1/25)) (fin (3/10)) (fin (-1/2)) (fin (1/25)) cirExplicitEuler)
      .fixedLookback) s 100000) run ∧
    Deviates perfectMeasure run (Real.exp (-(1/20 * 1)) * ∫ x, max (100 - lowest 1000 fun j => X j x) 0 ∂perfectMeasure)
      fun ε => 2 * Real.exp (-(2 * (100000 : ℕ) * ε ^ 2) / (Real.exp (-(1/20 * 1)) * 100) ^ 2) := by
  have hd : SameStep (cirExplicitEuler : CIR Ext) (cirExplicitEuler : CIR ℝ) := by
    intro V dt kappa theta sigmaV z hdt
    have : 0 ≤ Fl.max V (lit 0) * dt := mul_nonneg (by simp) hdt
    simp only [cirExplicitEuler, Ext.lit, Ext.add, Ext.sub, Ext.mul, Ext.max, Ext.sqrt this]
  have hk : Simulatable ((1 : ℝ) / (1000 : ℕ)) (.heston 2 (1/25) (3/10) (-1/2) (1/25) cirExplicitEuler) := by
    intro dt kappa theta sigmaV
    simp only [cirExplicitEuler, Fl.max_real, Fl.sqrt_real]
    fun_prop
  have hm : SameModel (.heston (fin 2) (fin (1/25)) (fin (3/10)) (fin (-1/2)) (fin (1/25)) cirExplicitEuler) (.heston 2 (1/25) (3/10) (-1/2) (1/25) cirExplicitEuler) :=
    .heston hd (by rw [abs_le]; constructor <;> norm_num)
  obtain ⟨X, -, h2, h3⟩ := C80_path env' randomEngine' sameEngine (accepted_fixed (.inr rfl) _) (finite ..) hm (T := 1) rfl
    (by simp [session']) (by simp [session', INT_MAX]) hk trivial
  obtain ⟨run, h4, h5⟩ := C80_put env' randomEngine' sameEngine (accepted_fixed (.inr rfl) _) (finite ..) hm rfl rfl (K := 100) (T := 1) (by norm_num) rfl rfl
    (by simp [session']) (by simp [session', INT_MAX]) hk trivial h3 (N := 100000) (by norm_num) (by simp [INT_MAX]) s
  exact ⟨X, run, h2, h4, h5⟩

/-- A call in the variance gamma model, and one with a floating strike. -/
example (s : Sys PerfectState Unit Ext) : ∃ X : ℕ → PerfectState → ℝ, (∀ j < 1000, ∀ x, 0 < X j x) ∧
    (∃ run : ℕ → Eff PerfectState ℝ, (∀ N, 0 < N → N ≤ INT_MAX → SameRun (started env' (choices .fixedLookback)
      (session' .fixedLookback .call (.varianceGamma (fin (1/5)) (fin (-1/10)) (fin (1/10))) .fixedLookback) s N) (run N)) ∧
      Averages perfectMeasure run (Set.Iic INT_MAX) (Real.exp (-(1/20 * 1))) fun x => max (highest 1000 (fun j => X j x) - 100) 0) ∧
    ∃ run : ℕ → Eff PerfectState ℝ, (∀ N, 0 < N → N ≤ INT_MAX → SameRun (started env' (choices .floatingLookback)
      (session' .floatingLookback .call (.varianceGamma (fin (1/5)) (fin (-1/10)) (fin (1/10))) .floatingLookback) s N) (run N)) ∧
      Averages perfectMeasure run (Set.Iic INT_MAX) (Real.exp (-(1/20 * 1))) fun x => X 999 x - lowest 1000 (fun j => X j x) := by
  have hk : Simulatable ((1 : ℝ) / (1000 : ℕ)) (.varianceGamma (1/5) (-1/10) (1/10)) := by constructor <;> norm_num
  have hm : SameModel (.varianceGamma (fin (1/5)) (fin (-1/10)) (fin (1/10))) (.varianceGamma (1/5) (-1/10) (1/10)) := .varianceGamma
  obtain ⟨X, -, h2, h3⟩ := C80_path env' randomEngine' sameEngine (accepted_fixed (.inl rfl) _) (finite ..) hm (T := 1) rfl
    (by simp [session']) (by simp [session', INT_MAX]) hk (gammaNonneg _)
  exact ⟨X, h2, C80_fixed env' randomEngine' sameEngine (accepted_fixed (.inl rfl) _) (finite ..) hm rfl (K := 100) (T := 1) rfl rfl
    (by simp [session']) (by simp [session', INT_MAX]) hk (gammaNonneg _) h3 s,
    C80_floating env' randomEngine' sameEngine (accepted_floating (.inl rfl) _) (finite ..) hm rfl (T := 1) rfl
    (by simp [session']) (by simp [session', INT_MAX]) hk (gammaNonneg _) h3 s⟩

end LookbackExample
end Verif
