import Verif.Lemmas.StockModel
import Verif.Props.Pricers
import Verif.Spec.MonteCarloSpec

/-!
# Properties C32 and C33: simulated paths
-/

set_option linter.unusedSectionVars false

namespace Verif
open Eff Spec

/-! ## C32 -/

section length
variable {G F : Type} [Fl F] [Add F] [Sub F] [Mul F] [Div F] [Neg F] [FlInt F]

theorem unfoldInt_length {σ α β : Type} {body : α → Eff σ (α × β)} {n : Nat} {a : α} {s s' : σ}
    {l : List β} (h : unfoldInt body n a s = (.ok l, s')) : l.length = n :=
  (unfoldN_inv (I := fun _ => True) (J := fun _ => True) (fun _ _ _ _ _ _ => ⟨trivial, trivial⟩)
    trivial (unfoldInt_ok_iff.mp h).2).1

/-- **C32.** For every model, generator, state and arithmetic: a simulation that returns gives exactly
`steps` prices. -/
theorem C32_length (g : Gen G F) (steps : ℕ) (v : View F) (T : F) (k : ModelKind F) (s s' : G)
    (ps : List F) (h : Sim.prices g steps v T k s = (.ok ps, s')) : ps.length = steps := by
  cases k <;>
    simp only [Sim.prices, Sim.gbm, Sim.heston, Sim.bates, Sim.kou, Sim.merton, Sim.varianceGamma,
      bind_ok_iff] at h
  · obtain ⟨_, _, _, h⟩ := h; exact unfoldInt_length h
  · obtain ⟨_, _, _, h⟩ := h; exact unfoldInt_length h
  · obtain ⟨_, _, _, _, _, _, _, _, _, h⟩ := h; exact unfoldInt_length h
  · obtain ⟨_, _, _, _, _, _, _, _, _, _, _, _, _, _, _, h⟩ := h; exact unfoldInt_length h
  · obtain ⟨_, _, _, _, _, _, _, _, _, h⟩ := h; exact unfoldInt_length h
  · obtain ⟨_, _, _, _, _, _, h⟩ := h; exact unfoldInt_length h

/-- **C32.** The price at maturity is the last price that `simulatePrices` gives from the same state
(at least one step); both fail alike. -/
theorem C32_maturity (g : Gen G F) (steps : ℕ) (hs : 0 < steps) (v : View F) (T : F) (k : ModelKind F)
    (s : G) :
    (∀ ps s', Sim.prices g steps v T k s = (.ok ps, s') →
      ∃ h : ps ≠ [], Sim.maturity g steps v T k s = (.ok (ps.getLast h), s')) ∧
    (∀ e s', Sim.prices g steps v T k s = (.throw e, s') →
      Sim.maturity g steps v T k s = (.throw e, s')) ∧
    (∀ s', Sim.prices g steps v T k s = (.ub, s') → Sim.maturity g steps v T k s = (.ub, s')) := by
  refine ⟨?_, ?_, ?_⟩
  · intro ps s' h
    have hl := C32_length g steps v T k s s' ps h
    have hne : ps ≠ [] := by rintro rfl; simp at hl; omega
    refine ⟨hne, ?_⟩
    unfold Sim.maturity
    rw [Eff.bind_of_ok h]
    simp [vback, List.getLast?_eq_some_getLast hne]
  · intro e s' h
    unfold Sim.maturity
    rw [Eff.bind_of_throw h]
  · intro s' h
    unfold Sim.maturity
    rw [Eff.bind_of_ub h]

/-- **C32.** Model objects: the number of prices is what `getSteps()` returns. -/
theorem C32_getSteps {E Q : Type} (env : Env E Q F) (mo : ModelObj F) (T : F) (s s' : Sys E Q F)
    (ps : List F)
    (h : (do let n ← mo.getSteps; (mo.source env n).simulatePrices T) s = (.ok ps, s')) :
    mo.getSteps s = (.ok ps.length, s) := by
  rw [bind_ok_iff] at h
  obtain ⟨n, s₁, hn, h⟩ := h
  have hs : s₁ = s := by
    unfold ModelObj.getSteps Sys.onGen at hn
    split at hn
    · rename_i o ho
      simp only [Prod.mk.injEq] at hn
      obtain ⟨h1, h2⟩ := List.getElem?_eq_some_iff.mp ho
      have : s.gens.set mo.gen o = s.gens := by rw [← h2]; exact List.set_getElem_self h1
      rw [← hn.2, this]
    · simp at hn
  subst hs
  simp only [ModelObj.source] at h
  rw [bind_ok_iff] at h
  obtain ⟨v, s₃, -, h⟩ := h
  rw [hn]
  congr 2
  unfold Sys.onGen at h
  split at h
  · simp only [Prod.mk.injEq] at h
    rcases hp : Sim.prices (GenObj.gen env) n v T mo.kind _ with ⟨r, g'⟩
    rw [hp] at h
    simp only at h
    rw [h.1] at hp
    exact (C32_length _ _ _ _ _ _ _ _ hp).symm
  · simp at h

end length

section real
variable {G : Type}

/-- **C32.** With a positive spot all simulated prices are positive (exact arithmetic), for every model
and all parameters, volatilities, rates, maturities and draws. -/
theorem C32_positive (g : Gen G ℝ) (steps : ℕ) (v : View ℝ) (hS : 0 < v.price) (T : ℝ)
    (k : ModelKind ℝ) (s s' : G) (ps : List ℝ) (h : Sim.prices g steps v T k s = (.ok ps, s')) :
    ∀ x ∈ ps, 0 < x := by
  have key : ∀ {body : ℝ → Eff G (ℝ × ℝ)} {l : List ℝ} {s : G},
      (∀ a s x s', 0 < a → body a s = (.ok x, s') → 0 < x.1 ∧ 0 < x.2) →
      unfoldInt body steps v.price s = (.ok l, s') → ∀ y ∈ l, 0 < y := fun hb hl =>
    (unfoldN_inv (I := fun x => 0 < x) (J := fun x => 0 < x) hb hS (unfoldInt_ok_iff.mp hl).2).2
  have key2 : ∀ {body : ℝ × ℝ → Eff G ((ℝ × ℝ) × ℝ)} {l : List ℝ} {s : G} {v0 : ℝ},
      (∀ a s x s', 0 < a.1 → body a s = (.ok x, s') → 0 < x.1.1 ∧ 0 < x.2) →
      unfoldInt body steps (v.price, v0) s = (.ok l, s') → ∀ y ∈ l, 0 < y := fun hb hl =>
    (unfoldN_inv (I := fun x => 0 < x.1) (J := fun x => 0 < x) hb hS (unfoldInt_ok_iff.mp hl).2).2
  cases k <;>
    simp only [Sim.prices, Sim.gbm, Sim.heston, Sim.bates, Sim.kou, Sim.merton, Sim.varianceGamma,
      bind_ok_iff] at h
  · obtain ⟨_, _, _, h⟩ := h
    refine key ?_ h
    intro a s x s' ha hx
    simp only [Sim.gbmStep, bind_ok_iff, pure_ok_iff] at hx
    obtain ⟨z, _, _, rfl, _⟩ := hx
    simp only [Sim.gbmUpdate, Fl.exp_real]
    exact ⟨by positivity, by positivity⟩
  · obtain ⟨_, _, _, h⟩ := h
    refine key2 ?_ h
    intro a s x s' ha hx
    simp only [Sim.hestonStep, bind_ok_iff, pure_ok_iff] at hx
    obtain ⟨_, _, _, _, _, _, rfl, _⟩ := hx
    simp only [Sim.svUpdate, Fl.exp_real]
    exact ⟨by positivity, by positivity⟩
  · obtain ⟨_, _, _, _, _, _, _, _, _, h⟩ := h
    refine key2 ?_ h
    intro a s x s' ha hx
    simp only [Sim.batesStep, bind_ok_iff, pure_ok_iff] at hx
    obtain ⟨_, _, _, _, _, _, _, _, _, S', _, hS', rfl, _⟩ := hx
    have : 0 < S' := by
      refine forN_inv (I := fun x => 0 < x) ?_ ?_ hS'
      · intro a s x s' ha hx
        simp only [Sim.batesJump, bind_ok_iff, pure_ok_iff] at hx
        obtain ⟨_, _, _, rfl, _⟩ := hx
        simp only [Fl.exp_real]
        positivity
      · simp only [Sim.svUpdate, Fl.exp_real]
        positivity
    exact ⟨this, this⟩
  · obtain ⟨_, _, _, _, _, _, _, _, _, _, _, _, _, _, _, h⟩ := h
    refine key ?_ h
    intro a s x s' ha hx
    simp only [Sim.kouStep, bind_ok_iff, pure_ok_iff] at hx
    obtain ⟨_, _, _, _, _, _, _, _, _, rfl, _⟩ := hx
    simp only [Sim.kouUpdate, Fl.exp_real]
    exact ⟨by positivity, by positivity⟩
  · obtain ⟨_, _, _, _, _, _, _, _, _, h⟩ := h
    refine key ?_ h
    intro a s x s' ha hx
    simp only [Sim.mertonStep, bind_ok_iff, pure_ok_iff] at hx
    obtain ⟨_, _, _, _, _, _, _, _, _, rfl, _⟩ := hx
    simp only [Sim.mertonUpdate, Fl.exp_real]
    exact ⟨by positivity, by positivity⟩
  · obtain ⟨_, _, _, _, _, _, h⟩ := h
    refine key ?_ h
    intro a s x s' ha hx
    simp only [Sim.vgStep, bind_ok_iff, pure_ok_iff] at hx
    obtain ⟨_, _, _, _, _, _, rfl, _⟩ := hx
    simp only [Sim.vgUpdate, Fl.exp_real]
    exact ⟨by positivity, by positivity⟩

/-- **C32.** Prices scale with the spot: with the spot multiplied by `a` and the same draws all prices
are multiplied by `a`; the simulation fails and ends in the same cases and states. -/
theorem C32_scaling (g : Gen G ℝ) (steps : ℕ) (v : View ℝ) (a : ℝ) (T : ℝ) (k : ModelKind ℝ) :
    Sim.prices g steps { v with price := a * v.price } T k =
      List.map (a * ·) <$> Sim.prices g steps v T k := by
  cases k <;>
    simp only [Sim.prices, Sim.gbm, Sim.heston, Sim.bates, Sim.kou, Sim.merton, Sim.varianceGamma,
      map_bind]
  · congr 1; funext d
    refine unfoldInt_map (f := (a * ·)) (h := (a * ·)) (fun S => ?_) _ _
    simp only [Sim.gbmStep, map_bind, map_pure]
    congr 1; funext z
    simp [Sim.gbmUpdate, View.c, mul_assoc]
  · congr 1; funext d
    refine unfoldInt_map (f := fun x => (a * x.1, x.2)) (h := (a * ·)) (fun S => ?_) _ (_, _)
    simp only [Sim.hestonStep, map_bind, map_pure]
    congr 1; funext z
    congr 1; funext z
    simp [Sim.svUpdate, View.c, mul_assoc]
  · congr 1; funext d
    congr 1; funext d
    congr 1; funext d
    refine unfoldInt_map (f := fun x => (a * x.1, x.2)) (h := (a * ·)) (fun S => ?_) _ (_, _)
    simp only [Sim.batesStep, map_bind, map_pure]
    congr 1; funext z
    congr 1; funext z
    congr 1; funext n
    have h : ∀ S, Sim.batesJump g d (a * S) = (a * ·) <$> Sim.batesJump g d S := by
      intro S
      simp [Sim.batesJump, mul_assoc]
    have e : ∀ rho z1 z2 : ℝ, Sim.svUpdate { v with price := a * v.price } rho (Sim.dt T steps)
        (a * S.1) S.2 z1 z2 = a * Sim.svUpdate v rho (Sim.dt T steps) S.1 S.2 z1 z2 := by
      intro rho z1 z2
      simp [Sim.svUpdate, View.c, mul_assoc]
    simp only [e]
    rw [forN_map (f := (a * ·)) h]
    simp
  · iterate 5 (congr 1; funext _)
    refine unfoldInt_map (f := (a * ·)) (h := (a * ·)) (fun S => ?_) _ _
    simp only [Sim.kouStep, map_bind, map_pure]
    iterate 3 (congr 1; funext _)
    simp [Sim.kouUpdate, View.c, mul_assoc]
  · iterate 3 (congr 1; funext _)
    refine unfoldInt_map (f := (a * ·)) (h := (a * ·)) (fun S => ?_) _ _
    simp only [Sim.mertonStep, map_bind, map_pure]
    iterate 3 (congr 1; funext _)
    simp [Sim.mertonUpdate, View.c, mul_assoc]
  · iterate 2 (congr 1; funext _)
    refine unfoldInt_map (f := (a * ·)) (h := (a * ·)) (fun S => ?_) _ _
    simp only [Sim.vgStep, map_bind, map_pure]
    iterate 2 (congr 1; funext _)
    simp [Sim.vgUpdate, View.c, mul_assoc]


/-! ## C33 -/

theorem gbm_unfold (g : Gen G ℝ) (v : View ℝ) (dt : ℝ) (d : Dist ℝ) :
    ∀ (n : ℕ) (S : ℝ) (s s' : G) (ps : List ℝ),
      unfoldN (Sim.gbmStep g v dt d) n S s = (.ok ps, s') ↔
      ∃ zs, Draws (g.draw d) s zs s' ∧ zs.length = n ∧ ps = (List.range n).map fun k : ℕ =>
        S * Real.exp ((v.r - v.c - v.sigma ^ 2 / 2) * ((k + 1) * dt) +
          v.sigma * Real.sqrt dt * (zs.take (k + 1)).sum)
  | 0, S, s, s', ps => by
    simp only [unfoldN, pure_ok_iff]
    constructor
    · rintro ⟨rfl, rfl⟩; exact ⟨[], .nil _, rfl, rfl⟩
    · rintro ⟨zs, h, hl, rfl⟩
      cases h with
      | nil => exact ⟨rfl, rfl⟩
      | cons h t => simp at hl
  | n + 1, S, s, s', ps => by
    simp only [unfoldN, bind_ok_iff, pure_ok_iff, Sim.gbmStep, gbm_unfold g v dt d n]
    have key : ∀ (z : ℝ) (zs : List ℝ), (Sim.gbmUpdate v dt S z :: (List.range n).map fun k : ℕ =>
        Sim.gbmUpdate v dt S z * Real.exp ((v.r - v.c - v.sigma ^ 2 / 2) * ((k + 1) * dt) +
          v.sigma * Real.sqrt dt * (zs.take (k + 1)).sum)) = (List.range (n + 1)).map fun k : ℕ =>
        S * Real.exp ((v.r - v.c - v.sigma ^ 2 / 2) * ((k + 1) * dt) +
          v.sigma * Real.sqrt dt * ((z :: zs).take (k + 1)).sum) := by
      intro z zs
      rw [List.range_succ_eq_map, List.map_cons, List.map_map]
      congr 1
      · simp only [Sim.gbmUpdate, Fl.lit_real, Fl.exp_real, Fl.sqrt_real]
        congr 2
        simp only [Nat.cast_zero, List.take_succ_cons, List.take_zero, List.sum_cons, List.sum_nil]
        push_cast
        ring
      · refine List.map_congr_left fun k _ => ?_
        simp only [Sim.gbmUpdate, Fl.lit_real, Fl.exp_real, Fl.sqrt_real, mul_assoc,
          ← Real.exp_add, Function.comp, List.take_succ_cons, List.sum_cons]
        congr 2
        push_cast
        ring
    constructor
    · rintro ⟨_, s₁, ⟨z, _, hz, rfl, rfl⟩, l, _, ⟨zs, hzs, hl, rfl⟩, rfl, rfl⟩
      exact ⟨z :: zs, .cons hz hzs, by simp [hl], key z zs⟩
    · rintro ⟨zs, hzs, hl, rfl⟩
      cases hzs with
      | nil => simp at hl
      | cons hz hzs =>
        rename_i s₁ z zs
        exact ⟨_, _, ⟨z, s₁, hz, rfl, rfl⟩, _, _, ⟨zs, hzs, by simpa using hl, rfl⟩, key z zs, rfl⟩

/-- **C33.** A GBM simulation returns `ps` exactly when it obtains draws `z_0, z_1, ...`, one per
step, and price number `k` (date `t = (k+1) T / steps`) is
`S0 exp((r - c - sigma²/2) t + sigma sqrt(T/steps) (z_0 + ... + z_k))`. -/
theorem C33_closedForm (g : Gen G ℝ) (steps : ℕ) (v : View ℝ) (T : ℝ) (s s' : G) (ps : List ℝ) :
    Sim.prices g steps v T .gbm s = (.ok ps, s') ↔ steps ≤ INT_MAX ∧
      ∃ zs, Draws (g.draw .stdNormal) (g.newDist .stdNormal s) zs s' ∧ zs.length = steps ∧
        ps = (List.range steps).map fun k : ℕ =>
          v.price * Real.exp ((v.r - v.coupon.getD 0 - v.sigma ^ 2 / 2) * ((k + 1) * (T / steps)) +
            v.sigma * Real.sqrt (T / steps) * (zs.take (k + 1)).sum) := by
  simp only [Sim.prices, Sim.gbm]
  rw [Eff.bind_of_ok (Sim.newDist_ok _ _), unfoldInt_ok_iff, gbm_unfold]
  simp [Sim.dt, View.c]

/-- **C33.** Without volatility the path is the deterministic forward curve. -/
theorem C33_zeroVolatility (g : Gen G ℝ) (steps : ℕ) (v : View ℝ) (hv : v.sigma = 0) (T : ℝ) (s s' : G)
    (ps : List ℝ) (h : Sim.prices g steps v T .gbm s = (.ok ps, s')) :
    ps = (List.range steps).map fun k : ℕ =>
      v.price * Real.exp ((v.r - v.coupon.getD 0) * ((k + 1) * (T / steps))) := by
  obtain ⟨-, zs, -, -, rfl⟩ := (C33_closedForm g steps v T s s' ps).mp h
  simp [hv]

/-- **C33.** Model objects: the spot, volatility and dividend yield are those of the stock data at the
time of the call, and the rate is the market's at that time. -/
theorem C33_current {E Q : Type} (env : Env E Q ℝ) (mo : ModelObj ℝ) (hk : mo.kind = .gbm) (T : ℝ)
    (s s' : Sys E Q ℝ) (d : StockData ℝ) (o : GenObj E Q ℝ) (ps : List ℝ)
    (hd : s.market.heap[mo.handle]? = some d) (ho : s.gens[mo.gen]? = some o) :
    (mo.source env o.dim).simulatePrices T s = (.ok ps, s') ↔ o.dim ≤ INT_MAX ∧
      ∃ zs o', Draws (GenObj.draw env .stdNormal) (GenObj.newDist env .stdNormal o) zs o' ∧
        zs.length = o.dim ∧ s' = { s with gens := s.gens.set mo.gen o' } ∧
        ps = (List.range o.dim).map fun k : ℕ =>
          d.price * Real.exp ((s.market.r - d.coupon.getD 0 - d.sigma ^ 2 / 2) *
            ((k + 1) * (T / o.dim)) +
            d.sigma * Real.sqrt (T / o.dim) * (zs.take (k + 1)).sum) := by
  have hv : (mo.view : Eff (Sys E Q ℝ) _) s =
      (.ok ⟨d.price, d.sigma, d.coupon, s.market.r⟩, s) := by
    unfold ModelObj.view
    rw [Eff.bind_of_ok (a := d) (s' := s) (by unfold Sys.onMarket Market.deref; dsimp only; rw [hd])]
    rfl
  simp only [ModelObj.source]
  rw [Eff.bind_of_ok hv, hk]
  unfold Sys.onGen
  rw [ho]
  dsimp only
  have hc := C33_closedForm (GenObj.gen env) o.dim ⟨d.price, d.sigma, d.coupon, s.market.r⟩ T o
  rcases hp : Sim.prices (GenObj.gen env) o.dim ⟨d.price, d.sigma, d.coupon, s.market.r⟩ T .gbm o
    with ⟨r, o'⟩
  simp only [Prod.mk.injEq]
  constructor
  · rintro ⟨rfl, rfl⟩
    obtain ⟨h1, zs, h2, h3, h4⟩ := (hc o' ps).mp hp
    exact ⟨h1, zs, o', h2, h3, rfl, h4⟩
  · rintro ⟨h1, zs, o'', h2, h3, rfl, h4⟩
    have := (hc o'' ps).mpr ⟨h1, zs, h2, h3, h4⟩
    rw [hp] at this
    simp only [Prod.mk.injEq] at this
    exact ⟨this.1, by rw [this.2]⟩

/-! ## Examples -/

/-- Three GBM steps with draws 0, 1, 2. -/
example : ∃ ps, Sim.prices (scriptGen fun i => i) 3 ⟨100, 1 / 5, some (1 / 50), 1 / 20⟩ 1 .gbm 0 =
    (.ok ps, 3) ∧ ps.length = 3 ∧ (∀ x ∈ ps, 0 < x) ∧
    ∃ h : ps ≠ [], Sim.maturity (scriptGen fun i => i) 3 ⟨100, 1 / 5, some (1 / 50), 1 / 20⟩ 1 .gbm 0 =
      (.ok (ps.getLast h), 3) := by
  have h := (C33_closedForm (scriptGen fun i => i) 3 ⟨100, 1 / 5, some (1 / 50), 1 / 20⟩ 1 0 3 _).mpr
    ⟨by norm_num [INT_MAX], [((0 : ℕ) : ℝ), ((1 : ℕ) : ℝ), ((2 : ℕ) : ℝ)],
      .cons rfl (.cons rfl (.cons rfl (.nil _))), rfl, rfl⟩
  exact ⟨_, h, C32_length _ _ _ _ _ _ _ _ h, C32_positive _ _ _ (by norm_num) _ _ _ _ _ h,
    (C32_maturity _ 3 (by norm_num) _ _ _ _).1 _ _ h⟩

/-- The same without volatility, and with the spot doubled. -/
example : ∃ ps, Sim.prices (scriptGen fun i => i) 3 ⟨100, 0, some (1 / 50), 1 / 20⟩ 1 .gbm 0 =
    (.ok ps, 3) ∧ ps = (List.range 3).map (fun k : ℕ =>
      100 * Real.exp ((1 / 20 - 1 / 50) * ((k + 1) * (1 / (3 : ℕ))))) ∧
    Sim.prices (scriptGen fun i => i) 3 ⟨2 * 100, 0, some (1 / 50), 1 / 20⟩ 1 .gbm 0 =
      (.ok (ps.map (2 * ·)), 3) := by
  have h := (C33_closedForm (scriptGen fun i => i) 3 ⟨100, 0, some (1 / 50), 1 / 20⟩ 1 0 3 _).mpr
    ⟨by norm_num [INT_MAX], [((0 : ℕ) : ℝ), ((1 : ℕ) : ℝ), ((2 : ℕ) : ℝ)],
      .cons rfl (.cons rfl (.cons rfl (.nil _))), rfl, rfl⟩
  refine ⟨_, h, C33_zeroVolatility _ _ _ rfl _ _ _ _ h, ?_⟩
  have e := C32_scaling (scriptGen fun i => i) 3 ⟨100, 0, some (1 / 50), 1 / 20⟩ 2 1 .gbm
  rw [show (⟨2 * 100, 0, some (1 / 50), 1 / 20⟩ : View ℝ) =
    { (⟨100, 0, some (1 / 50), 1 / 20⟩ : View ℝ) with price := 2 * 100 } from rfl, e]
  exact Eff.bind_of_ok h

/-- A GBM model object on stock Y with the pseudo random generator (three steps). -/
example : ∃ ps s', (do let n ← (⟨"Y", 1, .gbm, 0⟩ : ModelObj ℝ).getSteps
                       ((⟨"Y", 1, .gbm, 0⟩ : ModelObj ℝ).source (toyEnv : Env Unit Unit ℝ) n).simulatePrices 1)
      toySys = (.ok ps, s') ∧
    (⟨"Y", 1, .gbm, 0⟩ : ModelObj ℝ).getSteps (toySys : Sys Unit Unit ℝ) = (.ok ps.length, toySys) := by
  refine ⟨_, _, rfl, C32_getSteps (toyEnv : Env Unit Unit ℝ) ⟨"Y", 1, .gbm, 0⟩ 1 toySys _ _ rfl⟩

/-- The hypotheses of `C33_current`. -/
example : ∃ ps s', ((⟨"Y", 1, .gbm, 0⟩ : ModelObj ℝ).source (toyEnv : Env Unit Unit ℝ) 3).simulatePrices 1
      toySys = (.ok ps, s') ∧ (toySys : Sys Unit Unit ℝ).market.heap[1]? = some ⟨lit 2, lit 1, none⟩ ∧
    (toySys : Sys Unit Unit ℝ).gens[0]? = some (.pseudo ⟨3, 0, ()⟩) := ⟨_, _, rfl, rfl, rfl⟩

end real

end Verif
