import Verif.Lemmas.RiskNeutral
import Verif.Lemmas.SamplingJumps
import Verif.Lemmas.PerfectGenerator
import Verif.Lemmas.MonteCarloSampling
import Verif.Props.StockModels

/-!
# Property C63: are the stock models risk neutral?
-/

namespace Verif
open MeasureTheory ProbabilityTheory Function Spec
open scoped ENNReal

variable {G : Type} [MeasurableSpace G] {μ : Measure G} [IsProbabilityMeasure μ] {g : Gen G ℝ} {count : ℝ → Measure ℕ}

theorem c_real (v : View ℝ) : v.c = v.coupon.getD 0 := by simp [View.c]

/-- The growth factor of one step in an account that pays the rate less the dividend yield. -/
noncomputable def growth (v : View ℝ) (T : ℝ) (steps : ℕ) : ℝ := Real.exp ((v.r - v.coupon.getD 0) * (T / steps))

theorem growth_pow (v : View ℝ) (T : ℝ) (steps k : ℕ) :
    growth v T steps ^ (k + 1) = Real.exp ((v.r - v.coupon.getD 0) * ((k + 1) * (T / steps))) := by
  unfold growth
  rw [← Real.exp_nat_mul]
  congr 1
  push_cast
  ring

/-- From the expectation of one step to the path, for a model whose simulation is `unfoldN body` after local
distributions have been constructed. -/
theorem drift_path {α : Type} [MeasurableSpace α] {body : α → Eff G (α × ℝ)} (h : Random μ body) {w : α → ℝ≥0∞} {f : ℝ} (hf : 0 ≤ f) (hw : Measurable w)
    {v : View ℝ} (hS : 0 < v.price) {T : ℝ} {steps : ℕ} (h1 : 0 < steps) (h2 : steps ≤ INT_MAX)
    (hc : ∀ a, expect μ (body a) (fun x => ENNReal.ofReal x.2) = ENNReal.ofReal (growth v T steps * f) * w a)
    (hx : ∀ a s x s', body a s = (.ok x, s') → ENNReal.ofReal x.2 = w x.1)
    {m : G → G} (hm : MeasurePreserving m μ μ) {a : α} (hwa : w a = ENNReal.ofReal v.price) {k : ModelKind ℝ}
    (hp : Sim.prices g steps v T k = Eff.after m (Eff.unfoldInt body steps a)) :
    ∃ X : ℕ → G → ℝ, SimulatedPath (Sim.prices g steps v T k) steps X ∧ (∀ i, Measurable (X i)) ∧
      (∀ i, i < steps → Integrable (X i) μ ∧
        ∫ s, X i s ∂μ = v.price * Real.exp ((v.r - v.coupon.getD 0) * ((i + 1) * (T / steps))) * f ^ (i + 1)) ∧
      (RiskNeutral μ v.price (growth v T steps) steps X ↔ f = 1) := by
  have hq : 0 < growth v T steps := Real.exp_pos _
  have e : Eff.after m (Eff.unfoldInt body steps a) = Eff.after m (Eff.unfoldN body steps a) := by rw [Eff.unfoldInt_of_le h2]
  rw [e] at hp
  obtain ⟨X, hX1, hX2, hX3, hX4, hX5⟩ := riskNeutral_path h hw hc hx hm h1 hS hq hwa
    (fun s l s' hl => C32_positive g steps v hS T k s s' l (by rw [hp]; exact hl))
  refine ⟨X, by rw [hp]; exact hX1, hX2, fun i hi => ?_, ?_⟩
  · refine integral_path (hX2 i) (fun s => hX3 i s hi) (by positivity) ?_
    rw [hX4 i hi, ← ENNReal.ofReal_pow (by positivity), ← ENNReal.ofReal_mul (by positivity), mul_pow, growth_pow]
    congr 1
    ring
  · rw [hX5, ENNReal.ofReal_eq_ofReal_iff (by positivity) hq.le]
    constructor
    · intro h; exact mul_left_cancel₀ hq.ne' (by rw [h, mul_one])
    · rintro rfl; rw [mul_one]

/-- **C63.** Geometric Brownian motion with a perfect generator is risk neutral: the expected prices are the forward
prices and the discounted price is a martingale. -/
theorem C63_gbm (hg : RandomSource g μ count) {v : View ℝ} (hS : 0 < v.price) {T : ℝ} (hT : 0 ≤ T) {steps : ℕ} (h1 : 0 < steps) (h2 : steps ≤ INT_MAX) :
    ∃ X : ℕ → G → ℝ, SimulatedPath (Sim.prices g steps v T .gbm) steps X ∧ (∀ i, Measurable (X i)) ∧
      (∀ i, i < steps → Integrable (X i) μ ∧ ∫ s, X i s ∂μ = v.price * Real.exp ((v.r - v.coupon.getD 0) * ((i + 1) * (T / steps)))) ∧
      RiskNeutral μ v.price (Real.exp ((v.r - v.coupon.getD 0) * (T / steps))) steps X := by
  have hdt : 0 ≤ Sim.dt T steps := by rw [dt_real]; positivity
  obtain ⟨X, a1, a2, a3, a4⟩ := drift_path (f := 1) (Sim.random_gbmStep hg v (Sim.dt T steps)) zero_le_one ENNReal.measurable_ofReal hS h1 h2
    (fun S => by rw [Sim.expect_gbmStep hg v hdt, dt_real, c_real, mul_one]; rfl)
    (fun S s x s' hb => by
      unfold Sim.gbmStep at hb
      rw [Eff.bind_ok_iff] at hb
      obtain ⟨z, s1, -, hb⟩ := hb
      rw [Eff.pure_ok_iff] at hb
      rw [← hb.1])
    (hg.newDist .stdNormal) rfl (k := .gbm) (by rfl)
  refine ⟨X, a1, a2, fun i hi => ?_, a4.mpr rfl⟩
  have := a3 i hi
  simpa using this

theorem cirExplicitEuler_measurable : (cirExplicitEuler : CIR ℝ).MeasurableUpdate := by
  intro dt kappa theta sigmaV
  simp only [cirExplicitEuler, Fl.max_real, Fl.sqrt_real, Fl.lit_real]
  fun_prop

theorem cirMilstein_measurable : (cirMilstein : CIR ℝ).MeasurableUpdate := by
  intro dt kappa theta sigmaV
  have := cirExplicitEuler_measurable dt kappa theta sigmaV
  simp only [cirMilstein, Fl.lit_real]
  exact this.add (by fun_prop)

theorem heston_drift (hg : RandomSource g μ count) {v : View ℝ} (hS : 0 < v.price) {T : ℝ} (hT : 0 ≤ T) {steps : ℕ} (h1 : 0 < steps) (h2 : steps ≤ INT_MAX)
    (kappa theta sigmaV : ℝ) {rho : ℝ} (hr1 : -1 ≤ rho) (hr2 : rho ≤ 1) (v0 : ℝ) {disc : CIR ℝ} (hd : disc.MeasurableUpdate) :
    ∃ X : ℕ → G → ℝ, SimulatedPath (Sim.prices g steps v T (.heston kappa theta sigmaV rho v0 disc)) steps X ∧ (∀ i, Measurable (X i)) ∧
      (∀ i, i < steps → Integrable (X i) μ ∧ ∫ s, X i s ∂μ = v.price * Real.exp ((v.r - v.coupon.getD 0) * ((i + 1) * (T / steps)))) ∧
      RiskNeutral μ v.price (Real.exp ((v.r - v.coupon.getD 0) * (T / steps))) steps X := by
  have hdt : 0 ≤ Sim.dt T steps := by rw [dt_real]; positivity
  obtain ⟨X, a1, a2, a3, a4⟩ := drift_path (f := 1) (w := fun x : ℝ × ℝ => ENNReal.ofReal x.1) (a := (v.price, v0))
    (Sim.random_hestonStep hg v kappa theta sigmaV rho hd (Sim.dt T steps)) zero_le_one (by fun_prop) hS h1 h2
    (fun x => by rw [Sim.expect_hestonStep hg v kappa theta sigmaV hr1 hr2 hd hdt, dt_real, c_real, mul_one]; rfl)
    (fun S s x s' hb => by
      unfold Sim.hestonStep at hb
      simp only [Eff.bind_ok_iff, Eff.pure_ok_iff] at hb
      obtain ⟨z, s1, -, z2, s2, -, hb, -⟩ := hb
      rw [← hb])
    (hg.newDist .stdNormal) rfl (k := .heston kappa theta sigmaV rho v0 disc) (by rfl)
  refine ⟨X, a1, a2, fun i hi => ?_, a4.mpr rfl⟩
  have := a3 i hi
  simpa using this

/-- **C63.** Every Heston model that can be constructed is risk neutral, for every number of time steps. -/
theorem C63_heston (hg : RandomSource g μ count) {v : View ℝ} (hS : 0 < v.price) {T : ℝ} (hT : 0 ≤ T) {steps : ℕ} (h1 : 0 < steps) (h2 : steps ≤ INT_MAX)
    {kappa theta sigmaV rho v0 : ℝ} {disc : Option (CIR ℝ)} {k : ModelKind ℝ} (hk : ModelKind.mkHeston kappa theta sigmaV rho v0 disc = .ok k) :
    ∃ X : ℕ → G → ℝ, SimulatedPath (Sim.prices g steps v T k) steps X ∧ (∀ i, Measurable (X i)) ∧
      (∀ i, i < steps → Integrable (X i) μ ∧ ∫ s, X i s ∂μ = v.price * Real.exp ((v.r - v.coupon.getD 0) * ((i + 1) * (T / steps)))) ∧
      RiskNeutral μ v.price (Real.exp ((v.r - v.coupon.getD 0) * (T / steps))) steps X := by
  unfold ModelKind.mkHeston at hk
  split at hk
  · simp [logicErr] at hk
  · rename_i hr
    split at hk
    · simp [logicErr] at hk
    · simp only [Res.ok.injEq] at hk
      subst hk
      simp only [Bool.or_eq_true, Fl.lt_real, Fl.gt_real, Fl.lit_real, not_or, not_lt, Rat.cast_one] at hr
      exact heston_drift hg hS hT h1 h2 kappa theta sigmaV hr.1 hr.2 v0 cirExplicitEuler_measurable

/-- A perfect generator exists: three steps of a Heston model with spot 100, rate 5%, yield 1%. -/
example : ∃ X : ℕ → PerfectState → ℝ,
    SimulatedPath (Sim.prices perfectGen 3 ⟨100, 1/5, some (1/100), 1/20⟩ 3 (.heston 2 (1/25) (3/10) (-7/10) (1/25) cirExplicitEuler)) 3 X ∧
      ∫ s, X 1 s ∂perfectMeasure = 100 * Real.exp (2/25) := by
  have hk : ModelKind.mkHeston (2 : ℝ) (1/25) (3/10) (-7/10) (1/25) none = .ok (.heston 2 (1/25) (3/10) (-7/10) (1/25) cirExplicitEuler) := by
    unfold ModelKind.mkHeston
    rw [if_neg, if_neg]
    · simp only [Bool.or_eq_true, Fl.lt_real, Fl.lit_real, Rat.cast_zero]; norm_num
    · simp only [Bool.or_eq_true, Fl.lt_real, Fl.gt_real, Fl.lit_real, Rat.cast_one]; norm_num
  obtain ⟨X, h1, -, h3, -⟩ := C63_heston randomSource_perfectGen (v := ⟨100, 1/5, some (1/100), 1/20⟩) (by norm_num) (T := 3) (by norm_num) (steps := 3)
    (by norm_num) (by norm_num [INT_MAX]) hk
  refine ⟨X, h1, ?_⟩
  rw [(h3 1 (by norm_num)).2]
  norm_num

/-! ## The jump models have no compensator -/

theorem exp_pow_eq_one {x : ℝ} : Real.exp x = 1 ↔ x = 0 := Real.exp_eq_one_iff x

/-- **C63.** Merton's model with a perfect generator: the exact expected prices.  The drift has no compensator for the
jumps, so the path is risk neutral only if a jump does not change the expected price or there are no jumps. -/
theorem C63_merton_partial (hg : RandomSource g μ count) {v : View ℝ} (hS : 0 < v.price) {T : ℝ} (hT : 0 < T) {steps : ℕ} (h1 : 0 < steps) (h2 : steps ≤ INT_MAX)
    {lambda muJ sigmaJ : ℝ} (hl : 0 < lambda) {k : ModelKind ℝ} (hk : ModelKind.mkMerton lambda muJ sigmaJ = .ok k) :
    ∃ X : ℕ → G → ℝ, SimulatedPath (Sim.prices g steps v T k) steps X ∧ (∀ i, Measurable (X i)) ∧
      (∀ i, i < steps → Integrable (X i) μ ∧ ∫ s, X i s ∂μ = v.price * Real.exp ((v.r - v.coupon.getD 0) * ((i + 1) * (T / steps))) *
        (∫ n, Real.exp (muJ + sigmaJ ^ 2 / 2) ^ n ∂count (lambda * (T / steps))) ^ (i + 1)) ∧
      (RiskNeutral μ v.price (Real.exp ((v.r - v.coupon.getD 0) * (T / steps))) steps X ↔
        muJ + sigmaJ ^ 2 / 2 = 0 ∨ ∀ᵐ n ∂count (lambda * (T / steps)), n = 0) := by
  have hs' : (0 : ℝ) < steps := by exact_mod_cast h1
  have hdt : 0 < T / steps := by positivity
  unfold ModelKind.mkMerton at hk
  split at hk
  · simp [invalidArg] at hk
  rename_i hs
  simp only [Fl.le_real, Fl.lit_real, Rat.cast_zero, not_le] at hs
  simp only [Res.ok.injEq] at hk
  subst hk
  have hm : 0 < lambda * (T / steps) := by positivity
  have hm' : 0 < lambda * Sim.dt T steps := by rw [dt_real]; exact hm
  have he : 0 < Real.exp (muJ + sigmaJ ^ 2 / 2) := Real.exp_pos _
  have key := integral_pow_count hg hm he
  rw [exp_pow_eq_one] at key
  obtain ⟨X, a1, a2, a3, a4⟩ := drift_path (T := T) (f := ∫ n, Real.exp (muJ + sigmaJ ^ 2 / 2) ^ n ∂count (lambda * (T / steps)))
    (Sim.random_mertonStep hg v (Sim.dt T steps) hm' muJ hs) (integral_nonneg fun n => by positivity) ENNReal.measurable_ofReal hS h1 h2
    (fun S => by
      rw [Sim.expect_mertonStep hg v (by rw [dt_real]; exact hdt.le) hm' muJ hs, dt_real, c_real, jumpFactor_eq hg hm he.le, ENNReal.ofReal_mul (show 0 ≤ growth v T steps from (Real.exp_pos _).le)]
      rfl)
    (fun S s x s' hb => by
      unfold Sim.mertonStep at hb
      simp only [Eff.bind_ok_iff, Eff.pure_ok_iff] at hb
      obtain ⟨z, s1, -, n, s2, -, J, s3, -, hb, -⟩ := hb
      rw [← hb])
    ((hg.newDist (.normal muJ sigmaJ)).comp ((hg.newDist (.poisson (lambda * Sim.dt T steps))).comp (hg.newDist .stdNormal))) rfl
    (k := .merton lambda muJ sigmaJ) (by
      simp only [Sim.prices, Sim.merton, mkPoisson_pos hm', mkNormal_pos muJ hs]
      rfl)
  exact ⟨X, a1, a2, a3, a4.trans key⟩

/-- There may be jumps. -/
theorem clippedPoisson_not_zero {l : ℝ} (h : 0 < l) : ¬ ∀ᵐ n ∂clippedPoisson l, n = 0 := by
  unfold clippedPoisson
  rw [ae_map_iff (measurable_from_nat (f := fun n => min n INT_MAX)).aemeasurable (Set.to_countable _).measurableSet]
  intro h0
  rw [ae_iff] at h0
  have h1 : poissonMeasure l.toNNReal {1} = 0 := measure_mono_null (by intro n hn; simp only [Set.mem_singleton_iff] at hn; subst hn; simp [INT_MAX]) h0
  rw [poissonMeasure_singleton, ENNReal.ofReal_eq_zero] at h1
  have : 0 < (l.toNNReal : ℝ) := by simpa using h
  have h2 : 0 < Real.exp (-(l.toNNReal : ℝ)) * (l.toNNReal : ℝ) ^ 1 / (Nat.factorial 1 : ℝ) := by positivity
  linarith

/-- **C63.** Merton's model is not risk neutral: with a perfect generator every choice of parameters with a jump that
changes the expected price gives a discounted price that is not a martingale. -/
theorem C63_merton_fails {v : View ℝ} (hS : 0 < v.price) {T : ℝ} (hT : 0 < T) {steps : ℕ} (h1 : 0 < steps) (h2 : steps ≤ INT_MAX)
    {lambda muJ sigmaJ : ℝ} (hl : 0 < lambda) {k : ModelKind ℝ} (hk : ModelKind.mkMerton lambda muJ sigmaJ = .ok k) (hJ : muJ + sigmaJ ^ 2 / 2 ≠ 0) :
    ∃ X : ℕ → PerfectState → ℝ, SimulatedPath (Sim.prices perfectGen steps v T k) steps X ∧
      ¬ RiskNeutral perfectMeasure v.price (Real.exp ((v.r - v.coupon.getD 0) * (T / steps))) steps X := by
  have hs' : (0 : ℝ) < steps := by exact_mod_cast h1
  obtain ⟨X, a1, -, -, a4⟩ := C63_merton_partial randomSource_perfectGen hS hT h1 h2 hl hk
  refine ⟨X, a1, fun h => ?_⟩
  rcases a4.mp h with h3 | h3
  · exact hJ h3
  · exact clippedPoisson_not_zero (by positivity) h3

/-- One jump a year on average, jump sizes `N(-0.1, 0.15²)`. -/
example : ∃ X : ℕ → PerfectState → ℝ, SimulatedPath (Sim.prices perfectGen 252 ⟨100, 1/5, none, 1/20⟩ 1 (.merton 1 (-1/10) (3/20))) 252 X ∧
    ¬ RiskNeutral perfectMeasure 100 (Real.exp ((1/20 - (none : Option ℝ).getD 0) * (1 / (252 : ℕ)))) 252 X := by
  have hk : ModelKind.mkMerton (1 : ℝ) (-1/10) (3/20) = .ok (.merton 1 (-1/10) (3/20)) := by
    unfold ModelKind.mkMerton
    rw [if_neg]
    simp only [Fl.le_real, Fl.lit_real, Rat.cast_zero]; norm_num
  exact C63_merton_fails (v := ⟨100, 1/5, none, 1/20⟩) (by norm_num) one_pos (by norm_num) (by norm_num [INT_MAX]) one_pos hk (by norm_num)

/-- **C63.** Bates' model: as Merton's. -/
theorem C63_bates_partial (hg : RandomSource g μ count) {v : View ℝ} (hS : 0 < v.price) {T : ℝ} (hT : 0 < T) {steps : ℕ} (h1 : 0 < steps) (h2 : steps ≤ INT_MAX)
    {kappa theta sigmaV rho v0 lambda muJ sigmaJ : ℝ} (hl : 0 < lambda) {disc : Option (CIR ℝ)} (hdisc : ∀ d ∈ disc, d.MeasurableUpdate) {k : ModelKind ℝ}
    (hk : ModelKind.mkBates kappa theta sigmaV rho v0 lambda muJ sigmaJ disc = .ok k) :
    ∃ X : ℕ → G → ℝ, SimulatedPath (Sim.prices g steps v T k) steps X ∧ (∀ i, Measurable (X i)) ∧
      (∀ i, i < steps → Integrable (X i) μ ∧ ∫ s, X i s ∂μ = v.price * Real.exp ((v.r - v.coupon.getD 0) * ((i + 1) * (T / steps))) *
        (∫ n, Real.exp (muJ + sigmaJ ^ 2 / 2) ^ n ∂count (lambda * (T / steps))) ^ (i + 1)) ∧
      (RiskNeutral μ v.price (Real.exp ((v.r - v.coupon.getD 0) * (T / steps))) steps X ↔
        muJ + sigmaJ ^ 2 / 2 = 0 ∨ ∀ᵐ n ∂count (lambda * (T / steps)), n = 0) := by
  have hs' : (0 : ℝ) < steps := by exact_mod_cast h1
  have hdt : 0 < T / steps := by positivity
  unfold ModelKind.mkBates at hk
  split at hk
  · simp [invalidArg] at hk
  rename_i hs
  split at hk
  · simp [invalidArg] at hk
  rename_i hr
  simp only [Bool.or_eq_true, Fl.le_real, Fl.lit_real, Rat.cast_zero, not_or, not_le] at hs
  simp only [Bool.or_eq_true, Fl.lt_real, Fl.gt_real, Fl.lit_real, not_or, not_lt, Rat.cast_one] at hr
  simp only [Res.ok.injEq] at hk
  subst hk
  have hsJ : 0 < sigmaJ := hs.2
  have hd : (disc.getD cirExplicitEuler).MeasurableUpdate := by
    cases disc with
    | none => exact cirExplicitEuler_measurable
    | some d => exact hdisc d rfl
  have hm : 0 < lambda * (T / steps) := by positivity
  have hm' : 0 < lambda * Sim.dt T steps := by rw [dt_real]; exact hm
  have he : 0 < Real.exp (muJ + sigmaJ ^ 2 / 2) := Real.exp_pos _
  have key := integral_pow_count hg hm he
  rw [exp_pow_eq_one] at key
  obtain ⟨X, a1, a2, a3, a4⟩ := drift_path (T := T) (f := ∫ n, Real.exp (muJ + sigmaJ ^ 2 / 2) ^ n ∂count (lambda * (T / steps)))
    (w := fun x : ℝ × ℝ => ENNReal.ofReal x.1) (a := (v.price, v0))
    (Sim.random_batesStep hg v kappa theta sigmaV rho hd (Sim.dt T steps) hm' muJ hsJ) (integral_nonneg fun n => by positivity) (by fun_prop) hS h1 h2
    (fun x => by
      rw [Sim.expect_batesStep hg v kappa theta sigmaV hr.1 hr.2 hd (by rw [dt_real]; exact hdt.le) hm' muJ hsJ, dt_real, c_real, jumpFactor_eq hg hm he.le,
        ENNReal.ofReal_mul (show 0 ≤ growth v T steps from (Real.exp_pos _).le)]
      rfl)
    (fun S s x s' hb => by
      unfold Sim.batesStep at hb
      simp only [Eff.bind_ok_iff, Eff.pure_ok_iff] at hb
      obtain ⟨z, s1, -, z2, s2, -, n, s3, -, J, s4, -, hb, -⟩ := hb
      rw [← hb])
    ((hg.newDist (.normal muJ sigmaJ)).comp ((hg.newDist (.poisson (lambda * Sim.dt T steps))).comp (hg.newDist .stdNormal))) rfl
    (k := .bates kappa theta sigmaV rho v0 lambda muJ sigmaJ (disc.getD cirExplicitEuler)) (by
      simp only [Sim.prices, Sim.bates, mkPoisson_pos hm', mkNormal_pos muJ hsJ]
      rfl)
  exact ⟨X, a1, a2, a3, a4.trans key⟩

/-- **C63.** Bates' model is not risk neutral. -/
theorem C63_bates_fails {v : View ℝ} (hS : 0 < v.price) {T : ℝ} (hT : 0 < T) {steps : ℕ} (h1 : 0 < steps) (h2 : steps ≤ INT_MAX)
    {kappa theta sigmaV rho v0 lambda muJ sigmaJ : ℝ} (hl : 0 < lambda) {k : ModelKind ℝ}
    (hk : ModelKind.mkBates kappa theta sigmaV rho v0 lambda muJ sigmaJ none = .ok k) (hJ : muJ + sigmaJ ^ 2 / 2 ≠ 0) :
    ∃ X : ℕ → PerfectState → ℝ, SimulatedPath (Sim.prices perfectGen steps v T k) steps X ∧
      ¬ RiskNeutral perfectMeasure v.price (Real.exp ((v.r - v.coupon.getD 0) * (T / steps))) steps X := by
  have hs' : (0 : ℝ) < steps := by exact_mod_cast h1
  obtain ⟨X, a1, -, -, a4⟩ := C63_bates_partial randomSource_perfectGen hS hT h1 h2 hl (by simp) hk
  refine ⟨X, a1, fun h => ?_⟩
  rcases a4.mp h with h3 | h3
  · exact hJ h3
  · exact clippedPoisson_not_zero (by positivity) h3

example : ∃ X : ℕ → PerfectState → ℝ,
    SimulatedPath (Sim.prices perfectGen 252 ⟨100, 1/5, none, 1/20⟩ 1 (.bates 2 (1/25) (3/10) (-7/10) (1/25) 1 (-1/10) (3/20) cirExplicitEuler)) 252 X ∧
    ¬ RiskNeutral perfectMeasure 100 (Real.exp ((1/20 - (none : Option ℝ).getD 0) * (1 / (252 : ℕ)))) 252 X := by
  have hk : ModelKind.mkBates (2 : ℝ) (1/25) (3/10) (-7/10) (1/25) 1 (-1/10) (3/20) none =
      .ok (.bates 2 (1/25) (3/10) (-7/10) (1/25) 1 (-1/10) (3/20) cirExplicitEuler) := by
    unfold ModelKind.mkBates
    rw [if_neg, if_neg]
    · rfl
    · simp only [Bool.or_eq_true, Fl.lt_real, Fl.gt_real, Fl.lit_real, Rat.cast_one]; norm_num
    · simp only [Bool.or_eq_true, Fl.le_real, Fl.lt_real, Fl.lit_real, Rat.cast_zero]; norm_num
  exact C63_bates_fails (v := ⟨100, 1/5, none, 1/20⟩) (by norm_num) one_pos (by norm_num) (by norm_num [INT_MAX]) one_pos hk (by norm_num)

/-! ## Kou: the compensator is for other jumps -/

/-- **C63.** Kou's model with a perfect generator: the exact expected prices.  The compensator in the drift assumes that a
jump is up with probability `p` and down otherwise; in the code the down jump is always applied. -/
theorem C63_kou_partial (hg : RandomSource g μ count) {v : View ℝ} (hS : 0 < v.price) {T : ℝ} (hT : 0 < T) {steps : ℕ} (h1 : 0 < steps) (h2 : steps ≤ INT_MAX)
    {lambda p eta1 eta2 : ℝ} (hl : 0 < lambda) (he1 : 1 < eta1) (he2 : 0 < eta2) {k : ModelKind ℝ} (hk : ModelKind.mkKou lambda p eta1 eta2 = .ok k) :
    ∃ X : ℕ → G → ℝ, SimulatedPath (Sim.prices g steps v T k) steps X ∧ (∀ i, Measurable (X i)) ∧
      (∀ i, i < steps → Integrable (X i) μ ∧ ∫ s, X i s ∂μ = v.price * Real.exp ((v.r - v.coupon.getD 0) * ((i + 1) * (T / steps))) *
        (Real.exp (-(lambda * (T / steps) * (p * (eta1 / (eta1 - 1)) + (1 - p) * (eta2 / (eta2 + 1)) - 1))) *
          ∫ n, ((p * (eta1 / (eta1 - 1)) + (1 - p)) * (eta2 / (eta2 + 1))) ^ n ∂count (lambda * (T / steps))) ^ (i + 1)) ∧
      (RiskNeutral μ v.price (Real.exp ((v.r - v.coupon.getD 0) * (T / steps))) steps X ↔
        ∫ n, ((p * (eta1 / (eta1 - 1)) + (1 - p)) * (eta2 / (eta2 + 1))) ^ n ∂count (lambda * (T / steps)) =
          Real.exp (lambda * (T / steps) * (p * (eta1 / (eta1 - 1)) + (1 - p) * (eta2 / (eta2 + 1)) - 1))) := by
  have hs' : (0 : ℝ) < steps := by exact_mod_cast h1
  have hdt : 0 < T / steps := by positivity
  unfold ModelKind.mkKou at hk
  split at hk
  · simp [invalidArg] at hk
  rename_i hp
  split at hk
  · simp [invalidArg] at hk
  split at hk
  · simp [invalidArg] at hk
  simp only [Bool.or_eq_true, Fl.lt_real, Fl.gt_real, Fl.lit_real, not_or, not_lt, Rat.cast_one, Rat.cast_zero] at hp
  simp only [Res.ok.injEq, Fl.lit_real, Rat.cast_one] at hk
  subst hk
  have hm : 0 < lambda * (T / steps) := by positivity
  have hm' : 0 < lambda * Sim.dt T steps := by rw [dt_real]; exact hm
  have hf0 : 0 ≤ Sim.kouFactor p eta1 eta2 := by
    have p1 : 0 ≤ eta1 / (eta1 - 1) := div_nonneg (by linarith) (by linarith)
    have p2 : 0 ≤ 1 - p := by linarith [hp.2]
    have p3 := hp.1
    unfold Sim.kouFactor
    positivity
  generalize hM : p * (eta1 / (eta1 - 1)) + (1 - p) * (eta2 / (eta2 + 1)) = M
  obtain ⟨X, a1, a2, a3, a4⟩ := drift_path (T := T) (f := Real.exp (-(lambda * (T / steps) * (M - 1))) *
      ∫ n, Sim.kouFactor p eta1 eta2 ^ n ∂count (lambda * (T / steps)))
    (Sim.random_kouStep hg v lambda M (Sim.dt T steps) p (lit 0) (lit 1) hm' (show 0 < eta1 by linarith) he2)
    (mul_nonneg (Real.exp_pos _).le (integral_nonneg fun n => by positivity)) ENNReal.measurable_ofReal hS h1 h2
    (fun S => by
      rw [Sim.expect_kouStep hg v lambda M (lit 0) (lit 1) (by rw [dt_real]; exact hdt.le) hm' hp.1 hp.2 he1 he2, dt_real, c_real,
        jumpFactor_eq hg hm hf0, ← mul_assoc, ← ENNReal.ofReal_mul (Real.exp_pos _).le]
      congr 3
      unfold growth
      rw [← Real.exp_add]
      congr 1
      ring)
    (fun S s x s' hb => by
      unfold Sim.kouStep at hb
      simp only [Eff.bind_ok_iff, Eff.pure_ok_iff] at hb
      obtain ⟨z, s1, -, n, s2, -, J, s3, -, hb, -⟩ := hb
      rw [← hb])
    ((hg.newDist (.exponential eta2)).comp ((hg.newDist (.exponential eta1)).comp ((hg.newDist (.uniform (lit 0) (lit 1))).comp
      ((hg.newDist (.poisson (lambda * Sim.dt T steps))).comp (hg.newDist .stdNormal))))) rfl
    (k := .kou lambda p eta1 eta2 M) (by
      simp only [Sim.prices, Sim.kou, mkPoisson_pos hm', mkUniform_lt (show (lit 0 : ℝ) < lit 1 by simp), mkExponential_pos (show 0 < eta1 by linarith),
        mkExponential_pos he2]
      rfl)
  refine ⟨X, a1, a2, a3, a4.trans ?_⟩
  rw [Real.exp_neg, inv_mul_eq_one₀ (Real.exp_pos _).ne']
  exact eq_comm

theorem integral_pow_poisson (l : NNReal) (m : ℝ) : Integrable (fun n : ℕ => m ^ n) (poissonMeasure l) ∧ ∫ n, m ^ n ∂poissonMeasure l = Real.exp (l * (m - 1)) := by
  have h : ∀ x : ℝ, HasSum (fun n : ℕ => (Real.exp (-l) * l ^ n / (Nat.factorial n : ℝ)) • x ^ n) (Real.exp (l * (x - 1))) := by
    intro x
    have := (NormedSpace.expSeries_div_hasSum_exp ((l : ℝ) * x)).mul_left (Real.exp (-l))
    rw [← Real.exp_eq_exp_ℝ, ← Real.exp_add] at this
    rw [show (l : ℝ) * (x - 1) = -l + l * x by ring]
    refine HasSum.congr_fun this fun n => ?_
    rw [mul_pow, smul_eq_mul]
    ring
  constructor
  · rw [integrable_poissonMeasure_iff]
    convert (h |m|).summable using 1
    funext n
    simp [abs_of_nonneg]
  · rw [integral_poissonMeasure]
    exact (h m).tsum_eq

/-- **C63.** Kou's model is not risk neutral: with a perfect generator and a positive probability of up jumps, if the
jumps as simulated do not lower the expected price, the compensator is too large. -/
theorem C63_kou_fails {v : View ℝ} (hS : 0 < v.price) {T : ℝ} (hT : 0 < T) {steps : ℕ} (h1 : 0 < steps) (h2 : steps ≤ INT_MAX)
    {lambda p eta1 eta2 : ℝ} (hl : 0 < lambda) (he1 : 1 < eta1) (he2 : 0 < eta2) (hp : 0 < p) {k : ModelKind ℝ} (hk : ModelKind.mkKou lambda p eta1 eta2 = .ok k)
    (hm : 1 ≤ (p * (eta1 / (eta1 - 1)) + (1 - p)) * (eta2 / (eta2 + 1))) :
    ∃ X : ℕ → PerfectState → ℝ, SimulatedPath (Sim.prices perfectGen steps v T k) steps X ∧
      ¬ RiskNeutral perfectMeasure v.price (Real.exp ((v.r - v.coupon.getD 0) * (T / steps))) steps X := by
  have hs' : (0 : ℝ) < steps := by exact_mod_cast h1
  obtain ⟨X, a1, -, -, a4⟩ := C63_kou_partial randomSource_perfectGen hS hT h1 h2 hl he1 he2 hk
  refine ⟨X, a1, fun h => ?_⟩
  have h3 := a4.mp h
  have hlt : (p * (eta1 / (eta1 - 1)) + (1 - p)) * (eta2 / (eta2 + 1)) < p * (eta1 / (eta1 - 1)) + (1 - p) * (eta2 / (eta2 + 1)) := by
    have h4 : eta2 / (eta2 + 1) < 1 := by rw [div_lt_one (by linarith)]; linarith
    have h5 : 0 < eta1 / (eta1 - 1) := div_pos (by linarith) (by linarith)
    have := mul_pos (mul_pos hp h5) (sub_pos.mpr h4)
    nlinarith
  generalize (p * (eta1 / (eta1 - 1)) + (1 - p)) * (eta2 / (eta2 + 1)) = m at *
  generalize p * (eta1 / (eta1 - 1)) + (1 - p) * (eta2 / (eta2 + 1)) = M at *
  have hmean : 0 < lambda * (T / steps) := by positivity
  generalize lambda * (T / steps) = l at *
  have hle : ∫ n, m ^ n ∂clippedPoisson l ≤ Real.exp (l * (m - 1)) := by
    unfold clippedPoisson
    rw [integral_map (measurable_from_nat (f := fun n => min n INT_MAX)).aemeasurable (measurable_from_nat (f := fun n : ℕ => m ^ n)).aestronglyMeasurable]
    have hP := integral_pow_poisson l.toNNReal m
    have e : ((l.toNNReal : NNReal) : ℝ) = l := Real.coe_toNNReal l hmean.le
    rw [← e, ← hP.2, e]
    have hb : ∀ n : ℕ, m ^ min n INT_MAX ≤ m ^ n := fun n => pow_le_pow_right₀ hm (min_le_left _ _)
    refine integral_mono_of_nonneg (.of_forall fun n => ?_) hP.1 (.of_forall hb)
    have : 0 ≤ m := by linarith
    show 0 ≤ m ^ min n INT_MAX
    positivity
  rw [h3, Real.exp_le_exp] at hle
  nlinarith

/-- Up jumps of mean 1 with probability 1/2, down jumps of mean 1/3. -/
example : ∃ X : ℕ → PerfectState → ℝ, SimulatedPath (Sim.prices perfectGen 252 ⟨100, 1/5, none, 1/20⟩ 1 (.kou 1 (1/2) 2 3 (11/8))) 252 X ∧
    ¬ RiskNeutral perfectMeasure 100 (Real.exp ((1/20 - (none : Option ℝ).getD 0) * (1 / (252 : ℕ)))) 252 X := by
  have hk : ModelKind.mkKou (1 : ℝ) (1/2) 2 3 = .ok (.kou 1 (1/2) 2 3 (11/8)) := by
    unfold ModelKind.mkKou
    rw [if_neg, if_neg, if_neg]
    · simp only [Fl.lit_real, Rat.cast_one]; norm_num
    · simp only [Fl.lt_real, Fl.lit_real, Rat.cast_zero]; norm_num
    · simp only [Fl.lt_real, Fl.lit_real, Rat.cast_one]; norm_num
    · simp only [Bool.or_eq_true, Fl.lt_real, Fl.gt_real, Fl.lit_real, Rat.cast_one, Rat.cast_zero]; norm_num
  exact C63_kou_fails (v := ⟨100, 1/5, none, 1/20⟩) (by norm_num) one_pos (by norm_num) (by norm_num [INT_MAX]) one_pos (by norm_num) (by norm_num)
    (by norm_num) hk (by norm_num)

/-! ## Variance gamma: the clock runs at the wrong speed -/

/-- **C63.** The variance gamma model with a perfect generator, volatility unchanged since construction: the gamma clock is
drawn with the parameter `nu` as a rate where the compensator takes it as a scale, so the path is risk neutral exactly if
`nu = 1` or `theta = - sigma ^ 2 / 2`. -/
theorem C63_varianceGamma_partial (hg : RandomSource g μ count) {v : View ℝ} (hS : 0 < v.price) {T : ℝ} (hT : 0 < T) {steps : ℕ} (h1 : 0 < steps) (h2 : steps ≤ INT_MAX)
    {nu theta : ℝ} (hc : 0 < 1 - (theta + v.sigma ^ 2 / 2) * nu) {k : ModelKind ℝ} (hk : ModelKind.mkVarianceGamma v.sigma nu theta = .ok k) :
    ∃ X : ℕ → G → ℝ, SimulatedPath (Sim.prices g steps v T k) steps X ∧ (∀ i, Measurable (X i)) ∧
      (theta + v.sigma ^ 2 / 2 < nu → ∀ i, i < steps → Integrable (X i) μ ∧ ∫ s, X i s ∂μ = v.price * Real.exp ((v.r - v.coupon.getD 0) * ((i + 1) * (T / steps))) *
        (((1 - (theta + v.sigma ^ 2 / 2) * nu) / (1 - (theta + v.sigma ^ 2 / 2) / nu)) ^ (T / steps / nu)) ^ (i + 1)) ∧
      (nu ≤ theta + v.sigma ^ 2 / 2 → ∀ i, i < steps → ¬ Integrable (X i) μ) ∧
      (RiskNeutral μ v.price (Real.exp ((v.r - v.coupon.getD 0) * (T / steps))) steps X ↔ nu = 1 ∨ theta + v.sigma ^ 2 / 2 = 0) := by
  have hs' : (0 : ℝ) < steps := by exact_mod_cast h1
  have hdt : 0 < T / steps := by positivity
  unfold ModelKind.mkVarianceGamma at hk
  split at hk
  · simp [invalidArg] at hk
  rename_i hnu
  simp only [Fl.le_real, Fl.lit_real, Rat.cast_zero, not_le] at hnu
  simp only [Res.ok.injEq] at hk
  subst hk
  have hshape : 0 < Sim.dt T steps / nu := by rw [dt_real]; positivity
  generalize ha : theta + v.sigma ^ 2 / 2 = a at hc ⊢
  have hom : (lit 1 / nu * Fl.log (lit 1 - theta * nu - lit (1 / 2) * v.sigma * v.sigma * nu) : ℝ) = 1 / nu * Real.log (1 - a * nu) := by
    simp only [Fl.lit_real, Fl.log_real, Rat.cast_one, Rat.cast_div, Rat.cast_ofNat, ← ha]
    congr 2
    ring
  rw [hom]
  have hprices : Sim.prices g steps v T (.varianceGamma nu theta (1 / nu * Real.log (1 - a * nu))) =
      Eff.after ((g.newDist (.gamma (Sim.dt T steps / nu) nu)) ∘ g.newDist .stdNormal)
        (Eff.unfoldInt (Sim.vgStep g v theta (1 / nu * Real.log (1 - a * nu)) (Sim.dt T steps) (.gamma (Sim.dt T steps / nu) nu) .stdNormal) steps v.price) := by
    simp only [Sim.prices, Sim.varianceGamma, mkGamma_pos hshape hnu]
    rfl
  have hm := (hg.newDist (.gamma (Sim.dt T steps / nu) nu)).comp (hg.newDist .stdNormal)
  have hR := Sim.random_vgStep hg v theta (1 / nu * Real.log (1 - a * nu)) (Sim.dt T steps) hshape hnu
  have hstep : ∀ S s x s', Sim.vgStep g v theta (1 / nu * Real.log (1 - a * nu)) (Sim.dt T steps) (.gamma (Sim.dt T steps / nu) nu) .stdNormal S s = (.ok x, s') →
      ENNReal.ofReal x.2 = ENNReal.ofReal x.1 := by
    intro S s x s' hb
    unfold Sim.vgStep at hb
    simp only [Eff.bind_ok_iff, Eff.pure_ok_iff] at hb
    obtain ⟨z, s1, -, n, s2, -, hb, -⟩ := hb
    rw [← hb]
  have hE := Sim.expect_vgStep hg v theta (1 / nu * Real.log (1 - a * nu)) (Sim.dt T steps) hshape hnu
  rw [ha] at hE
  rcases lt_or_ge a nu with hlt | hge
  · have hn : 0 < 1 - a / nu := by
      have : a / nu < 1 := by rw [div_lt_one hnu]; exact hlt
      linarith
    have hpos : 0 < (1 - a * nu) / (1 - a / nu) := by positivity
    obtain ⟨X, a1, a2, a3, a4⟩ := drift_path (T := T) (f := ((1 - a * nu) / (1 - a / nu)) ^ (T / steps / nu)) hR (by positivity) ENNReal.measurable_ofReal hS h1 h2
      (fun S => by
        rw [hE S, lintegral_exp_gamma hshape hnu hlt, ← ENNReal.ofReal_mul (Real.exp_pos _).le, dt_real, c_real]
        congr 2
        have e1 : nu / (nu - a) = (1 - a / nu)⁻¹ := by
          have : nu - a ≠ 0 := by linarith
          field_simp
        have e2 : Real.exp (1 / nu * Real.log (1 - a * nu) * (T / steps)) = (1 - a * nu) ^ (T / steps / nu) := by
          rw [Real.rpow_def_of_pos hc]
          congr 1
          field_simp
        rw [e1, add_mul, Real.exp_add, e2, Real.inv_rpow hn.le, Real.div_rpow hc.le hn.le]
        unfold growth
        field_simp)
      hstep hm rfl hprices
    refine ⟨X, a1, a2, fun _ => a3, fun h => absurd hlt (not_lt.mpr h), a4.trans ?_⟩
    have hexp : T / steps / nu ≠ 0 := by positivity
    have hone : ((1 - a * nu) / (1 - a / nu)) ^ (T / steps / nu) = 1 ↔ (1 - a * nu) / (1 - a / nu) = 1 := by
      rw [Real.rpow_def_of_pos hpos, Real.exp_eq_one_iff, mul_eq_zero, or_iff_left hexp]
      constructor
      · intro h
        rw [← Real.exp_log hpos, h, Real.exp_zero]
      · intro h
        rw [h, Real.log_one]
    rw [hone, div_eq_one_iff_eq hn.ne']
    constructor
    · intro h
      have h' : a * nu = a / nu := by linarith
      rw [eq_div_iff hnu.ne'] at h'
      have h3 : a * (nu - 1) * (nu + 1) = 0 := by nlinarith
      rcases mul_eq_zero.mp h3 with h4 | h4
      · rcases mul_eq_zero.mp h4 with h5 | h5
        · exact .inr h5
        · left; linarith
      · linarith
    · rintro (rfl | h)
      · simp
      · simp [h]
  · have hE' : ∀ S, expect μ (Sim.vgStep g v theta (1 / nu * Real.log (1 - a * nu)) (Sim.dt T steps) (.gamma (Sim.dt T steps / nu) nu) .stdNormal S)
        (fun x => ENNReal.ofReal x.2) = ⊤ * ENNReal.ofReal S := by
      intro S
      rw [hE S, lintegral_exp_gamma_top hshape hnu hge, ENNReal.mul_top (by simp [Real.exp_pos])]
    have e : Sim.prices g steps v T (.varianceGamma nu theta (1 / nu * Real.log (1 - a * nu))) = _ := hprices
    rw [Eff.unfoldInt_of_le h2] at e
    obtain ⟨X, hX1, hX2, hX3, hX4, hX5⟩ := riskNeutral_path hR ENNReal.measurable_ofReal hE' hstep hm h1 hS
      (Real.exp_pos ((v.r - v.coupon.getD 0) * (T / steps))) rfl
      (fun s l s' hl => C32_positive g steps v hS T (.varianceGamma nu theta (1 / nu * Real.log (1 - a * nu))) s s' l (by rw [e]; exact hl))
    refine ⟨X, by rw [e]; exact hX1, hX2, fun h => absurd h (not_lt.mpr hge), fun _ i hi hI => ?_, ?_⟩
    · have := hX4 i hi
      rw [ENNReal.top_pow (by omega), ENNReal.top_mul (by simpa using hS), ← ofReal_integral_eq_lintegral_ofReal hI (.of_forall fun s => (hX3 i s hi).le)] at this
      exact ENNReal.ofReal_ne_top this
    · rw [hX5]
      constructor
      · intro h; exact absurd h.symm ENNReal.ofReal_ne_top
      · rintro (rfl | h)
        · exfalso; linarith
        · exfalso; linarith

/-- **C63.** The variance gamma model is not risk neutral. -/
theorem C63_varianceGamma_fails {v : View ℝ} (hS : 0 < v.price) {T : ℝ} (hT : 0 < T) {steps : ℕ} (h1 : 0 < steps) (h2 : steps ≤ INT_MAX)
    {nu theta : ℝ} (hc : 0 < 1 - (theta + v.sigma ^ 2 / 2) * nu) {k : ModelKind ℝ} (hk : ModelKind.mkVarianceGamma v.sigma nu theta = .ok k)
    (hnu : nu ≠ 1) (ha : theta + v.sigma ^ 2 / 2 ≠ 0) :
    ∃ X : ℕ → PerfectState → ℝ, SimulatedPath (Sim.prices perfectGen steps v T k) steps X ∧
      ¬ RiskNeutral perfectMeasure v.price (Real.exp ((v.r - v.coupon.getD 0) * (T / steps))) steps X := by
  obtain ⟨X, a1, -, -, -, a4⟩ := C63_varianceGamma_partial randomSource_perfectGen hS hT h1 h2 hc hk
  refine ⟨X, a1, fun h => ?_⟩
  rcases a4.mp h with h3 | h3
  · exact hnu h3
  · exact ha h3

/-- Volatility 20%, `nu = 1/5`, `theta = -0.14`. -/
example : ∃ (X : ℕ → PerfectState → ℝ) (omega : ℝ), SimulatedPath (Sim.prices perfectGen 252 ⟨100, 1/5, none, 1/20⟩ 1 (.varianceGamma (1/5) (-7/50) omega)) 252 X ∧
    ¬ RiskNeutral perfectMeasure 100 (Real.exp ((1/20 - (none : Option ℝ).getD 0) * (1 / (252 : ℕ)))) 252 X := by
  have hk : ∃ omega, ModelKind.mkVarianceGamma (1/5 : ℝ) (1/5) (-7/50) = .ok (.varianceGamma (1/5) (-7/50) omega) := by
    unfold ModelKind.mkVarianceGamma
    rw [if_neg]
    · exact ⟨_, rfl⟩
    · simp only [Fl.le_real, Fl.lit_real, Rat.cast_zero]; norm_num
  obtain ⟨omega, hk⟩ := hk
  obtain ⟨X, h⟩ := C63_varianceGamma_fails (v := ⟨100, 1/5, none, 1/20⟩) (by norm_num) one_pos (steps := 252) (by norm_num) (by norm_num [INT_MAX])
    (nu := 1/5) (theta := -7/50) (by norm_num) hk (by norm_num) (by norm_num)
  exact ⟨X, omega, h⟩

end Verif
