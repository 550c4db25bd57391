import Verif.Lemmas.LogSteps
import Verif.Lemmas.Clipping
import Verif.Props.ModelDrift
import Verif.Props.Estimator

/-!
# Property C97: the simulated prices have the law of the continuous time model, for any number of time steps
-/

namespace Verif
open MeasureTheory ProbabilityTheory Function Spec
open scoped ENNReal

variable {G : Type} [MeasurableSpace G] {μ : Measure G} [IsProbabilityMeasure μ] {g : Gen G ℝ} {count : ℝ → Measure ℕ}

/-- From one step to the path. -/
theorem law_prices {step : ℝ → Eff G (ℝ × ℝ)} {Q : Measure ℝ} [IsProbabilityMeasure Q] (h : LogStep μ step Q) {m : G → G} (hm : MeasurePreserving m μ μ) {v : View ℝ} {T : ℝ}
    {steps : ℕ} (h2 : steps ≤ INT_MAX) {k : ModelKind ℝ} (hp : Sim.prices g steps v T k = Eff.after m (Eff.unfoldInt step steps v.price))
    {X : ℕ → G → ℝ} (hX : SimulatedPath (Sim.prices g steps v T k) steps X) {i : ℕ} (hi : i < steps) :
    Measurable (X i) ∧ μ.map (X i) = (sumLaw Q (i + 1)).map fun y => v.price * Real.exp y := by
  rw [hp, Eff.unfoldInt_of_le h2] at hX
  exact h.law_path hm hX hi

/-- **C97.** Geometric Brownian motion: the simulated price at every date has the lognormal law of the model, whatever the number of time steps. -/
theorem C97_gbm (hg : RandomSource g μ count) {v : View ℝ} {T : ℝ} (hT : 0 ≤ T) {steps : ℕ} (h2 : steps ≤ INT_MAX)
    {X : ℕ → G → ℝ} (hX : SimulatedPath (Sim.prices g steps v T .gbm) steps X) {i : ℕ} (hi : i < steps) :
    Measurable (X i) ∧ μ.map (X i) =
      (brownianLaw (v.r - v.coupon.getD 0 - v.sigma ^ 2 / 2) v.sigma ((i + 1) * (T / steps))).map fun y => v.price * Real.exp y := by
  have hdt : 0 ≤ Sim.dt T steps := by rw [dt_real]; positivity
  haveI := Sim.brownianLaw_probability (v.r - v.c - v.sigma ^ 2 / 2) v.sigma (Sim.dt T steps)
  have := law_prices (g := g) (T := T) (Sim.logStep_gbm hg v hdt) (hg.newDist .stdNormal) h2 (k := .gbm) (by rfl) hX hi
  rw [sumLaw_brownian _ _ hdt, dt_real, c_real] at this
  push_cast at this
  exact this

/-- **C97.** Variance gamma: the simulated price at every date has the law of a variance gamma process, whatever the number of time steps.
The process has drift `theta / nu ^ 2` and volatility `sigma / nu` on the gamma clock, because the code draws the clock with `nu` as a rate. -/
theorem C97_varianceGamma (hg : RandomSource g μ count) {v : View ℝ} {T : ℝ} (hT : 0 < T) {steps : ℕ} (h2 : steps ≤ INT_MAX)
    {sigma nu theta : ℝ} {k : ModelKind ℝ} (hk : ModelKind.mkVarianceGamma sigma nu theta = .ok k)
    {X : ℕ → G → ℝ} (hX : SimulatedPath (Sim.prices g steps v T k) steps X) {i : ℕ} (hi : i < steps) :
    Measurable (X i) ∧ μ.map (X i) =
      (varianceGammaLaw (v.r - v.coupon.getD 0 + 1 / nu * Real.log (1 - theta * nu - 1 / 2 * sigma * sigma * nu)) (theta / nu ^ 2) (v.sigma / nu) nu
        ((i + 1) * (T / steps))).map fun y => v.price * Real.exp y := by
  have h1 : 0 < steps := by omega
  have hs' : (0 : ℝ) < steps := by exact_mod_cast h1
  unfold ModelKind.mkVarianceGamma at hk
  split at hk
  · simp [invalidArg] at hk
  rename_i hnu
  simp only [Fl.le_real, Fl.lit_real, Rat.cast_zero, not_le] at hnu
  simp only [Res.ok.injEq] at hk
  subst hk
  have hshape : 0 < Sim.dt T steps / nu := by rw [dt_real]; positivity
  have hom : (lit 1 / nu * Fl.log (lit 1 - theta * nu - lit (1 / 2) * sigma * sigma * nu) : ℝ) =
      1 / nu * Real.log (1 - theta * nu - 1 / 2 * sigma * sigma * nu) := by
    simp only [Fl.lit_real, Fl.log_real, Rat.cast_one, Rat.cast_div, Rat.cast_ofNat]
  rw [hom] at hX
  generalize 1 / nu * Real.log (1 - theta * nu - 1 / 2 * sigma * sigma * nu) = omega at *
  haveI := isProbabilityMeasure_gammaMeasure hshape hnu
  haveI := bind_probability (gammaMeasure (Sim.dt T steps / nu) nu) (Sim.measurable_brownianLaw theta v.sigma) (Sim.brownianLaw_probability theta v.sigma)
  have := law_prices (g := g) (T := T) (Sim.logStep_vg hg v theta omega (Sim.dt T steps) hshape hnu)
    ((hg.newDist (.gamma (Sim.dt T steps / nu) nu)).comp (hg.newDist .stdNormal)) h2 (k := .varianceGamma nu theta omega) (by
      simp only [Sim.prices, Sim.varianceGamma, mkGamma_pos hshape hnu]
      rfl) hX hi
  rw [sumLaw_conv, Sim.sumLaw_dirac, Sim.sumLaw_gammaTime theta v.sigma hshape hnu, Sim.gammaTime_rate theta v.sigma (by positivity) hnu, dt_real, c_real] at this
  rw [varianceGammaLaw]
  push_cast at this
  rw [show ((i : ℝ) + 1) * ((v.r - v.coupon.getD 0 + omega) * (T / steps)) = (v.r - v.coupon.getD 0 + omega) * ((i + 1) * (T / steps)) by ring,
    show ((i : ℝ) + 1) * (T / steps / nu) = (i + 1) * (T / steps) / nu by ring] at this
  exact this

/-! ## Jump diffusions -/

/-- The sum of the increments of a jump diffusion. -/
theorem sumLaw_jumps (b σ : ℝ) {h : ℝ} (hh : 0 ≤ h) (c : Measure ℕ) [IsProbabilityMeasure c] (ν : Measure ℝ) [IsProbabilityMeasure ν] (n : ℕ) :
    sumLaw (brownianLaw b σ h ∗ compound c ν) n = brownianLaw b σ (n * h) ∗ compound (sumLaw c n) ν := by
  haveI := Sim.brownianLaw_probability b σ h
  haveI := compound_probability c ν
  rw [sumLaw_conv, sumLaw_brownian _ _ hh, sumLaw_compound]

/-- With the counts of `std::poisson_distribution<int>` the increments are close to those of the continuous time model. -/
theorem near_jumps (b σ t : ℝ) (ν : Measure ℝ) [IsProbabilityMeasure ν] {lam h : ℝ} (hl : 0 ≤ lam) (hh : 0 ≤ h) (n : ℕ) (ht : t = n * h) :
    LawNear (ENNReal.ofReal (lam * t / 2 ^ 31)) (brownianLaw b σ t ∗ compound (sumLaw (clippedPoisson (lam * h)) n) ν) (jumpDiffusionLaw b σ lam ν t) := by
  haveI := Sim.brownianLaw_probability b σ t
  haveI := compound_probability (sumLaw (clippedPoisson (lam * h)) n) ν
  haveI := compound_probability (poissonMeasure (lam * t).toNNReal) ν
  have h1 : LawNear (n * ENNReal.ofReal (poissonTail (lam * h))) (sumLaw (clippedPoisson (lam * h)) n) (poissonMeasure (lam * t).toNNReal) := by
    have := (near_clippedPoisson (lam * h)).sumLaw n
    rw [sumLaw_poisson] at this
    have e : (n : NNReal) * (lam * h).toNNReal = (lam * t).toNNReal := by
      apply NNReal.coe_injective
      push_cast
      rw [Real.coe_toNNReal _ (by positivity), Real.coe_toNNReal _ (by rw [ht]; positivity), ht]
      ring
    rwa [e] at this
  have h1' : LawNear (n * ENNReal.ofReal (poissonTail (lam * h))) (compound (sumLaw (clippedPoisson (lam * h)) n) ν) (compound (poissonMeasure (lam * t).toNNReal) ν) :=
    h1.bind (K := sumLaw ν) measurable_from_nat fun _ => inferInstance
  have h2 : LawNear (n * ENNReal.ofReal (poissonTail (lam * h))) (brownianLaw b σ t ∗ compound (sumLaw (clippedPoisson (lam * h)) n) ν) (jumpDiffusionLaw b σ lam ν t) := by
    have := (LawNear.refl (brownianLaw b σ t)).conv h1'
    rwa [zero_add] at this
  intro M φ hφ hM
  have h3 : (n : ℝ≥0∞) * ENNReal.ofReal (poissonTail (lam * h)) ≤ ENNReal.ofReal (lam * t / 2 ^ 31) := by
    rw [← ENNReal.ofReal_natCast, ← ENNReal.ofReal_mul (by positivity)]
    refine ENNReal.ofReal_le_ofReal ?_
    calc (n : ℝ) * poissonTail (lam * h) ≤ n * (lam * h / 2 ^ 31) := by gcongr; exact poissonTail_le (by positivity)
      _ = lam * t / 2 ^ 31 := by rw [ht]; ring
  obtain ⟨q1, q2⟩ := h2 M φ hφ hM
  exact ⟨q1.trans (by gcongr), q2.trans (by gcongr)⟩

theorem jumpDiffusionLaw_probability (b σ lam t : ℝ) (ν : Measure ℝ) [IsProbabilityMeasure ν] : IsProbabilityMeasure (jumpDiffusionLaw b σ lam ν t) := by
  haveI := Sim.brownianLaw_probability b σ t
  haveI := compound_probability (poissonMeasure (lam * t).toNNReal) ν
  unfold jumpDiffusionLaw
  infer_instance

/-- Expectations of bounded payoffs in a simulated jump diffusion. -/
theorem jumps_payoff {X : G → ℝ} (hXm : Measurable X) {b σ lam h t S : ℝ} (hl : 0 ≤ lam) (hh : 0 ≤ h) {n : ℕ} (ht : t = n * h) (ν : Measure ℝ) [IsProbabilityMeasure ν]
    (hX : μ.map X = (brownianLaw b σ t ∗ compound (sumLaw (clippedPoisson (lam * h)) n) ν).map fun y => S * Real.exp y)
    {f : ℝ → ℝ} (hf : Measurable f) {M : ℝ} (h0 : ∀ x, 0 ≤ f x) (hM : ∀ x, f x ≤ M) :
    |∫ s, f (X s) ∂μ - ∫ y, f (S * Real.exp y) ∂jumpDiffusionLaw b σ lam ν t| ≤ M * (lam * t / 2 ^ 31) := by
  haveI := Sim.brownianLaw_probability b σ t
  haveI := compound_probability (sumLaw (clippedPoisson (lam * h)) n) ν
  haveI := jumpDiffusionLaw_probability b σ lam t ν
  have m : Measurable fun y : ℝ => S * Real.exp y := by fun_prop
  have e1 : ∫ s, f (X s) ∂μ = ∫ y, f (S * Real.exp y) ∂(brownianLaw b σ t ∗ compound (sumLaw (clippedPoisson (lam * h)) n) ν) := by
    rw [← integral_map hXm.aemeasurable hf.aestronglyMeasurable, hX, integral_map m.aemeasurable hf.aestronglyMeasurable]
  rw [e1]
  exact (near_jumps b σ t ν hl hh n ht).integral (by rw [ht]; positivity) (hf.comp m) (fun x => h0 _) fun x => hM _

/-- **C97.** Merton's model: given the numbers of jumps of the steps, the log-return is normal.  Its law at a date depends on the time steps only
through the law of the total number of jumps. -/
theorem C97_merton (hg : RandomSource g μ count) {v : View ℝ} {T : ℝ} (hT : 0 < T) {steps : ℕ} (h2 : steps ≤ INT_MAX)
    {lambda muJ sigmaJ : ℝ} (hl : 0 < lambda) {k : ModelKind ℝ} (hk : ModelKind.mkMerton lambda muJ sigmaJ = .ok k)
    {X : ℕ → G → ℝ} (hX : SimulatedPath (Sim.prices g steps v T k) steps X) {i : ℕ} (hi : i < steps) :
    Measurable (X i) ∧ μ.map (X i) = (brownianLaw (v.r - v.coupon.getD 0 - v.sigma ^ 2 / 2) v.sigma ((i + 1) * (T / steps)) ∗
      compound (sumLaw (count (lambda * (T / steps))) (i + 1)) (gaussianReal muJ (sigmaJ ^ 2).toNNReal)).map fun y => v.price * Real.exp y := by
  have h1 : 0 < steps := by omega
  have hs' : (0 : ℝ) < steps := by exact_mod_cast h1
  unfold ModelKind.mkMerton at hk
  split at hk
  · simp [invalidArg] at hk
  rename_i hs
  simp only [Fl.le_real, Fl.lit_real, Rat.cast_zero, not_le] at hs
  simp only [Res.ok.injEq] at hk
  subst hk
  have hdt : 0 ≤ Sim.dt T steps := by rw [dt_real]; positivity
  have hm' : 0 < lambda * Sim.dt T steps := by rw [dt_real]; positivity
  haveI := count_probability hg hm'
  haveI := compound_probability (count (lambda * Sim.dt T steps)) (gaussianReal muJ (sigmaJ ^ 2).toNNReal)
  haveI := Sim.brownianLaw_probability (v.r - v.c - v.sigma ^ 2 / 2) v.sigma (Sim.dt T steps)
  have := law_prices (g := g) (T := T) (Sim.logStep_merton hg v hdt hm' muJ hs)
    ((hg.newDist (.normal muJ sigmaJ)).comp ((hg.newDist (.poisson (lambda * Sim.dt T steps))).comp (hg.newDist .stdNormal))) h2
    (k := .merton lambda muJ sigmaJ) (by
      simp only [Sim.prices, Sim.merton, mkPoisson_pos hm', mkNormal_pos muJ hs]
      rfl) hX hi
  rw [sumLaw_jumps _ _ hdt, dt_real, c_real] at this
  push_cast at this
  exact this

/-- **C97.** Merton's model with Poisson counts that saturate at `INT_MAX`: at every date the expectation of a payoff between 0 and `M` is that of the
continuous time model up to `M lambda t / 2 ^ 31`, whatever the number of time steps. -/
theorem C97_mertonPayoff (hg : RandomSource g μ clippedPoisson) {v : View ℝ} {T : ℝ} (hT : 0 < T) {steps : ℕ} (h2 : steps ≤ INT_MAX)
    {lambda muJ sigmaJ : ℝ} (hl : 0 < lambda) {k : ModelKind ℝ} (hk : ModelKind.mkMerton lambda muJ sigmaJ = .ok k)
    {X : ℕ → G → ℝ} (hX : SimulatedPath (Sim.prices g steps v T k) steps X) {i : ℕ} (hi : i < steps)
    {f : ℝ → ℝ} (hf : Measurable f) {M : ℝ} (h0 : ∀ x, 0 ≤ f x) (hM : ∀ x, f x ≤ M) :
    |∫ s, f (X i s) ∂μ - ∫ y, f (v.price * Real.exp y) ∂jumpDiffusionLaw (v.r - v.coupon.getD 0 - v.sigma ^ 2 / 2) v.sigma lambda
      (gaussianReal muJ (sigmaJ ^ 2).toNNReal) ((i + 1) * (T / steps))| ≤ M * (lambda * ((i + 1) * (T / steps)) / 2 ^ 31) := by
  obtain ⟨hXm, hXl⟩ := C97_merton hg hT h2 hl hk hX hi
  exact jumps_payoff hXm hl.le (by positivity) (by push_cast; ring) _ hXl hf h0 hM

/-- **C97.** Kou's model: given the numbers of jumps of the steps, the log-return is a normal draw plus independent jumps. -/
theorem C97_kou (hg : RandomSource g μ count) {v : View ℝ} {T : ℝ} (hT : 0 < T) {steps : ℕ} (h2 : steps ≤ INT_MAX)
    {lambda p eta1 eta2 : ℝ} (hl : 0 < lambda) (he1 : 1 < eta1) (he2 : 0 < eta2) {k : ModelKind ℝ} (hk : ModelKind.mkKou lambda p eta1 eta2 = .ok k)
    {X : ℕ → G → ℝ} (hX : SimulatedPath (Sim.prices g steps v T k) steps X) {i : ℕ} (hi : i < steps) :
    Measurable (X i) ∧ μ.map (X i) = (brownianLaw (v.r - v.coupon.getD 0 - v.sigma ^ 2 / 2 - lambda * (p * (eta1 / (eta1 - 1)) + (1 - p) * (eta2 / (eta2 + 1)) - 1))
      v.sigma ((i + 1) * (T / steps)) ∗ compound (sumLaw (count (lambda * (T / steps))) (i + 1)) (kouJumpLaw p eta1 eta2)).map fun y => v.price * Real.exp y := by
  have h1 : 0 < steps := by omega
  have hs' : (0 : ℝ) < steps := by exact_mod_cast h1
  unfold ModelKind.mkKou at hk
  split at hk
  · simp [invalidArg] at hk
  rename_i hp
  split at hk
  · simp [invalidArg] at hk
  split at hk
  · simp [invalidArg] at hk
  simp only [Bool.or_eq_true, Fl.lt_real, Fl.gt_real, Fl.lit_real, not_or, not_lt, Rat.cast_one, Rat.cast_zero] at hp
  simp only [Res.ok.injEq, Fl.lit_real, Rat.cast_one] at hk
  subst hk
  have he1' : 0 < eta1 := by linarith
  generalize p * (eta1 / (eta1 - 1)) + (1 - p) * (eta2 / (eta2 + 1)) = m at *
  have hdt : 0 ≤ Sim.dt T steps := by rw [dt_real]; positivity
  have hm' : 0 < lambda * Sim.dt T steps := by rw [dt_real]; positivity
  haveI := count_probability hg hm'
  haveI := Sim.kouJumpLaw_probability hp.1 hp.2 he1' he2
  haveI := compound_probability (count (lambda * Sim.dt T steps)) (kouJumpLaw p eta1 eta2)
  haveI := Sim.brownianLaw_probability (v.r - v.c - v.sigma ^ 2 / 2 - lambda * (m - 1)) v.sigma (Sim.dt T steps)
  have := law_prices (g := g) (T := T) (Sim.logStep_kou hg v lambda m (lit 0) (lit 1) hdt hm' hp.1 hp.2 he1' he2)
    ((hg.newDist (.exponential eta2)).comp ((hg.newDist (.exponential eta1)).comp ((hg.newDist (.uniform (lit 0) (lit 1))).comp
      ((hg.newDist (.poisson (lambda * Sim.dt T steps))).comp (hg.newDist .stdNormal))))) h2
    (k := .kou lambda p eta1 eta2 m) (by
      simp only [Sim.prices, Sim.kou, mkPoisson_pos hm', mkUniform_lt (show (lit 0 : ℝ) < lit 1 by simp), mkExponential_pos he1', mkExponential_pos he2]
      rfl) hX hi
  rw [sumLaw_jumps _ _ hdt, dt_real, c_real] at this
  push_cast at this
  exact this

/-- **C97.** Kou's model with Poisson counts that saturate at `INT_MAX`: at every date the expectation of a payoff between 0 and `M` is that of the
continuous time model up to `M lambda t / 2 ^ 31`, whatever the number of time steps. -/
theorem C97_kouPayoff (hg : RandomSource g μ clippedPoisson) {v : View ℝ} {T : ℝ} (hT : 0 < T) {steps : ℕ} (h2 : steps ≤ INT_MAX)
    {lambda p eta1 eta2 : ℝ} (hl : 0 < lambda) (he1 : 1 < eta1) (he2 : 0 < eta2) {k : ModelKind ℝ} (hk : ModelKind.mkKou lambda p eta1 eta2 = .ok k)
    {X : ℕ → G → ℝ} (hX : SimulatedPath (Sim.prices g steps v T k) steps X) {i : ℕ} (hi : i < steps)
    {f : ℝ → ℝ} (hf : Measurable f) {M : ℝ} (h0 : ∀ x, 0 ≤ f x) (hM : ∀ x, f x ≤ M) :
    |∫ s, f (X i s) ∂μ - ∫ y, f (v.price * Real.exp y) ∂jumpDiffusionLaw
      (v.r - v.coupon.getD 0 - v.sigma ^ 2 / 2 - lambda * (p * (eta1 / (eta1 - 1)) + (1 - p) * (eta2 / (eta2 + 1)) - 1)) v.sigma lambda
      (kouJumpLaw p eta1 eta2) ((i + 1) * (T / steps))| ≤ M * (lambda * ((i + 1) * (T / steps)) / 2 ^ 31) := by
  obtain ⟨hXm, hXl⟩ := C97_kou hg hT h2 hl he1 he2 hk hX hi
  have hP : IsProbabilityMeasure (kouJumpLaw p eta1 eta2) := by
    unfold ModelKind.mkKou at hk
    split at hk
    · simp [invalidArg] at hk
    rename_i hp
    split at hk
    · simp [invalidArg] at hk
    simp only [Bool.or_eq_true, Fl.lt_real, Fl.gt_real, Fl.lit_real, not_or, not_lt, Rat.cast_one, Rat.cast_zero] at hp
    exact Sim.kouJumpLaw_probability hp.1 hp.2 (by linarith) he2
  exact jumps_payoff hXm hl.le (by positivity) (by push_cast; ring) _ hXl hf h0 hM

/-! ## The number of time steps does not matter -/

theorem last_date {T : ℝ} {steps : ℕ} (h1 : 0 < steps) : (((steps - 1 : ℕ) : ℝ) + 1) * (T / steps) = T := by
  have hs' : (0 : ℝ) < steps := by exact_mod_cast h1
  rw [Nat.cast_sub (by omega)]
  push_cast
  field_simp
  ring

/-- **C97.** The price at maturity of a geometric Brownian motion has the same law for any two numbers of time steps. -/
theorem C97_gbmSteps (hg : RandomSource g μ count) {v : View ℝ} {T : ℝ} (hT : 0 ≤ T) {n m : ℕ} (hn : 0 < n) (hm : 0 < m) (hn2 : n ≤ INT_MAX) (hm2 : m ≤ INT_MAX)
    {X Y : ℕ → G → ℝ} (hX : SimulatedPath (Sim.prices g n v T .gbm) n X) (hY : SimulatedPath (Sim.prices g m v T .gbm) m Y) :
    μ.map (X (n - 1)) = μ.map (Y (m - 1)) := by
  rw [(C97_gbm hg hT hn2 hX (by omega : n - 1 < n)).2, (C97_gbm hg hT hm2 hY (by omega : m - 1 < m)).2, last_date hn, last_date hm]

/-- **C97.** The price at maturity of a variance gamma model has the same law for any two numbers of time steps. -/
theorem C97_varianceGammaSteps (hg : RandomSource g μ count) {v : View ℝ} {T : ℝ} (hT : 0 < T) {n m : ℕ} (hn : 0 < n) (hm : 0 < m) (hn2 : n ≤ INT_MAX) (hm2 : m ≤ INT_MAX)
    {sigma nu theta : ℝ} {k : ModelKind ℝ} (hk : ModelKind.mkVarianceGamma sigma nu theta = .ok k)
    {X Y : ℕ → G → ℝ} (hX : SimulatedPath (Sim.prices g n v T k) n X) (hY : SimulatedPath (Sim.prices g m v T k) m Y) :
    μ.map (X (n - 1)) = μ.map (Y (m - 1)) := by
  rw [(C97_varianceGamma hg hT hn2 hk hX (by omega : n - 1 < n)).2, (C97_varianceGamma hg hT hm2 hk hY (by omega : m - 1 < m)).2, last_date hn, last_date hm]

/-- **C97.** The expected payoff at maturity in Merton's model is the same for any two numbers of time steps, up to the saturation of the counts. -/
theorem C97_mertonSteps (hg : RandomSource g μ clippedPoisson) {v : View ℝ} {T : ℝ} (hT : 0 < T) {n m : ℕ} (hn : 0 < n) (hm : 0 < m) (hn2 : n ≤ INT_MAX) (hm2 : m ≤ INT_MAX)
    {lambda muJ sigmaJ : ℝ} (hl : 0 < lambda) {k : ModelKind ℝ} (hk : ModelKind.mkMerton lambda muJ sigmaJ = .ok k)
    {X Y : ℕ → G → ℝ} (hX : SimulatedPath (Sim.prices g n v T k) n X) (hY : SimulatedPath (Sim.prices g m v T k) m Y)
    {f : ℝ → ℝ} (hf : Measurable f) {M : ℝ} (h0 : ∀ x, 0 ≤ f x) (hM : ∀ x, f x ≤ M) :
    |∫ s, f (X (n - 1) s) ∂μ - ∫ s, f (Y (m - 1) s) ∂μ| ≤ M * (lambda * T / 2 ^ 30) := by
  have a := C97_mertonPayoff hg hT hn2 hl hk hX (by omega : n - 1 < n) hf h0 hM
  have b := C97_mertonPayoff hg hT hm2 hl hk hY (by omega : m - 1 < m) hf h0 hM
  rw [last_date hn] at a
  rw [last_date hm] at b
  rw [abs_le] at a b ⊢
  have e : M * (lambda * T / 2 ^ 30) = M * (lambda * T / 2 ^ 31) + M * (lambda * T / 2 ^ 31) := by ring
  constructor <;> rw [e] <;> linarith [a.1, a.2, b.1, b.2]

/-- **C97.** The expected payoff at maturity in Kou's model is the same for any two numbers of time steps, up to the saturation of the counts. -/
theorem C97_kouSteps (hg : RandomSource g μ clippedPoisson) {v : View ℝ} {T : ℝ} (hT : 0 < T) {n m : ℕ} (hn : 0 < n) (hm : 0 < m) (hn2 : n ≤ INT_MAX) (hm2 : m ≤ INT_MAX)
    {lambda p eta1 eta2 : ℝ} (hl : 0 < lambda) (he1 : 1 < eta1) (he2 : 0 < eta2) {k : ModelKind ℝ} (hk : ModelKind.mkKou lambda p eta1 eta2 = .ok k)
    {X Y : ℕ → G → ℝ} (hX : SimulatedPath (Sim.prices g n v T k) n X) (hY : SimulatedPath (Sim.prices g m v T k) m Y)
    {f : ℝ → ℝ} (hf : Measurable f) {M : ℝ} (h0 : ∀ x, 0 ≤ f x) (hM : ∀ x, f x ≤ M) :
    |∫ s, f (X (n - 1) s) ∂μ - ∫ s, f (Y (m - 1) s) ∂μ| ≤ M * (lambda * T / 2 ^ 30) := by
  have a := C97_kouPayoff hg hT hn2 hl he1 he2 hk hX (by omega : n - 1 < n) hf h0 hM
  have b := C97_kouPayoff hg hT hm2 hl he1 he2 hk hY (by omega : m - 1 < m) hf h0 hM
  rw [last_date hn] at a
  rw [last_date hm] at b
  rw [abs_le] at a b ⊢
  have e : M * (lambda * T / 2 ^ 30) = M * (lambda * T / 2 ^ 31) + M * (lambda * T / 2 ^ 31) := by ring
  constructor <;> rw [e] <;> linarith [a.1, a.2, b.1, b.2]

/-! ## Instances -/

/-- The hypotheses are met: a perfect generator, an asset at 100 with a dividend, 252 steps a year. -/
example : ∃ X : ℕ → PerfectState → ℝ, SimulatedPath (Sim.prices perfectGen 252 ⟨100, 1/5, some (1/100), 1/20⟩ 1 .gbm) 252 X ∧
    perfectMeasure.map (X 251) = (brownianLaw (1/50) (1/5) 1).map fun y => 100 * Real.exp y := by
  obtain ⟨X, hX, -⟩ := C65_path randomSource_perfectGen (v := ⟨100, 1/5, some (1/100), 1/20⟩) (by norm_num) 1 (steps := 252) (k := .gbm) (by decide) trivial
  refine ⟨X, hX, ?_⟩
  have h := (C97_gbm randomSource_perfectGen zero_le_one (by decide) hX (i := 251) (by norm_num)).2
  norm_num at h
  exact h

/-- A variance gamma model with 252 steps: the law at maturity is that with a single step. -/
example : ∃ (k : ModelKind ℝ) (X Y : ℕ → PerfectState → ℝ), ModelKind.mkVarianceGamma (1/5 : ℝ) (1/5) (-7/50) = .ok k ∧
    SimulatedPath (Sim.prices perfectGen 252 ⟨100, 1/5, none, 1/20⟩ 1 k) 252 X ∧ SimulatedPath (Sim.prices perfectGen 1 ⟨100, 1/5, none, 1/20⟩ 1 k) 1 Y ∧
    perfectMeasure.map (X 251) = perfectMeasure.map (Y 0) := by
  have hk : ∃ omega, ModelKind.mkVarianceGamma (1/5 : ℝ) (1/5) (-7/50) = .ok (.varianceGamma (1/5) (-7/50) omega) := by
    unfold ModelKind.mkVarianceGamma
    rw [if_neg]
    · exact ⟨_, rfl⟩
    · simp only [Fl.le_real, Fl.lit_real, Rat.cast_zero]; norm_num
  obtain ⟨omega, hk⟩ := hk
  obtain ⟨X, hX, -⟩ := C65_path randomSource_perfectGen (v := ⟨100, 1/5, none, 1/20⟩) (by norm_num) 1 (steps := 252) (k := .varianceGamma (1/5) (-7/50) omega) (by decide)
    (by constructor <;> norm_num)
  obtain ⟨Y, hY, -⟩ := C65_path randomSource_perfectGen (v := ⟨100, 1/5, none, 1/20⟩) (by norm_num) 1 (steps := 1) (k := .varianceGamma (1/5) (-7/50) omega) (by decide)
    (by constructor <;> norm_num)
  exact ⟨_, X, Y, hk, hX, hY, C97_varianceGammaSteps randomSource_perfectGen one_pos (n := 252) (m := 1) (by norm_num) one_pos (by decide) (by decide) hk hX hY⟩

/-- A digital payoff in Merton's model with one jump a year on average: 252 steps and one step agree to nine digits. -/
example : ∃ X Y : ℕ → PerfectState → ℝ, SimulatedPath (Sim.prices perfectGen 252 ⟨100, 1/5, none, 1/20⟩ 1 (.merton 1 (-1/10) (3/20))) 252 X ∧
    SimulatedPath (Sim.prices perfectGen 1 ⟨100, 1/5, none, 1/20⟩ 1 (.merton 1 (-1/10) (3/20))) 1 Y ∧
    |∫ s, (Set.Ioi (100 : ℝ)).indicator (1 : ℝ → ℝ) (X 251 s) ∂perfectMeasure - ∫ s, (Set.Ioi (100 : ℝ)).indicator (1 : ℝ → ℝ) (Y 0 s) ∂perfectMeasure| ≤ 1 / 10 ^ 9 := by
  have hk : ModelKind.mkMerton (1 : ℝ) (-1/10) (3/20) = .ok (.merton 1 (-1/10) (3/20)) := by
    unfold ModelKind.mkMerton
    rw [if_neg]
    simp only [Fl.le_real, Fl.lit_real, Rat.cast_zero]; norm_num
  obtain ⟨X, hX, -⟩ := C65_path randomSource_perfectGen (v := ⟨100, 1/5, none, 1/20⟩) (by norm_num) 1 (steps := 252) (k := .merton 1 (-1/10) (3/20)) (by decide)
    (by constructor <;> norm_num)
  obtain ⟨Y, hY, -⟩ := C65_path randomSource_perfectGen (v := ⟨100, 1/5, none, 1/20⟩) (by norm_num) 1 (steps := 1) (k := .merton 1 (-1/10) (3/20)) (by decide)
    (by constructor <;> norm_num)
  refine ⟨X, Y, hX, hY, ?_⟩
  have h := C97_mertonSteps randomSource_perfectGen one_pos (n := 252) (m := 1) (by norm_num) one_pos (by decide) (by decide) one_pos hk hX hY
    (f := (Set.Ioi (100 : ℝ)).indicator 1) (measurable_one.indicator measurableSet_Ioi) (M := 1) (fun x => Set.indicator_nonneg (fun _ _ => zero_le_one) _)
    (fun x => Set.indicator_le_self' (f := (1 : ℝ → ℝ)) (fun _ _ => zero_le_one) x)
  exact h.trans (by norm_num)

/-- The same in Kou's model. -/
example : ∃ X Y : ℕ → PerfectState → ℝ, SimulatedPath (Sim.prices perfectGen 252 ⟨100, 1/5, none, 1/20⟩ 1 (.kou 1 (1/2) 2 3 (11/8))) 252 X ∧
    SimulatedPath (Sim.prices perfectGen 1 ⟨100, 1/5, none, 1/20⟩ 1 (.kou 1 (1/2) 2 3 (11/8))) 1 Y ∧
    |∫ s, (Set.Ioi (100 : ℝ)).indicator (1 : ℝ → ℝ) (X 251 s) ∂perfectMeasure - ∫ s, (Set.Ioi (100 : ℝ)).indicator (1 : ℝ → ℝ) (Y 0 s) ∂perfectMeasure| ≤ 1 / 10 ^ 9 := by
  have hk : ModelKind.mkKou (1 : ℝ) (1/2) 2 3 = .ok (.kou 1 (1/2) 2 3 (11/8)) := by
    unfold ModelKind.mkKou
    rw [if_neg, if_neg, if_neg]
    · simp only [Fl.lit_real, Rat.cast_one]; norm_num
    · simp only [Fl.lt_real, Fl.lit_real, Rat.cast_zero]; norm_num
    · simp only [Fl.lt_real, Fl.lit_real, Rat.cast_one]; norm_num
    · simp only [Bool.or_eq_true, Fl.lt_real, Fl.gt_real, Fl.lit_real, Rat.cast_one, Rat.cast_zero]; norm_num
  obtain ⟨X, hX, -⟩ := C65_path randomSource_perfectGen (v := ⟨100, 1/5, none, 1/20⟩) (by norm_num) 1 (steps := 252) (k := .kou 1 (1/2) 2 3 (11/8)) (by decide)
    (by refine ⟨?_, ?_, ?_⟩ <;> norm_num)
  obtain ⟨Y, hY, -⟩ := C65_path randomSource_perfectGen (v := ⟨100, 1/5, none, 1/20⟩) (by norm_num) 1 (steps := 1) (k := .kou 1 (1/2) 2 3 (11/8)) (by decide)
    (by refine ⟨?_, ?_, ?_⟩ <;> norm_num)
  refine ⟨X, Y, hX, hY, ?_⟩
  have h := C97_kouSteps randomSource_perfectGen one_pos (n := 252) (m := 1) (by norm_num) one_pos (by decide) (by decide) one_pos (by norm_num) (by norm_num) hk hX hY
    (f := (Set.Ioi (100 : ℝ)).indicator 1) (measurable_one.indicator measurableSet_Ioi) (M := 1) (fun x => Set.indicator_nonneg (fun _ _ => zero_le_one) _)
    (fun x => Set.indicator_le_self' (f := (1 : ℝ → ℝ)) (fun _ _ => zero_le_one) x)
  exact h.trans (by norm_num)

end Verif
