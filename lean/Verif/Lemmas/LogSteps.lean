import Verif.Lemmas.SamplingJumps
import Verif.Lemmas.RiskNeutral
import Verif.Lemmas.GammaConvolution

/-!
# Simulation loops that multiply the price by independent factors
-/

namespace Verif
open MeasureTheory ProbabilityTheory Function Spec
open scoped ENNReal NNReal

variable {G : Type} [MeasurableSpace G] {μ : Measure G} [IsProbabilityMeasure μ]

/-- A step that multiplies the price by the exponential of a draw from `Q` and returns the new price. -/
structure LogStep (μ : Measure G) (step : ℝ → Eff G (ℝ × ℝ)) (Q : Measure ℝ) : Prop where
  random : Random μ step
  law : ∀ S (φ : ℝ × ℝ → ℝ≥0∞), Measurable φ → expect μ (step S) φ = ∫⁻ x, φ (S * Real.exp x, S * Real.exp x) ∂Q

/-- The price after `k + 1` steps. -/
theorem LogStep.expect_getD {step : ℝ → Eff G (ℝ × ℝ)} {Q : Measure ℝ} [IsProbabilityMeasure Q] (h : LogStep μ step Q) {φ : ℝ → ℝ≥0∞} (hφ : Measurable φ) :
    ∀ (k n : ℕ) (S : ℝ), k < n → expect μ (Eff.unfoldN step n S) (fun l => φ (l.getD k 0)) = ∫⁻ y, φ (S * Real.exp y) ∂sumLaw Q (k + 1) := by
  intro k
  induction k with
  | zero =>
    intro n S hn
    obtain ⟨n, rfl⟩ : ∃ m, n = m + 1 := ⟨n - 1, by omega⟩
    rw [expect_unfoldN_succ h.random n S (φ := fun l => φ (l.getD 0 0)) (hφ.comp (measurable_getD 0))]
    simp only [List.getD_cons_zero, expect_const (h.random.unfoldN n)]
    rw [h.law S (fun x => φ x.2) (by fun_prop), sumLaw_one]
  | succ k ih =>
    intro n S hn
    obtain ⟨n, rfl⟩ : ∃ m, n = m + 1 := ⟨n - 1, by omega⟩
    rw [expect_unfoldN_succ h.random n S (φ := fun l => φ (l.getD (k + 1) 0)) (hφ.comp (measurable_getD (k + 1)))]
    simp only [List.getD_cons_succ, ih n _ (by omega : k < n)]
    have m1 : Measurable fun p : (ℝ × ℝ) × ℝ => φ (p.1.1 * Real.exp p.2) := by fun_prop
    rw [h.law S (fun x => ∫⁻ y, φ (x.1 * Real.exp y) ∂sumLaw Q (k + 1)) m1.lintegral_prod_right']
    rw [show sumLaw Q (k + 1 + 1) = Q ∗ sumLaw Q (k + 1) from rfl, Measure.lintegral_conv (by fun_prop)]
    simp only [Real.exp_add, mul_assoc]

/-- The laws of the prices on a path. -/
theorem LogStep.path {step : ℝ → Eff G (ℝ × ℝ)} {Q : Measure ℝ} [IsProbabilityMeasure Q] (h : LogStep μ step Q) {m : G → G} (hm : MeasurePreserving m μ μ)
    {n : ℕ} {S : ℝ} : ∃ X : ℕ → G → ℝ, SimulatedPath (Eff.after m (Eff.unfoldN step n S)) n X ∧ (∀ k, Measurable (X k)) ∧
      ∀ k, k < n → μ.map (X k) = (sumLaw Q (k + 1)).map fun y => S * Real.exp y := by
  obtain ⟨l, hl, hlen, hrun, hE⟩ := path_exists h.random hm n S
  have hXm : ∀ k, Measurable fun s => (l s).getD k 0 := fun k => (measurable_getD k).comp hl
  refine ⟨fun k s => (l s).getD k 0, fun s => ?_, hXm, fun k hk => ?_⟩
  · obtain ⟨s', hs'⟩ := hrun s
    refine ⟨s', ?_⟩
    rw [hs', ← list_eq_range (hlen s)]
  · refine Measure.ext_of_lintegral _ fun φ hφ => ?_
    rw [lintegral_map hφ (hXm k), lintegral_map hφ (by fun_prop), ← h.expect_getD hφ k n S hk]
    exact hE (fun l => φ (l.getD k 0)) (hφ.comp (measurable_getD k))

/-- A path is determined by the program: its prices have the laws of `LogStep.path`. -/
theorem LogStep.law_path {step : ℝ → Eff G (ℝ × ℝ)} {Q : Measure ℝ} [IsProbabilityMeasure Q] (h : LogStep μ step Q) {m : G → G} (hm : MeasurePreserving m μ μ)
    {n : ℕ} {S : ℝ} {X : ℕ → G → ℝ} (hX : SimulatedPath (Eff.after m (Eff.unfoldN step n S)) n X) {k : ℕ} (hk : k < n) :
    Measurable (X k) ∧ μ.map (X k) = (sumLaw Q (k + 1)).map fun y => S * Real.exp y := by
  obtain ⟨Y, hY, hYm, hYl⟩ := h.path hm (n := n) (S := S)
  have e : X k = Y k := by
    funext s
    obtain ⟨s1, h1⟩ := hX s
    obtain ⟨s2, h2⟩ := hY s
    rw [h1] at h2
    have := (Prod.ext_iff.mp h2).1
    simp only [Res.ok.injEq] at this
    have h3 := congrArg (fun l : List ℝ => l.getD k 0) this
    simpa [hk] using h3
  rw [e]
  exact ⟨hYm k, hYl k hk⟩

namespace Sim
variable {g : Gen G ℝ} {count : ℝ → Measure ℕ}

theorem law_stdNormal : stdMeasure count (Dist.law (Dist.stdNormal : Dist ℝ)) = gaussianReal 0 1 := by
  simp only [Dist.law, stdMeasure, Fl.lit_real, Rat.cast_zero, Rat.cast_one]
  congr 1
  apply NNReal.coe_injective
  show (1 : ℝ) ^ 2 = 1
  norm_num

theorem map_gaussian (m s : ℝ) : (gaussianReal 0 1).map (fun z => m + s * z) = gaussianReal m (s ^ 2).toNNReal := by
  have h1 : (gaussianReal 0 1).map (fun z => m + s * z) = ((gaussianReal 0 1).map (fun z => s * z)).map (fun y => m + y) := by
    rw [Measure.map_map (by fun_prop) (by fun_prop)]; rfl
  rw [h1, gaussianReal_map_const_mul, gaussianReal_map_const_add]
  congr 1
  · ring
  · apply NNReal.coe_injective
    rw [Real.coe_toNNReal _ (sq_nonneg s)]
    simp

theorem lintegral_brownian (b σ : ℝ) {h : ℝ} (hh : 0 ≤ h) {φ : ℝ → ℝ≥0∞} (hφ : Measurable φ) :
    ∫⁻ x, φ x ∂brownianLaw b σ h = ∫⁻ z, φ (b * h + σ * Real.sqrt h * z) ∂gaussianReal 0 1 := by
  unfold brownianLaw
  rw [show σ ^ 2 * h = (σ * Real.sqrt h) ^ 2 by rw [mul_pow, Real.sq_sqrt hh], ← map_gaussian, lintegral_map hφ (by fun_prop)]

theorem logStep_gbm (hg : RandomSource g μ count) (v : View ℝ) {h : ℝ} (hh : 0 ≤ h) :
    LogStep μ (gbmStep g v h .stdNormal) (brownianLaw (v.r - v.c - v.sigma ^ 2 / 2) v.sigma h) := by
  refine ⟨random_gbmStep hg v h, fun S φ hφ => ?_⟩
  unfold gbmStep
  rw [expect_map, expect_draw hg valid_stdNormal (by simp only [gbmUpdate, Fl.exp_real, Fl.sqrt_real]; fun_prop), law_stdNormal,
    lintegral_brownian _ _ hh (by fun_prop)]
  refine lintegral_congr fun z => ?_
  have : gbmUpdate v h S z = S * Real.exp ((v.r - v.c - v.sigma ^ 2 / 2) * h + v.sigma * Real.sqrt h * z) := by
    simp only [gbmUpdate, Fl.exp_real, Fl.sqrt_real, Fl.lit_real]
    push_cast
    congr 2
    ring
  rw [this]

/-- A loop that adds draws. -/
theorem expect_forN_add {jump : ℝ → Eff G ℝ} {ν : Measure ℝ} [IsProbabilityMeasure ν] (hr : Random μ jump)
    (hν : ∀ J (φ : ℝ → ℝ≥0∞), Measurable φ → expect μ (jump J) φ = ∫⁻ y, φ (J + y) ∂ν) {φ : ℝ → ℝ≥0∞} (hφ : Measurable φ) :
    ∀ (n : ℕ) (J : ℝ), expect μ (Eff.forN jump n J) φ = ∫⁻ y, φ (J + y) ∂sumLaw ν n
  | 0, J => by
    simp only [Eff.forN, expect_pure, sumLaw]
    rw [lintegral_dirac' _ (by fun_prop), add_zero]
  | n + 1, J => by
    show expect μ (jump J >>= fun a' => Eff.forN jump n a') φ = _
    rw [expect_bind' (hr.comp (measurable_const (a := J))) (hr.forN n) hφ]
    simp only [expect_forN_add hr hν hφ n]
    have m1 : Measurable fun p : ℝ × ℝ => φ (p.1 + p.2) := by fun_prop
    rw [hν J _ m1.lintegral_prod_right', sumLaw, Measure.lintegral_conv (by fun_prop)]
    simp only [add_assoc]

/-- A Brownian increment and a random number of jumps. -/
theorem logStep_jumps (hg : RandomSource g μ count) {jump : ℝ → Eff G ℝ} {ν : Measure ℝ} [IsProbabilityMeasure ν] (hr : Random μ jump)
    (hν : ∀ J (φ : ℝ → ℝ≥0∞), Measurable φ → expect μ (jump J) φ = ∫⁻ y, φ (J + y) ∂ν) {upd : ℝ → ℝ → ℝ → ℝ} {b σ h mean : ℝ} (hh : 0 ≤ h) (hm : 0 < mean)
    (hu : ∀ S z J, upd S z J = S * Real.exp (b * h + σ * Real.sqrt h * z + J)) {step : ℝ → Eff G (ℝ × ℝ)} (hs : Random μ step)
    (hstep : ∀ S, step S = draw g .stdNormal >>= fun z => drawCount g (.poisson mean) >>= fun n => Eff.forN jump n (lit 0) >>= fun J =>
      (pure (upd S z J, upd S z J) : Eff G (ℝ × ℝ))) :
    LogStep μ step (brownianLaw b σ h ∗ compound (count mean) ν) := by
  refine ⟨hs, fun S φ hφ => ?_⟩
  haveI := count_probability hg hm
  haveI := compound_probability (count mean) ν
  have mu : Measurable fun p : (ℝ × ℕ) × ℝ => (upd S p.1.1 p.2, upd S p.1.1 p.2) := by
    simp only [hu]
    fun_prop
  have r : Random μ fun p : ℝ × ℕ => Eff.forN jump p.2 (lit 0) >>= fun J => (pure (upd S p.1 J, upd S p.1 J) : Eff G (ℝ × ℝ)) :=
    (hr.forN_count.comp (k := fun q : ℝ × ℕ => (q.2, lit 0)) (by fun_prop)).bind (Random.pure (k := fun p : (ℝ × ℕ) × ℝ => (upd S p.1.1 p.2, upd S p.1.1 p.2)) mu)
  rw [hstep, expect_draw_bind hg valid_stdNormal ((random_drawCount hg hm).bind r) hφ, law_stdNormal, Measure.lintegral_conv (by fun_prop),
    lintegral_brownian _ _ hh (by
      have m1 : Measurable fun p : ℝ × ℝ => φ (S * Real.exp (p.1 + p.2), S * Real.exp (p.1 + p.2)) := by fun_prop
      exact m1.lintegral_prod_right')]
  refine lintegral_congr fun z => ?_
  rw [expect_drawCount_bind hg hm (r.comp (k := fun n : ℕ => (z, n)) (by fun_prop)) hφ]
  unfold compound
  rw [Measure.lintegral_bind (measurable_from_nat (f := sumLaw ν)).aemeasurable (by fun_prop)]
  refine lintegral_congr fun n => ?_
  rw [expect_map]
  have m2 : Measurable fun J => φ (upd S z J, upd S z J) := by
    simp only [hu]
    fun_prop
  rw [expect_forN_add hr hν m2 n]
  simp only [hu, Fl.lit_real, Rat.cast_zero, zero_add]

theorem logStep_merton (hg : RandomSource g μ count) (v : View ℝ) {h : ℝ} (hh : 0 ≤ h) {mean : ℝ} (hm : 0 < mean) (muJ : ℝ) {sigmaJ : ℝ} (hs : 0 < sigmaJ) :
    LogStep μ (mertonStep g v h .stdNormal (.poisson mean) (.normal muJ sigmaJ))
      (brownianLaw (v.r - v.c - v.sigma ^ 2 / 2) v.sigma h ∗ compound (count mean) (gaussianReal muJ (sigmaJ ^ 2).toNNReal)) := by
  refine logStep_jumps hg (random_mertonJump hg muJ hs) (fun J φ hφ => ?_) (upd := mertonUpdate v h) hh hm (fun S z J => ?_)
    (random_mertonStep hg v h hm muJ hs) fun S => rfl
  · unfold mertonJump
    rw [expect_map, expect_draw hg (d := .normal muJ sigmaJ) hs (by fun_prop)]
    have : stdMeasure count (Dist.law (Dist.normal muJ sigmaJ)) = gaussianReal muJ (sigmaJ ^ 2).toNNReal := by
      simp only [Dist.law, stdMeasure]
      congr 1
      apply NNReal.coe_injective
      rw [Real.coe_toNNReal _ (sq_nonneg sigmaJ)]
      rfl
    rw [this]
  · simp only [mertonUpdate, Fl.exp_real, Fl.sqrt_real, Fl.lit_real]
    push_cast
    congr 2
    ring

theorem kouJumpLaw_probability {p eta1 eta2 : ℝ} (h0 : 0 ≤ p) (h1 : p ≤ 1) (he1 : 0 < eta1) (he2 : 0 < eta2) : IsProbabilityMeasure (kouJumpLaw p eta1 eta2) := by
  haveI := isProbabilityMeasure_expMeasure he1
  haveI := isProbabilityMeasure_expMeasure he2
  haveI : IsProbabilityMeasure ((expMeasure eta2).map Neg.neg) := Measure.isProbabilityMeasure_map (by fun_prop)
  haveI : IsProbabilityMeasure (ENNReal.ofReal p • expMeasure eta1 + ENNReal.ofReal (1 - p) • Measure.dirac (0 : ℝ)) := by
    constructor
    rw [Measure.add_apply, Measure.smul_apply, Measure.smul_apply, measure_univ, measure_univ, smul_eq_mul, smul_eq_mul, mul_one, mul_one,
      ← ENNReal.ofReal_add h0 (by linarith)]
    simp
  unfold kouJumpLaw
  infer_instance

theorem lintegral_kouJumpLaw {p eta1 eta2 : ℝ} (he1 : 0 < eta1) (he2 : 0 < eta2) {φ : ℝ → ℝ≥0∞} (hφ : Measurable φ) :
    ∫⁻ y, φ y ∂kouJumpLaw p eta1 eta2 = ENNReal.ofReal p * ∫⁻ x, ∫⁻ y, φ (x + -y) ∂expMeasure eta2 ∂expMeasure eta1 +
      ENNReal.ofReal (1 - p) * ∫⁻ y, φ (-y) ∂expMeasure eta2 := by
  haveI := isProbabilityMeasure_expMeasure he1
  haveI := isProbabilityMeasure_expMeasure he2
  haveI : IsProbabilityMeasure ((expMeasure eta2).map Neg.neg) := Measure.isProbabilityMeasure_map (by fun_prop)
  unfold kouJumpLaw
  have m1 : Measurable fun p : ℝ × ℝ => φ (p.1 + p.2) := by fun_prop
  rw [Measure.lintegral_conv hφ, lintegral_add_measure, lintegral_smul_measure, lintegral_smul_measure, lintegral_dirac' _ m1.lintegral_prod_right']
  have e : ∀ x, ∫⁻ y, φ (x + y) ∂(expMeasure eta2).map Neg.neg = ∫⁻ y, φ (x + -y) ∂expMeasure eta2 := fun x => lintegral_map (by fun_prop) (by fun_prop)
  rw [e 0]
  simp only [e, zero_add, smul_eq_mul]

theorem expect_kouJump_law (hg : RandomSource g μ count) {p : ℝ} (h0 : 0 ≤ p) (h1 : p ≤ 1) (a b : ℝ) {eta1 eta2 : ℝ} (he1 : 0 < eta1) (he2 : 0 < eta2) (J : ℝ)
    {φ : ℝ → ℝ≥0∞} (hφ : Measurable φ) :
    expect μ (kouJump g p (.uniform a b) (.exponential eta1) (.exponential eta2) J) φ = ∫⁻ y, φ (J + y) ∂kouJumpLaw p eta1 eta2 := by
  have ru := random_kouUp hg p he1
  have rd := random_kouDown hg he2
  haveI := isProbabilityMeasure_expMeasure he1
  haveI := isProbabilityMeasure_expMeasure he2
  have ed : ∀ acc, expect μ (draw g (.exponential eta2) >>= fun down => (pure (acc + -down) : Eff G ℝ)) φ = ∫⁻ y, φ (acc + -y) ∂expMeasure eta2 := by
    intro acc
    rw [expect_map, expect_draw hg (d := .exponential eta2) he2 (by fun_prop)]
    rfl
  have m1 : Measurable fun acc => ∫⁻ y, φ (acc + -y) ∂expMeasure eta2 := by
    have : Measurable fun q : ℝ × ℝ => φ (q.1 + -q.2) := by fun_prop
    exact this.lintegral_prod_right'
  rw [lintegral_kouJumpLaw he1 he2 (φ := fun y => φ (J + y)) (by fun_prop)]
  unfold kouJump
  rw [expect_draw_bind hg (valid_uniform a b) ((ru.comp (k := fun U => (J, U)) (by fun_prop)).bind (rd.comp measurable_snd)) hφ]
  have e : ∀ U, expect μ ((if Fl.lt U p then (do
      let up ← draw g (.exponential eta1)
      return J + up) else return J : Eff G ℝ) >>= fun acc => draw g (.exponential eta2) >>= fun down => (pure (acc + -down) : Eff G ℝ)) φ =
      if U < p then ∫⁻ x, ∫⁻ y, φ (J + (x + -y)) ∂expMeasure eta2 ∂expMeasure eta1 else ∫⁻ y, φ (J + -y) ∂expMeasure eta2 := by
    intro U
    rw [expect_bind' (ru.comp (k := fun _ : Unit => (J, U)) (by fun_prop)) rd hφ]
    simp only [ed]
    by_cases hU : U < p
    · simp only [hU, if_true, (Fl.lt_real U p).mpr hU]
      rw [expect_map, expect_draw hg (d := .exponential eta1) he1 (φ := fun b => ∫⁻ y, φ (J + b + -y) ∂expMeasure eta2) (m1.comp (by fun_prop : Measurable fun up : ℝ => J + up))]
      simp only [add_assoc]
      rfl
    · have : ¬ (Fl.lt U p = true) := fun h => hU ((Fl.lt_real U p).mp h)
      simp only [hU, if_false, this, Bool.false_eq_true]
      rw [expect_pure]
  refine (lintegral_congr e).trans ?_
  rw [lintegral_law_uniform a b h0 h1]

theorem logStep_kou (hg : RandomSource g μ count) (v : View ℝ) (lambda muJ a b : ℝ) {h : ℝ} (hh : 0 ≤ h) {mean : ℝ} (hm : 0 < mean)
    {p : ℝ} (h0 : 0 ≤ p) (h1 : p ≤ 1) {eta1 eta2 : ℝ} (he1 : 0 < eta1) (he2 : 0 < eta2) :
    LogStep μ (kouStep g v lambda p muJ h .stdNormal (.poisson mean) (.uniform a b) (.exponential eta1) (.exponential eta2))
      (brownianLaw (v.r - v.c - v.sigma ^ 2 / 2 - lambda * (muJ - 1)) v.sigma h ∗ compound (count mean) (kouJumpLaw p eta1 eta2)) := by
  haveI := kouJumpLaw_probability h0 h1 he1 he2
  refine logStep_jumps hg (random_kouJump hg p a b he1 he2) (fun J φ hφ => expect_kouJump_law hg h0 h1 a b he1 he2 J hφ) (upd := kouUpdate v lambda muJ h)
    hh hm (fun S z J => ?_) (random_kouStep hg v lambda muJ h p a b hm he1 he2) fun S => rfl
  simp only [kouUpdate, Fl.exp_real, Fl.sqrt_real, Fl.lit_real]
  push_cast
  congr 2
  ring

/-! ## Variance gamma -/

theorem measurable_brownianLaw (theta σ : ℝ) : Measurable (brownianLaw theta σ) := by
  unfold brownianLaw
  exact measurable_gaussianReal.comp (by fun_prop : Measurable fun u : ℝ => (theta * u, (σ ^ 2 * u).toNNReal))

theorem brownianLaw_probability (theta σ u : ℝ) : IsProbabilityMeasure (brownianLaw theta σ u) := by
  unfold brownianLaw
  infer_instance

theorem brownianLaw_zero (theta σ : ℝ) : brownianLaw theta σ 0 = .dirac 0 := by
  simp [brownianLaw]

theorem brownianLaw_add (theta σ a b : ℝ) (ha : 0 ≤ a) (hb : 0 ≤ b) : brownianLaw theta σ (a + b) = brownianLaw theta σ a ∗ brownianLaw theta σ b := by
  unfold brownianLaw
  rw [gaussianReal_conv_gaussianReal, ← Real.toNNReal_add (by positivity) (by positivity)]
  congr 1
  · ring
  · congr 1
    ring

/-- A Brownian motion at a gamma time. -/
theorem sumLaw_gammaTime (theta σ : ℝ) {a r : ℝ} (ha : 0 < a) (hr : 0 < r) (n : ℕ) :
    sumLaw ((gammaMeasure a r).bind (brownianLaw theta σ)) (n + 1) = (gammaMeasure ((n + 1) * a) r).bind (brownianLaw theta σ) := by
  haveI := isProbabilityMeasure_gammaMeasure ha hr
  rw [(sumLaw_bind (gammaMeasure a r) (measurable_brownianLaw theta σ) (brownianLaw_probability theta σ) (P := fun u => 0 ≤ u) measurableSet_Ici le_rfl
    (fun _ _ => add_nonneg) gamma_nonneg (brownianLaw_zero theta σ) (brownianLaw_add theta σ) (n + 1)).1, sumLaw_gamma ha hr]

theorem sumLaw_dirac (b : ℝ) (n : ℕ) : sumLaw (Measure.dirac b) n = .dirac (n * b) := by
  induction n with
  | zero => simp [sumLaw]
  | succ n ih =>
    rw [sumLaw, ih, Measure.dirac_conv_dirac]
    congr 1
    push_cast
    ring

/-- A gamma time with rate `nu` in place of the scale `nu`. -/
theorem gammaTime_rate (theta σ : ℝ) {a nu : ℝ} (ha : 0 < a) (hnu : 0 < nu) :
    (gammaMeasure a nu).bind (brownianLaw theta σ) = (gammaMeasure a (1 / nu)).bind (brownianLaw (theta / nu ^ 2) (σ / nu)) := by
  have h := gamma_scale (a := a) (r := 1 / nu) (s := (nu ^ 2)⁻¹) ha (by positivity) (by positivity)
  rw [show 1 / nu / (nu ^ 2)⁻¹ = nu by field_simp] at h
  rw [← h]
  refine Measure.ext_of_lintegral _ fun φ hφ => ?_
  have m := fun theta σ => measurable_brownianLaw theta σ
  rw [Measure.lintegral_bind (m _ _).aemeasurable hφ.aemeasurable, Measure.lintegral_bind (m _ _).aemeasurable hφ.aemeasurable,
    lintegral_map (f := fun u => ∫⁻ x, φ x ∂brownianLaw theta σ u) ((Measure.measurable_lintegral hφ).comp (m _ _)) (by fun_prop)]
  refine lintegral_congr fun u => ?_
  have : brownianLaw theta σ ((nu ^ 2)⁻¹ * u) = brownianLaw (theta / nu ^ 2) (σ / nu) u := by
    unfold brownianLaw
    congr 1
    · field_simp
    · congr 1
      field_simp
  rw [this]

theorem logStep_vg (hg : RandomSource g μ count) (v : View ℝ) (theta omega h : ℝ) {a r : ℝ} (ha : 0 < a) (hr : 0 < r) :
    LogStep μ (vgStep g v theta omega h (.gamma a r) .stdNormal)
      (Measure.dirac ((v.r - v.c + omega) * h) ∗ (gammaMeasure a r).bind (brownianLaw theta v.sigma)) := by
  refine ⟨random_vgStep hg v theta omega h ha hr, fun S φ hφ => ?_⟩
  haveI := isProbabilityMeasure_gammaMeasure ha hr
  haveI := bind_probability (gammaMeasure a r) (measurable_brownianLaw theta v.sigma) (brownianLaw_probability theta v.sigma)
  have m1 : Measurable fun p : ℝ × ℝ => vgUpdate v theta omega h S p.1 p.2 :=
    (measurable_vgUpdate v theta omega h).comp (by fun_prop : Measurable fun p : ℝ × ℝ => (S, p.1, p.2))
  have m2 : Measurable fun p : ℝ × ℝ => φ (S * Real.exp (p.1 + p.2), S * Real.exp (p.1 + p.2)) := by fun_prop
  have hlaw : stdMeasure count (Dist.law (Dist.gamma a r)) = gammaMeasure a r := by
    simp [Dist.law, stdMeasure]
  unfold vgStep
  rw [expect_draw_bind hg (valid_gamma ha hr) ((random_draw hg valid_stdNormal).bind (Random.pure (k := fun p : ℝ × ℝ =>
    (vgUpdate v theta omega h S p.1 p.2, vgUpdate v theta omega h S p.1 p.2)) (m1.prodMk m1))) hφ, hlaw, Measure.lintegral_conv (by fun_prop),
    lintegral_dirac' _ m2.lintegral_prod_right', Measure.lintegral_bind (measurable_brownianLaw theta v.sigma).aemeasurable (by fun_prop)]
  refine lintegral_congr_ae (gamma_nonneg.mono fun u hu => ?_)
  have m3 : Measurable fun z => φ (vgUpdate v theta omega h S u z, vgUpdate v theta omega h S u z) := by
    have := m1.comp (measurable_prodMk_left (x := u))
    exact hφ.comp (this.prodMk this)
  simp only
  rw [expect_map, expect_draw hg valid_stdNormal m3, law_stdNormal, lintegral_brownian _ _ hu (by fun_prop)]
  refine lintegral_congr fun z => ?_
  have : vgUpdate v theta omega h S u z = S * Real.exp ((v.r - v.c + omega) * h + (theta * u + v.sigma * Real.sqrt u * z)) := by
    simp only [vgUpdate, Fl.exp_real, Fl.sqrt_real]
  rw [this]

end Sim
end Verif
