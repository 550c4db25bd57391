import Verif.Props.Orderings

/-!
# Property C102: put-call parity in Bates', Kou's and the variance gamma model
-/

namespace Verif
open MeasureTheory ProbabilityTheory Function Spec
open scoped ENNReal NNReal

variable {G : Type} [MeasurableSpace G] {μ : Measure G} [IsProbabilityMeasure μ] {g : Gen G ℝ} {count : ℝ → Measure ℕ}

/-- Prices that are off the forward by a factor `f` a step satisfy parity with a spot that is off by `f ^ steps`. -/
theorem parity_factor (hg : RandomSource g μ count) {v : View ℝ} (hS : 0 < v.price) {T : ℝ} {steps : ℕ} (h1 : 0 < steps) (h2 : steps ≤ INT_MAX)
    {k : ModelKind ℝ} (hk : Simulatable (T / steps) k) {X : ℕ → G → ℝ} (hX : SimulatedPath (Sim.prices g steps v T k) steps X) {f : ℝ}
    (h : ∀ i, i < steps → Integrable (X i) μ ∧ ∫ s, X i s ∂μ = v.price * Real.exp ((v.r - v.coupon.getD 0) * ((i + 1) * (T / steps))) * f ^ (i + 1))
    {K : ℝ} (hK : 0 ≤ K) {N : ℕ} (hN : 0 < N) (hN2 : N ≤ INT_MAX) :
    ParityHolds μ g steps v T k (v.price * Real.exp (-(v.coupon.getD 0 * T)) * f ^ steps) K N := by
  obtain ⟨b1, b2⟩ := h (steps - 1) (by omega)
  rw [last_date h1, Nat.sub_add_cancel h1] at b2
  have := C102_parity hg hS h1 h2 hk hX b1 hK hN hN2
  rwa [b2, ← mul_assoc, discounted_forward] at this

/-- The factor is 1 if parity holds with the true spot. -/
theorem factor_one {v : View ℝ} (hS : 0 < v.price) {T : ℝ} {steps : ℕ} (h1 : 0 < steps) {k : ModelKind ℝ} {f K : ℝ} (hf : 0 ≤ f) {N : ℕ}
    (h : ParityHolds μ g steps v T k (v.price * Real.exp (-(v.coupon.getD 0 * T)) * f ^ steps) K N)
    (h' : ParityHolds μ g steps v T k (v.price * Real.exp (-(v.coupon.getD 0 * T))) K N) : f = 1 := by
  have e := mul_left_cancel₀ (mul_pos hS (Real.exp_pos (-(v.coupon.getD 0 * T)))).ne' ((h.unique h').trans (mul_one _).symm)
  exact (pow_eq_one_iff_of_nonneg hf (by omega)).mp e

theorem mkBates_simulatable {kappa theta sigmaV rho v0 lambda muJ sigmaJ dt : ℝ} (hl : 0 < lambda) (hdt : 0 < dt) {disc : Option (CIR ℝ)}
    (hdisc : ∀ d ∈ disc, d.MeasurableUpdate) {k : ModelKind ℝ} (hk : ModelKind.mkBates kappa theta sigmaV rho v0 lambda muJ sigmaJ disc = .ok k) :
    Simulatable dt k := by
  unfold ModelKind.mkBates at hk
  split at hk
  · simp [invalidArg] at hk
  rename_i hs
  split at hk
  · simp [invalidArg] at hk
  simp only [Bool.or_eq_true, Fl.le_real, Fl.lit_real, Rat.cast_zero, not_or, not_le] at hs
  simp only [Res.ok.injEq] at hk
  subst hk
  refine ⟨by positivity, hs.2, ?_⟩
  cases disc with
  | none => exact cirExplicitEuler_measurable
  | some d => exact hdisc d rfl

/-- **C102.** Bates' model: as Merton's. -/
theorem C102_bates_partial (hg : RandomSource g μ count) {v : View ℝ} (hS : 0 < v.price) {T : ℝ} (hT : 0 < T) {steps : ℕ} (h1 : 0 < steps) (h2 : steps ≤ INT_MAX)
    {kappa theta sigmaV rho v0 lambda muJ sigmaJ : ℝ} (hl : 0 < lambda) {disc : Option (CIR ℝ)} (hdisc : ∀ d ∈ disc, d.MeasurableUpdate) {k : ModelKind ℝ}
    (hk : ModelKind.mkBates kappa theta sigmaV rho v0 lambda muJ sigmaJ disc = .ok k) {K : ℝ} (hK : 0 ≤ K) {N : ℕ} (hN : 0 < N) (hN2 : N ≤ INT_MAX) :
    ParityHolds μ g steps v T k (v.price * Real.exp (-(v.coupon.getD 0 * T)) *
      (∫ n, Real.exp (muJ + sigmaJ ^ 2 / 2) ^ n ∂count (lambda * (T / steps))) ^ steps) K N := by
  have hs' : (0 : ℝ) < steps := by exact_mod_cast h1
  obtain ⟨X, a1, -, a3, -⟩ := C63_bates_partial hg hS hT h1 h2 hl hdisc hk
  exact parity_factor hg hS h1 h2 (mkBates_simulatable hl (by positivity) hdisc hk) a1 a3 hK hN hN2

/-- **C102.** With a perfect generator Bates' prices violate put-call parity whenever a jump changes the expected price. -/
theorem C102_bates_fails {v : View ℝ} (hS : 0 < v.price) {T : ℝ} (hT : 0 < T) {steps : ℕ} (h1 : 0 < steps) (h2 : steps ≤ INT_MAX)
    {kappa theta sigmaV rho v0 lambda muJ sigmaJ : ℝ} (hl : 0 < lambda) {k : ModelKind ℝ}
    (hk : ModelKind.mkBates kappa theta sigmaV rho v0 lambda muJ sigmaJ none = .ok k) (hJ : muJ + sigmaJ ^ 2 / 2 ≠ 0)
    {K : ℝ} (hK : 0 ≤ K) {N : ℕ} (hN : 0 < N) (hN2 : N ≤ INT_MAX) :
    ¬ ParityHolds perfectMeasure perfectGen steps v T k (v.price * Real.exp (-(v.coupon.getD 0 * T))) K N := by
  intro h
  have hs' : (0 : ℝ) < steps := by exact_mod_cast h1
  have hm : 0 < lambda * (T / steps) := by positivity
  have e1 := factor_one hS h1 (integral_nonneg fun n => by positivity) (C102_bates_partial randomSource_perfectGen hS hT h1 h2 hl (by simp) hk hK hN hN2) h
  rw [integral_pow_count randomSource_perfectGen hm (Real.exp_pos _), exp_pow_eq_one] at e1
  rcases e1 with h3 | h3
  · exact hJ h3
  · exact clippedPoisson_not_zero hm h3

/-- **C102.** Kou's model: parity with the expected jumps over the compensator, and with the true spot exactly if the compensator is the right one. -/
theorem C102_kou_partial (hg : RandomSource g μ count) {v : View ℝ} (hS : 0 < v.price) {T : ℝ} (hT : 0 < T) {steps : ℕ} (h1 : 0 < steps) (h2 : steps ≤ INT_MAX)
    {lambda p eta1 eta2 : ℝ} (hl : 0 < lambda) (he1 : 1 < eta1) (he2 : 0 < eta2) {k : ModelKind ℝ} (hk : ModelKind.mkKou lambda p eta1 eta2 = .ok k)
    {K : ℝ} (hK : 0 ≤ K) {N : ℕ} (hN : 0 < N) (hN2 : N ≤ INT_MAX) :
    ParityHolds μ g steps v T k (v.price * Real.exp (-(v.coupon.getD 0 * T)) *
      (Real.exp (-(lambda * (T / steps) * (p * (eta1 / (eta1 - 1)) + (1 - p) * (eta2 / (eta2 + 1)) - 1))) *
        ∫ n, ((p * (eta1 / (eta1 - 1)) + (1 - p)) * (eta2 / (eta2 + 1))) ^ n ∂count (lambda * (T / steps))) ^ steps) K N ∧
    (ParityHolds μ g steps v T k (v.price * Real.exp (-(v.coupon.getD 0 * T))) K N ↔
      ∫ n, ((p * (eta1 / (eta1 - 1)) + (1 - p)) * (eta2 / (eta2 + 1))) ^ n ∂count (lambda * (T / steps)) =
        Real.exp (lambda * (T / steps) * (p * (eta1 / (eta1 - 1)) + (1 - p) * (eta2 / (eta2 + 1)) - 1))) := by
  have hs' : (0 : ℝ) < steps := by exact_mod_cast h1
  obtain ⟨hs, p0, p1⟩ := mkKou_simulatable (dt := T / steps) hl (by positivity) he1 he2 hk
  obtain ⟨X, a1, -, a3, -⟩ := C63_kou_partial hg hS hT h1 h2 hl he1 he2 hk
  have key := parity_factor hg hS h1 h2 hs a1 a3 hK hN hN2
  have hm : 0 ≤ (p * (eta1 / (eta1 - 1)) + (1 - p)) * (eta2 / (eta2 + 1)) := by
    have q1 : 0 ≤ eta1 / (eta1 - 1) := div_nonneg (by linarith) (by linarith)
    have q2 : 0 ≤ 1 - p := by linarith
    positivity
  refine ⟨key, ?_⟩
  generalize (p * (eta1 / (eta1 - 1)) + (1 - p)) * (eta2 / (eta2 + 1)) = m at *
  generalize lambda * (T / steps) * (p * (eta1 / (eta1 - 1)) + (1 - p) * (eta2 / (eta2 + 1)) - 1) = c at *
  have hI : 0 ≤ ∫ n, m ^ n ∂count (lambda * (T / steps)) := integral_nonneg fun n => by positivity
  generalize ∫ n, m ^ n ∂count (lambda * (T / steps)) = I at *
  have he : Real.exp (-c) * Real.exp c = 1 := by rw [← Real.exp_add]; simp
  constructor
  · intro h
    have := factor_one hS h1 (by positivity) key h
    exact mul_left_cancel₀ (Real.exp_pos (-c)).ne' (this.trans he.symm)
  · rintro rfl
    rwa [he, one_pow, mul_one] at key

/-- **C102.** With a perfect generator Kou's prices violate put-call parity if there are up jumps and a jump does not lower the expected price. -/
theorem C102_kou_fails {v : View ℝ} (hS : 0 < v.price) {T : ℝ} (hT : 0 < T) {steps : ℕ} (h1 : 0 < steps) (h2 : steps ≤ INT_MAX)
    {lambda p eta1 eta2 : ℝ} (hl : 0 < lambda) (he1 : 1 < eta1) (he2 : 0 < eta2) (hp : 0 < p) {k : ModelKind ℝ} (hk : ModelKind.mkKou lambda p eta1 eta2 = .ok k)
    (hm : 1 ≤ (p * (eta1 / (eta1 - 1)) + (1 - p)) * (eta2 / (eta2 + 1))) {K : ℝ} (hK : 0 ≤ K) {N : ℕ} (hN : 0 < N) (hN2 : N ≤ INT_MAX) :
    ¬ ParityHolds perfectMeasure perfectGen steps v T k (v.price * Real.exp (-(v.coupon.getD 0 * T))) K N := by
  intro h
  have h3 := (C102_kou_partial randomSource_perfectGen hS hT h1 h2 hl he1 he2 hk hK hN hN2).2.mp h
  obtain ⟨X, a1, a2⟩ := C63_kou_fails hS hT h1 h2 hl he1 he2 hp hk hm
  obtain ⟨Y, b1, -, -, b4⟩ := C63_kou_partial randomSource_perfectGen hS hT h1 h2 hl he1 he2 hk
  have e : ∀ i < steps, X i = Y i := by
    intro i hi
    funext s
    obtain ⟨s1, r1⟩ := a1 s
    obtain ⟨s2, r2⟩ := b1 s
    rw [r1] at r2
    simp only [Prod.mk.injEq, Res.ok.injEq] at r2
    have := congrArg (fun l => l.getD i 0) r2.1
    simpa [List.getD, hi] using this
  have hd : discounted v.price (Real.exp ((v.r - v.coupon.getD 0) * (T / steps))) steps X = discounted v.price (Real.exp ((v.r - v.coupon.getD 0) * (T / steps))) steps Y := by
    funext j s
    unfold discounted
    by_cases hj : min j steps = 0
    · rw [if_pos hj, if_pos hj]
    · rw [if_neg hj, if_neg hj, e _ (by have := Nat.min_le_right j steps; omega)]
  refine a2 ?_
  have hY := b4.mpr h3
  unfold RiskNeutral at hY ⊢
  rw [hd]
  exact hY

/-- **C102.** The variance gamma model: parity when the simulated price has an expectation. -/
theorem C102_varianceGamma_partial (hg : RandomSource g μ count) {v : View ℝ} (hS : 0 < v.price) {T : ℝ} (hT : 0 < T) {steps : ℕ} (h1 : 0 < steps)
    (h2 : steps ≤ INT_MAX) {nu theta : ℝ} (hc : 0 < 1 - (theta + v.sigma ^ 2 / 2) * nu) (ha : theta + v.sigma ^ 2 / 2 < nu) {k : ModelKind ℝ}
    (hk : ModelKind.mkVarianceGamma v.sigma nu theta = .ok k) {K : ℝ} (hK : 0 ≤ K) {N : ℕ} (hN : 0 < N) (hN2 : N ≤ INT_MAX) :
    ParityHolds μ g steps v T k (v.price * Real.exp (-(v.coupon.getD 0 * T)) *
      (((1 - (theta + v.sigma ^ 2 / 2) * nu) / (1 - (theta + v.sigma ^ 2 / 2) / nu)) ^ (T / steps / nu)) ^ steps) K N ∧
    (ParityHolds μ g steps v T k (v.price * Real.exp (-(v.coupon.getD 0 * T))) K N ↔ nu = 1 ∨ theta + v.sigma ^ 2 / 2 = 0) := by
  have hs' : (0 : ℝ) < steps := by exact_mod_cast h1
  have hdt : 0 < T / steps := by positivity
  obtain ⟨X, a1, -, a3, -, -⟩ := C63_varianceGamma_partial hg hS hT h1 h2 hc hk
  have hs : Simulatable (T / steps) k ∧ 0 < nu := by
    unfold ModelKind.mkVarianceGamma at hk
    split at hk
    · simp [invalidArg] at hk
    rename_i hnu
    simp only [Fl.le_real, Fl.lit_real, Rat.cast_zero, not_le] at hnu
    simp only [Res.ok.injEq] at hk
    subst hk
    exact ⟨⟨hdt, hnu⟩, hnu⟩
  have hnu := hs.2
  have key := parity_factor hg hS h1 h2 hs.1 a1 (a3 ha) hK hN hN2
  refine ⟨key, ?_⟩
  generalize theta + v.sigma ^ 2 / 2 = a at *
  have hd : 0 < 1 - a / nu := by rw [sub_pos, div_lt_one hnu]; exact ha
  have hb : 0 < (1 - a * nu) / (1 - a / nu) := div_pos hc hd
  have hb1 : (1 - a * nu) / (1 - a / nu) = 1 ↔ nu = 1 ∨ a = 0 := by
    rw [div_eq_one_iff_eq hd.ne']
    constructor
    · intro h
      have h4 : a * (nu - 1) * (nu + 1) = 0 := by
        have : a * nu = a / nu := by linarith
        rw [eq_div_iff hnu.ne'] at this
        linarith
      rcases mul_eq_zero.mp h4 with h5 | h5
      · rcases mul_eq_zero.mp h5 with h6 | h6
        · exact .inr h6
        · exact .inl (by linarith)
      · linarith
    · rintro (rfl | rfl) <;> simp
  rw [← hb1]
  constructor
  · intro h
    have := factor_one hS h1 (by positivity) key h
    have hz : T / steps / nu ≠ 0 := by positivity
    exact (Real.rpow_left_inj hb.le zero_le_one hz).mp (by rw [this, Real.one_rpow])
  · intro h
    rwa [h, Real.one_rpow, one_pow, mul_one] at key

/-- **C102.** So the variance gamma prices violate parity for every `nu` other than 1 unless the returns need no correction. -/
theorem C102_varianceGamma_fails {v : View ℝ} (hS : 0 < v.price) {T : ℝ} (hT : 0 < T) {steps : ℕ} (h1 : 0 < steps)
    (h2 : steps ≤ INT_MAX) {nu theta : ℝ} (hc : 0 < 1 - (theta + v.sigma ^ 2 / 2) * nu) (ha : theta + v.sigma ^ 2 / 2 < nu) {k : ModelKind ℝ}
    (hk : ModelKind.mkVarianceGamma v.sigma nu theta = .ok k) (hnu : nu ≠ 1) (h0 : theta + v.sigma ^ 2 / 2 ≠ 0) {K : ℝ} (hK : 0 ≤ K) {N : ℕ} (hN : 0 < N)
    (hN2 : N ≤ INT_MAX) :
    ¬ ParityHolds perfectMeasure perfectGen steps v T k (v.price * Real.exp (-(v.coupon.getD 0 * T))) K N := by
  rw [(C102_varianceGamma_partial randomSource_perfectGen hS hT h1 h2 hc ha hk hK hN hN2).2]
  tauto

/-- Volatility 20%, `nu = 1/5`, `theta = -0.14`. -/
example : ∃ omega, ¬ ParityHolds perfectMeasure perfectGen 252 ⟨100, 1/5, none, 1/20⟩ 1 (.varianceGamma (1/5) (-7/50) omega)
    (100 * Real.exp (-((none : Option ℝ).getD 0 * 1))) 100 10000 := by
  have hk : ∃ omega, ModelKind.mkVarianceGamma (1/5 : ℝ) (1/5) (-7/50) = .ok (.varianceGamma (1/5) (-7/50) omega) := by
    unfold ModelKind.mkVarianceGamma
    rw [if_neg]
    · exact ⟨_, rfl⟩
    · simp only [Fl.le_real, Fl.lit_real, Rat.cast_zero]; norm_num
  obtain ⟨omega, hk⟩ := hk
  exact ⟨omega, C102_varianceGamma_fails (v := ⟨100, 1/5, none, 1/20⟩) (by norm_num) one_pos (by norm_num) (by norm_num [INT_MAX]) (nu := 1/5) (theta := -7/50)
    (by norm_num) (by norm_num) hk (by norm_num) (by norm_num) (by norm_num) (by norm_num) (by norm_num [INT_MAX])⟩

example : ¬ ParityHolds perfectMeasure perfectGen 252 ⟨100, 1/5, none, 1/20⟩ 1 (.bates 2 (1/25) (3/10) (-7/10) (1/25) 1 (-1/10) (3/20) cirExplicitEuler)
    (100 * Real.exp (-((none : Option ℝ).getD 0 * 1))) 100 10000 := by
  have hk : ModelKind.mkBates (2 : ℝ) (1/25) (3/10) (-7/10) (1/25) 1 (-1/10) (3/20) none =
      .ok (.bates 2 (1/25) (3/10) (-7/10) (1/25) 1 (-1/10) (3/20) cirExplicitEuler) := by
    unfold ModelKind.mkBates
    rw [if_neg, if_neg]
    · rfl
    · simp only [Bool.or_eq_true, Fl.lt_real, Fl.gt_real, Fl.lit_real, Rat.cast_one]; norm_num
    · simp only [Bool.or_eq_true, Fl.le_real, Fl.lt_real, Fl.lit_real, Rat.cast_zero]; norm_num
  exact C102_bates_fails (v := ⟨100, 1/5, none, 1/20⟩) (by norm_num) one_pos (by norm_num) (by norm_num [INT_MAX]) one_pos hk (by norm_num)
    (by norm_num) (by norm_num) (by norm_num [INT_MAX])

/-- Up jumps of mean 1 with probability 1/2, down jumps of mean 1/3. -/
example : ¬ ParityHolds perfectMeasure perfectGen 252 ⟨100, 1/5, none, 1/20⟩ 1 (.kou 1 (1/2) 2 3 (11/8))
    (100 * Real.exp (-((none : Option ℝ).getD 0 * 1))) 100 10000 := by
  have hk : ModelKind.mkKou (1 : ℝ) (1/2) 2 3 = .ok (.kou 1 (1/2) 2 3 (11/8)) := by
    unfold ModelKind.mkKou
    rw [if_neg, if_neg, if_neg]
    · simp only [Fl.lit_real, Rat.cast_one]; norm_num
    · simp only [Fl.lt_real, Fl.lit_real, Rat.cast_zero]; norm_num
    · simp only [Fl.lt_real, Fl.lit_real, Rat.cast_one]; norm_num
    · simp only [Bool.or_eq_true, Fl.lt_real, Fl.gt_real, Fl.lit_real, Rat.cast_one, Rat.cast_zero]; norm_num
  exact C102_kou_fails (v := ⟨100, 1/5, none, 1/20⟩) (by norm_num) one_pos (by norm_num) (by norm_num [INT_MAX]) one_pos (by norm_num) (by norm_num)
    (by norm_num) hk (by norm_num) (by norm_num) (by norm_num) (by norm_num [INT_MAX])

/-- The same model at 20% and at 30% volatility (C103). -/
example : ∃ low high, low ≤ high ∧
    Expected perfectMeasure (MC.singlePath (modelSource perfectGen 252 ⟨100, 1/5, none, 1/20⟩ (.kou 1 (1/2) 2 3 (11/8))) (Eff.lift (.ok (1/20)))
      (Payoff.vanilla .put 100).eval1 1 1000) low ∧
    Expected perfectMeasure (MC.singlePath (modelSource perfectGen 252 ⟨100, 3/10, none, 1/20⟩ (.kou 1 (1/2) 2 3 (11/8))) (Eff.lift (.ok (1/20)))
      (Payoff.vanilla .put 100).eval1 1 5000) high := by
  have hk : ModelKind.mkKou (1 : ℝ) (1/2) 2 3 = .ok (.kou 1 (1/2) 2 3 (11/8)) := by
    unfold ModelKind.mkKou
    rw [if_neg, if_neg, if_neg]
    · simp only [Fl.lit_real, Rat.cast_one]; norm_num
    · simp only [Fl.lt_real, Fl.lit_real, Rat.cast_zero]; norm_num
    · simp only [Fl.lt_real, Fl.lit_real, Rat.cast_one]; norm_num
    · simp only [Bool.or_eq_true, Fl.lt_real, Fl.gt_real, Fl.lit_real, Rat.cast_one, Rat.cast_zero]; norm_num
  exact C103_kou randomSource_perfectGen randomSource_perfectGen (by norm_num) (by norm_num) (by norm_num) (by norm_num) (by norm_num) (by norm_num [INT_MAX])
    one_pos (by norm_num) (by norm_num) hk 100 (by norm_num) (by norm_num [INT_MAX]) (by norm_num) (by norm_num [INT_MAX]) .put (.inr rfl)

end Verif
