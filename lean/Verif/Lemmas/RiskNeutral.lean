import Verif.Lemmas.SamplingModels
import Verif.Spec.RiskNeutralSpec

/-!
# From one step to the martingale property of the path
-/

namespace Verif
open MeasureTheory ProbabilityTheory Function Spec
open scoped ENNReal

variable {α G : Type} [MeasurableSpace α] [MeasurableSpace G] {μ : Measure G} [IsProbabilityMeasure μ]

/-- The expected value of the first discounted price of a risk neutral path is the spot. -/
theorem RiskNeutral.integral_eq {S0 q : ℝ} {n : ℕ} {X : ℕ → G → ℝ} (h : RiskNeutral μ S0 q n X) (k : ℕ) :
    Integrable (discounted S0 q n X k) μ ∧ ∫ s, discounted S0 q n X k s ∂μ = S0 := by
  obtain ⟨hm, h⟩ := h
  refine ⟨h.integrable k, ?_⟩
  have e := h.2 0 k (Nat.zero_le k)
  have h0 : ∀ s, discounted S0 q n X 0 s = S0 := fun s => by simp [discounted]
  have e2 : ∫ s, (μ[discounted S0 q n X k | (Filtration.natural (discounted S0 q n X) hm) 0]) s ∂μ = ∫ s, discounted S0 q n X k s ∂μ :=
    integral_condExp ((Filtration.natural (discounted S0 q n X) hm).le 0)
  rw [← e2, integral_congr_ae e]
  simp [h0]

/-- The outputs of the loop after a change of the state, as random variables. -/
theorem path_exists {body : α → Eff G (α × ℝ)} (h : Random μ body) {m : G → G} (hm : MeasurePreserving m μ μ) (n : ℕ) (a : α) :
    ∃ l : G → List ℝ, Measurable l ∧ (∀ s, (l s).length = n) ∧ (∀ s, ∃ s', Eff.after m (Eff.unfoldN body n a) s = (.ok (l s), s')) ∧
      ∀ φ : List ℝ → ℝ≥0∞, Measurable φ → ∫⁻ s, φ (l s) ∂μ = expect μ (Eff.unfoldN body n a) φ := by
  have h1 := (((h.unfoldN n).comp (measurable_const (a := a) (β := Unit))).after hm)
  obtain ⟨y, t, h2⟩ := h1
  refine ⟨y (), h2.measurable_ya (), fun s => ?_, fun s => ⟨_, h2.run () s⟩, fun φ hφ => ?_⟩
  · exact (Eff.unfoldN_inv (I := fun _ => True) (J := fun _ => True) (fun _ _ _ _ _ _ => ⟨trivial, trivial⟩) trivial (h2.run () s)).1
  · rw [← expect_after ((h.unfoldN n).comp (measurable_const (a := a) (β := Unit))) hm hφ, ← Random.expect_eq h2 () φ]

theorem list_eq_range {l : List ℝ} {n : ℕ} (h : l.length = n) : l = (List.range n).map fun k => l.getD k 0 := by
  refine List.ext_getElem (by simp [h]) fun i h1 h2 => ?_
  simp [h1]

theorem riskNeutral_path {body : α → Eff G (α × ℝ)} (h : Random μ body) {w : α → ℝ≥0∞} {c : ℝ≥0∞} (hw : Measurable w)
    (hc : ∀ a, expect μ (body a) (fun x => ENNReal.ofReal x.2) = c * w a)
    (hx : ∀ a s x s', body a s = (.ok x, s') → ENNReal.ofReal x.2 = w x.1)
    {m : G → G} (hm : MeasurePreserving m μ μ) {n : ℕ} (hn : 0 < n) {a : α} {S0 q : ℝ} (hS : 0 < S0) (hq : 0 < q) (hwa : w a = ENNReal.ofReal S0)
    (hpos : ∀ s l s', Eff.after m (Eff.unfoldN body n a) s = (.ok l, s') → ∀ y ∈ l, 0 < y) :
    ∃ X : ℕ → G → ℝ, SimulatedPath (Eff.after m (Eff.unfoldN body n a)) n X ∧ (∀ k, Measurable (X k)) ∧ (∀ k s, k < n → 0 < X k s) ∧
      (∀ k, k < n → ∫⁻ s, ENNReal.ofReal (X k s) ∂μ = c ^ (k + 1) * ENNReal.ofReal S0) ∧
      (RiskNeutral μ S0 q n X ↔ c = ENNReal.ofReal q) := by
  obtain ⟨l, hl, hlen, hrun, hE⟩ := path_exists h hm n a
  have hXm : ∀ k, Measurable fun s => (l s).getD k 0 := fun k => (measurable_getD k).comp hl
  have hX0 : ∀ k s, k < n → 0 < (l s).getD k 0 := by
    intro k s hk
    obtain ⟨s', hs'⟩ := hrun s
    have hk' : k < (l s).length := by rw [hlen]; exact hk
    have := hpos _ _ _ hs' ((l s)[k]) (List.getElem_mem hk')
    simpa [hk'] using this
  have hexp : ∀ k, k < n → ∫⁻ s, ENNReal.ofReal ((l s).getD k 0) ∂μ = c ^ (k + 1) * ENNReal.ofReal S0 := by
    intro k hk
    rw [hE (fun l => ENNReal.ofReal (l.getD k 0)) (measurable_getD k).ennreal_ofReal,
      expect_unfoldN_getD h ENNReal.measurable_ofReal hw hc hx n a k hk, hwa]
  refine ⟨fun k s => (l s).getD k 0, fun s => ?_, hXm, hX0, hexp, ?_⟩
  · obtain ⟨s', hs'⟩ := hrun s
    refine ⟨s', ?_⟩
    rw [hs', ← list_eq_range (hlen s)]
  have hdm : ∀ k, Measurable (discounted S0 q n (fun k s => (l s).getD k 0) k) := by
    intro k
    unfold discounted
    by_cases h0 : min k n = 0
    · simp only [h0, if_true]; exact measurable_const
    · simp only [h0, if_false]; exact (hXm _).div_const _
  have hnn : ∀ k s, 0 ≤ discounted S0 q n (fun k s => (l s).getD k 0) k s := by
    intro k s
    unfold discounted
    by_cases h0 : min k n = 0
    · simp only [h0, if_true]; exact hS.le
    · simp only [h0, if_false]
      exact div_nonneg (hX0 _ s (by omega)).le (by positivity)
  constructor
  · intro hR
    obtain ⟨hi, he⟩ := RiskNeutral.integral_eq hR 1
    have e1 : ∀ s, discounted S0 q n (fun k s => (l s).getD k 0) 1 s = (l s).getD 0 0 / q := by
      intro s
      have : min 1 n = 1 := by omega
      simp [discounted, this]
    have e2 : ∫⁻ s, ENNReal.ofReal (discounted S0 q n (fun k s => (l s).getD k 0) 1 s) ∂μ = ENNReal.ofReal S0 := by
      rw [← ofReal_integral_eq_lintegral_ofReal hi (.of_forall (hnn 1)), he]
    have e3 : ∀ s, ENNReal.ofReal (discounted S0 q n (fun k s => (l s).getD k 0) 1 s) = ENNReal.ofReal q⁻¹ * ENNReal.ofReal ((l s).getD 0 0) := by
      intro s
      rw [e1, div_eq_inv_mul, ENNReal.ofReal_mul (by positivity)]
    simp only [e3] at e2
    rw [lintegral_const_mul _ (hXm 0).ennreal_ofReal, hexp 0 hn, zero_add, pow_one, ← mul_assoc] at e2
    have hS' : ENNReal.ofReal S0 ≠ 0 := by simpa using hS
    have e4 : ENNReal.ofReal q⁻¹ * c = 1 := by
      have := (ENNReal.mul_left_inj (a := ENNReal.ofReal q⁻¹ * c) (b := 1) hS' ENNReal.ofReal_ne_top).mp (by rw [e2, one_mul])
      exact this
    calc c = ENNReal.ofReal q * (ENNReal.ofReal q⁻¹ * c) := by
          rw [← mul_assoc, ← ENNReal.ofReal_mul hq.le, mul_inv_cancel₀ hq.ne', ENNReal.ofReal_one, one_mul]
      _ = ENNReal.ofReal q := by rw [e4, mul_one]
  · intro hcq
    have hint : ∀ k, Integrable (discounted S0 q n (fun k s => (l s).getD k 0) k) μ := by
      intro k
      refine ⟨(hdm k).aestronglyMeasurable, ?_⟩
      rw [hasFiniteIntegral_iff_ofReal (.of_forall (hnn k))]
      unfold discounted
      by_cases h0 : min k n = 0
      · simp [h0]
      · simp only [h0, if_false]
        have : ∀ s, ENNReal.ofReal ((l s).getD (min k n - 1) 0 / q ^ min k n) = ENNReal.ofReal (q ^ min k n)⁻¹ * ENNReal.ofReal ((l s).getD (min k n - 1) 0) := by
          intro s
          rw [div_eq_inv_mul, ENNReal.ofReal_mul (by positivity)]
        simp only [this]
        rw [lintegral_const_mul _ (hXm _).ennreal_ofReal, hexp _ (by omega), hcq]
        exact ENNReal.mul_lt_top ENNReal.ofReal_lt_top (ENNReal.mul_lt_top (ENNReal.pow_lt_top ENNReal.ofReal_lt_top) ENNReal.ofReal_lt_top)
    refine ⟨fun k => (hdm k).stronglyMeasurable, martingale_nat (Filtration.stronglyAdapted_natural _) hint fun i => ?_⟩
    have hF : Filtration.natural (discounted S0 q n fun k s => (l s).getD k 0) (fun k => (hdm k).stronglyMeasurable) i ≤
        MeasurableSpace.comap (fun s => (l s).take i) inferInstance := by
      refine iSup₂_le fun j hj => ?_
      rw [← measurable_iff_comap_le]
      unfold discounted
      by_cases h0 : min j n = 0
      · simp only [h0, if_true]; exact measurable_const
      · simp only [h0, if_false]
        have : ∀ s, (l s).getD (min j n - 1) 0 = ((l s).take i).getD (min j n - 1) 0 := by
          intro s
          have : min j n - 1 < i := by omega
          simp [List.getD_eq_getElem?_getD, List.getElem?_take, this]
        simp only [this]
        exact ((measurable_getD _).comp (comap_measurable fun s => (l s).take i)).div_const _
    refine ae_eq_condExp_of_forall_setIntegral_eq (Filtration.le _ i) (hint (i + 1)) (fun s _ _ => (hint i).integrableOn) (fun s hs _ => ?_) ?_
    · rcases Nat.lt_or_ge i n with hin | hin
      swap
      · have : discounted S0 q n (fun k s => (l s).getD k 0) (i + 1) = discounted S0 q n (fun k s => (l s).getD k 0) i := by
          funext s
          have e1 : min (i + 1) n = n := by omega
          have e2 : min i n = n := by omega
          simp only [discounted, e1, e2]
        rw [this]
      obtain ⟨B, hB, rfl⟩ := hF s hs
      have hBm : MeasurableSet ((fun s => (l s).take i) ⁻¹' B) := ((measurable_take i).comp hl) hB
      have hφ : Measurable (B.indicator fun _ => (1 : ℝ≥0∞)) := measurable_one.indicator hB
      have key := expect_unfoldN_next h ENNReal.measurable_ofReal hw hc hx i n a (B.indicator fun _ => 1) hφ hin
      rw [← hE (fun l => ENNReal.ofReal (l.getD i 0) * B.indicator (fun _ => 1) (l.take i))
        ((measurable_getD i).ennreal_ofReal.mul (hφ.comp (measurable_take i))),
        ← hE (fun l => (if i = 0 then w a else ENNReal.ofReal (l.getD (i - 1) 0)) * B.indicator (fun _ => 1) (l.take i)) ?_] at key
      swap
      · refine Measurable.mul ?_ (hφ.comp (measurable_take i))
        by_cases h0 : i = 0
        · simp only [h0, if_true]; exact measurable_const
        · simp only [h0, if_false]; exact (measurable_getD _).ennreal_ofReal
      have hset : ∀ f : G → ℝ, Measurable f → (∀ s, 0 ≤ f s) → ∫ s in (fun s => (l s).take i) ⁻¹' B, f s ∂μ =
          (∫⁻ s, ENNReal.ofReal (f s) * B.indicator (fun _ => 1) ((l s).take i) ∂μ).toReal := by
        intro f hf hf0
        rw [integral_eq_lintegral_of_nonneg_ae (.of_forall hf0) hf.aestronglyMeasurable, ← lintegral_indicator hBm]
        congr 1
        refine lintegral_congr fun s => ?_
        by_cases hs : (l s).take i ∈ B
        · simp [hs]
        · simp [hs]
      rw [hset _ (hdm i) (hnn i), hset _ (hdm (i + 1)) (hnn (i + 1))]
      congr 1
      have f1 : ∀ s, ENNReal.ofReal (discounted S0 q n (fun k s => (l s).getD k 0) (i + 1) s) * B.indicator (fun _ => 1) ((l s).take i) =
          ENNReal.ofReal (q ^ (i + 1))⁻¹ * (ENNReal.ofReal ((l s).getD i 0) * B.indicator (fun _ => 1) ((l s).take i)) := by
        intro s
        have : min (i + 1) n = i + 1 := by omega
        simp only [discounted, this, Nat.add_eq_zero_iff, one_ne_zero, and_false, if_false, Nat.add_sub_cancel]
        rw [div_eq_inv_mul, ENNReal.ofReal_mul (by positivity), mul_assoc]
      have f2 : ∀ s, ENNReal.ofReal (discounted S0 q n (fun k s => (l s).getD k 0) i s) * B.indicator (fun _ => 1) ((l s).take i) =
          ENNReal.ofReal (q ^ i)⁻¹ * ((if i = 0 then w a else ENNReal.ofReal ((l s).getD (i - 1) 0)) * B.indicator (fun _ => 1) ((l s).take i)) := by
        intro s
        have : min i n = i := by omega
        simp only [discounted, this]
        by_cases h0 : i = 0
        · simp [h0, hwa]
        · simp only [h0, if_false]
          rw [div_eq_inv_mul, ENNReal.ofReal_mul (by positivity), mul_assoc]
      simp only [f1, f2]
      have mA : Measurable fun s => ENNReal.ofReal ((l s).getD i 0) * B.indicator (fun _ => 1) ((l s).take i) :=
        (hXm i).ennreal_ofReal.mul (hφ.comp ((measurable_take i).comp hl))
      have mB : Measurable fun s => (if i = 0 then w a else ENNReal.ofReal ((l s).getD (i - 1) 0)) * B.indicator (fun _ => 1) ((l s).take i) := by
        refine Measurable.mul ?_ (hφ.comp ((measurable_take i).comp hl))
        by_cases h0 : i = 0
        · simp only [h0, if_true]; exact measurable_const
        · simp only [h0, if_false]; exact (hXm _).ennreal_ofReal
      rw [lintegral_const_mul _ mA, lintegral_const_mul _ mB, key, hcq, ← mul_assoc, ← ENNReal.ofReal_mul (by positivity),
        show (q ^ (i + 1))⁻¹ * q = (q ^ i)⁻¹ by rw [pow_succ]; field_simp]
    · exact (Filtration.stronglyAdapted_natural (fun k => (hdm k).stronglyMeasurable) i).aestronglyMeasurable

/-- Expectations as real numbers. -/
theorem integral_path {X : G → ℝ} (hX : Measurable X) (h0 : ∀ s, 0 < X s) {e : ℝ} (he : 0 ≤ e) (h : ∫⁻ s, ENNReal.ofReal (X s) ∂μ = ENNReal.ofReal e) :
    Integrable X μ ∧ ∫ s, X s ∂μ = e := by
  have hi : Integrable X μ := by
    refine ⟨hX.aestronglyMeasurable, ?_⟩
    rw [hasFiniteIntegral_iff_ofReal (.of_forall fun s => (h0 s).le), h]
    exact ENNReal.ofReal_lt_top
  refine ⟨hi, ?_⟩
  rw [integral_eq_lintegral_of_nonneg_ae (.of_forall fun s => (h0 s).le) hX.aestronglyMeasurable, h, ENNReal.toReal_ofReal he]

/-! ## The number of jumps -/

section
variable {g : Gen G ℝ} {count : ℝ → Measure ℕ}

theorem count_probability (hg : RandomSource g μ count) {mean : ℝ} (hm : 0 < mean) : IsProbabilityMeasure (count mean) := by
  obtain ⟨x, t, hx, ht, -, h⟩ := Sim.drawCount_run hg hm
  rw [← Sim.map_fst_count hx ht h]
  exact Measure.isProbabilityMeasure_map (Nat.measurable_floor.comp hx).aemeasurable

theorem count_bounded (hg : RandomSource g μ count) {mean : ℝ} (hm : 0 < mean) : ∀ᵐ n ∂count mean, n ≤ INT_MAX := by
  obtain ⟨x, t, hx, ht, hr, h⟩ := hg.draw (.poisson mean) hm
  have h' : μ.map (fun s => (x s, t s)) = ((count mean).map fun n : ℕ => (n : ℝ)).prod μ := h
  rw [← Sim.map_fst_count hx ht h']
  have hf : Measurable fun s => ⌊x s⌋₊ := Nat.measurable_floor.comp hx
  rw [ae_map_iff hf.aemeasurable (Set.to_countable _).measurableSet]
  refine .of_forall fun s => ?_
  obtain ⟨n, hn, e⟩ := hg.integer mean s (t s) (x s) hm (hr s)
  rw [e, Nat.floor_natCast]
  exact hn

theorem integrable_pow_count (hg : RandomSource g μ count) {mean : ℝ} (hm : 0 < mean) {m : ℝ} (h0 : 0 ≤ m) : Integrable (fun n : ℕ => m ^ n) (count mean) := by
  haveI := count_probability hg hm
  refine Integrable.of_bound (measurable_from_nat (f := fun n : ℕ => m ^ n)).aestronglyMeasurable ((max m 1) ^ INT_MAX) ?_
  filter_upwards [count_bounded hg hm] with n hn
  rw [Real.norm_of_nonneg (by positivity)]
  calc m ^ n ≤ (max m 1) ^ n := pow_le_pow_left₀ h0 (le_max_left _ _) _
    _ ≤ (max m 1) ^ INT_MAX := pow_le_pow_right₀ (le_max_right _ _) hn

theorem jumpFactor_eq (hg : RandomSource g μ count) {mean : ℝ} (hm : 0 < mean) {m : ℝ} (h0 : 0 ≤ m) :
    Sim.jumpFactor count mean m = ENNReal.ofReal (∫ n, m ^ n ∂count mean) := by
  rw [ofReal_integral_eq_lintegral_ofReal (integrable_pow_count hg hm h0) (.of_forall fun n => by positivity)]
  unfold Sim.jumpFactor
  refine lintegral_congr fun n => ?_
  rw [ENNReal.ofReal_pow h0]

/-- The jumps do not change the expected price only if their expected factor is 1 or there are none. -/
theorem integral_pow_count (hg : RandomSource g μ count) {mean : ℝ} (hm : 0 < mean) {m : ℝ} (h0 : 0 < m) :
    ∫ n, m ^ n ∂count mean = 1 ↔ m = 1 ∨ ∀ᵐ n ∂count mean, n = 0 := by
  haveI := count_probability hg hm
  have hi := integrable_pow_count hg hm h0.le
  constructor
  · intro h
    rcases lt_trichotomy m 1 with h1 | h1 | h1
    · right
      have e : ∫ n, (1 - m ^ n) ∂count mean = 0 := by
        rw [integral_sub (integrable_const 1) hi, h]; simp
      replace e := (integral_eq_zero_iff_of_nonneg (f := fun n : ℕ => 1 - m ^ n) (fun n => by simpa using pow_le_one₀ h0.le h1.le)
        ((integrable_const 1).sub hi)).mp e
      filter_upwards [e] with n hn
      by_contra hne
      have : m ^ n < 1 := pow_lt_one₀ h0.le h1 hne
      simp only [Pi.zero_apply] at hn
      linarith
    · exact .inl h1
    · right
      have e : ∫ n, (m ^ n - 1) ∂count mean = 0 := by
        rw [integral_sub hi (integrable_const 1), h]; simp
      replace e := (integral_eq_zero_iff_of_nonneg (f := fun n : ℕ => m ^ n - 1) (fun n => by simpa using one_le_pow₀ h1.le)
        (hi.sub (integrable_const 1))).mp e
      filter_upwards [e] with n hn
      by_contra hne
      have : 1 < m ^ n := one_lt_pow₀ h1 hne
      simp only [Pi.zero_apply] at hn
      linarith
  · rintro (rfl | h)
    · simp
    · rw [integral_congr_ae (g := fun _ => (1 : ℝ)) (h.mono fun n hn => by simp [hn])]
      simp

end

end Verif
