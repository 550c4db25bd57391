import Verif.Lemmas.Thinning
import Verif.Props.Parity

/-!
# Property C104: barrier options and the number of monitoring dates
-/

namespace Verif
open MeasureTheory ProbabilityTheory Function Spec
open scoped ENNReal

variable {G : Type} [MeasurableSpace G] {μ : Measure G} [IsProbabilityMeasure μ] {g : Gen G ℝ} {count : ℝ → Measure ℕ}
variable {G' : Type} [MeasurableSpace G'] {μ' : Measure G'} [IsProbabilityMeasure μ'] {g' : Gen G' ℝ} {count' : ℝ → Measure ℕ}

/-- A path of geometric Brownian motion with `m * n` steps, looked at on every `m`-th date, has the law of the path with `n` steps. -/
theorem gbm_thin (hg : RandomSource g μ count) (hg' : RandomSource g' μ' count') {v : View ℝ} {T : ℝ} (hT : 0 ≤ T) {m n : ℕ} (hm : 0 < m) (hn : 0 < n)
    (h2 : m * n ≤ INT_MAX) {X : ℕ → G → ℝ} (hX : SimulatedPath (Sim.prices g (m * n) v T .gbm) (m * n) X)
    {X' : ℕ → G' → ℝ} (hX' : SimulatedPath (Sim.prices g' n v T .gbm) n X') {Φ : List ℝ → ℝ≥0∞} (hΦ : Measurable Φ) :
    ∫⁻ s, Φ ((List.range n).map fun i => X (m * (i + 1) - 1) s) ∂μ = ∫⁻ s, Φ ((List.range n).map fun i => X' i s) ∂μ' := by
  have hn2 : n ≤ INT_MAX := le_trans (Nat.le_mul_of_pos_left n hm) h2
  have hdt : 0 ≤ Sim.dt T (m * n) := by rw [dt_real]; positivity
  have hdt' : 0 ≤ Sim.dt T n := by rw [dt_real]; positivity
  haveI := Sim.brownianLaw_probability (v.r - v.c - v.sigma ^ 2 / 2) v.sigma (Sim.dt T (m * n))
  have e : sumLaw (brownianLaw (v.r - v.c - v.sigma ^ 2 / 2) v.sigma (Sim.dt T (m * n))) m = brownianLaw (v.r - v.c - v.sigma ^ 2 / 2) v.sigma (Sim.dt T n) := by
    rw [sumLaw_brownian _ _ hdt, dt_real, dt_real]
    congr 1
    push_cast
    have : (0 : ℝ) < m := by exact_mod_cast hm
    have : (0 : ℝ) < n := by exact_mod_cast hn
    field_simp
  have l1 := Sim.logStep_gbm hg v hdt
  have l2 := Sim.logStep_gbm hg' v hdt'
  rw [← e] at l2
  have p1 : Sim.prices g (m * n) v T .gbm = Eff.after (g.newDist .stdNormal) (Eff.unfoldN (Sim.gbmStep g v (Sim.dt T (m * n)) .stdNormal) (m * n) v.price) := by
    rw [← Eff.unfoldInt_of_le h2]; rfl
  have p2 : Sim.prices g' n v T .gbm = Eff.after (g'.newDist .stdNormal) (Eff.unfoldN (Sim.gbmStep g' v (Sim.dt T n) .stdNormal) n v.price) := by
    rw [← Eff.unfoldInt_of_le hn2]; rfl
  rw [p1] at hX
  rw [p2] at hX'
  exact l1.law_thin hm l2 (hg.newDist .stdNormal) (hg'.newDist .stdNormal) hX hX' hΦ

/-- The same for a path of the variance gamma model. -/
theorem vg_thin (hg : RandomSource g μ count) (hg' : RandomSource g' μ' count') {v : View ℝ} {T : ℝ} (hT : 0 < T) {m n : ℕ} (hm : 0 < m) (hn : 0 < n)
    (h2 : m * n ≤ INT_MAX) {nu theta omega : ℝ} (hnu : 0 < nu) {X : ℕ → G → ℝ} (hX : SimulatedPath (Sim.prices g (m * n) v T (.varianceGamma nu theta omega)) (m * n) X)
    {X' : ℕ → G' → ℝ} (hX' : SimulatedPath (Sim.prices g' n v T (.varianceGamma nu theta omega)) n X') {Φ : List ℝ → ℝ≥0∞} (hΦ : Measurable Φ) :
    ∫⁻ s, Φ ((List.range n).map fun i => X (m * (i + 1) - 1) s) ∂μ = ∫⁻ s, Φ ((List.range n).map fun i => X' i s) ∂μ' := by
  have hn2 : n ≤ INT_MAX := le_trans (Nat.le_mul_of_pos_left n hm) h2
  have hm' : (0 : ℝ) < m := by exact_mod_cast hm
  have hn' : (0 : ℝ) < n := by exact_mod_cast hn
  have hs : 0 < Sim.dt T (m * n) / nu := by rw [dt_real]; push_cast; positivity
  have hs' : 0 < Sim.dt T n / nu := by rw [dt_real]; positivity
  have hdt : (m : ℝ) * Sim.dt T (m * n) = Sim.dt T n := by
    rw [dt_real, dt_real]; push_cast; field_simp
  haveI := isProbabilityMeasure_gammaMeasure hs hnu
  haveI := bind_probability (gammaMeasure (Sim.dt T (m * n) / nu) nu) (Sim.measurable_brownianLaw theta v.sigma) (Sim.brownianLaw_probability theta v.sigma)
  have e : sumLaw (Measure.dirac ((v.r - v.c + omega) * Sim.dt T (m * n)) ∗ (gammaMeasure (Sim.dt T (m * n) / nu) nu).bind (brownianLaw theta v.sigma)) m =
      Measure.dirac ((v.r - v.c + omega) * Sim.dt T n) ∗ (gammaMeasure (Sim.dt T n / nu) nu).bind (brownianLaw theta v.sigma) := by
    obtain ⟨j, rfl⟩ : ∃ j, m = j + 1 := ⟨m - 1, by omega⟩
    rw [sumLaw_conv, Sim.sumLaw_dirac, Sim.sumLaw_gammaTime theta v.sigma hs hnu]
    push_cast at hdt ⊢
    rw [← hdt]
    congr 2
    · ring
    · congr 1; ring
  have l1 := Sim.logStep_vg hg v theta omega (Sim.dt T (m * n)) hs hnu
  have l2 := Sim.logStep_vg hg' v theta omega (Sim.dt T n) hs' hnu
  rw [← e] at l2
  have p1 : Sim.prices g (m * n) v T (.varianceGamma nu theta omega) = Eff.after (g.newDist (.gamma (Sim.dt T (m * n) / nu) nu) ∘ g.newDist .stdNormal)
      (Eff.unfoldN (Sim.vgStep g v theta omega (Sim.dt T (m * n)) (.gamma (Sim.dt T (m * n) / nu) nu) .stdNormal) (m * n) v.price) := by
    rw [← Eff.unfoldInt_of_le h2]
    simp only [Sim.prices, Sim.varianceGamma, mkGamma_pos hs hnu]
    rfl
  have p2 : Sim.prices g' n v T (.varianceGamma nu theta omega) = Eff.after (g'.newDist (.gamma (Sim.dt T n / nu) nu) ∘ g'.newDist .stdNormal)
      (Eff.unfoldN (Sim.vgStep g' v theta omega (Sim.dt T n) (.gamma (Sim.dt T n / nu) nu) .stdNormal) n v.price) := by
    rw [← Eff.unfoldInt_of_le hn2]
    simp only [Sim.prices, Sim.varianceGamma, mkGamma_pos hs' hnu]
    rfl
  rw [p1] at hX
  rw [p2] at hX'
  exact l1.law_thin hm l2 ((hg.newDist _).comp (hg.newDist .stdNormal)) ((hg'.newDist _).comp (hg'.newDist .stdNormal)) hX hX' hΦ

/-- Expectations of payments on the dates of the coarse path. -/
theorem thin_integral {m n : ℕ} {X : ℕ → G → ℝ} (mX : ∀ i, Measurable (X i)) {X' : ℕ → G' → ℝ} (mX' : ∀ i, Measurable (X' i))
    (hthin : ∀ Φ : List ℝ → ℝ≥0∞, Measurable Φ →
      ∫⁻ s, Φ ((List.range n).map fun i => X (m * (i + 1) - 1) s) ∂μ = ∫⁻ s, Φ ((List.range n).map fun i => X' i s) ∂μ') {F : List ℝ → ℝ} (hF : Measurable F) (h0 : ∀ l, 0 ≤ F l) :
    ∫ s, F ((List.range n).map fun i => X (m * (i + 1) - 1) s) ∂μ = ∫ s, F ((List.range n).map fun i => X' i s) ∂μ' := by
  have ml : ∀ {H : Type} [MeasurableSpace H] (Y : ℕ → H → ℝ), (∀ i, Measurable (Y i)) → Measurable fun s => (List.range n).map fun i => Y i s := by
    intro H _ Y hY
    refine measurable_toList (by simp only [List.length_map, List.length_range]; exact measurable_const) fun i => ?_
    by_cases hi : i < n
    · have : (fun s => ((List.range n).map fun i => Y i s).getD i 0) = Y i := by funext s; simp [hi]
      rw [this]; exact hY i
    · have : (fun s => ((List.range n).map fun i => Y i s).getD i 0) = fun _ => 0 := by funext s; simp [hi]
      rw [this]; exact measurable_const
  rw [integral_eq_lintegral_of_nonneg_ae (.of_forall fun s => h0 _) (hF.comp (ml (fun i => X (m * (i + 1) - 1)) fun i => mX _)).aestronglyMeasurable,
    integral_eq_lintegral_of_nonneg_ae (.of_forall fun s => h0 _) (hF.comp (ml X' mX')).aestronglyMeasurable,
    hthin (fun l => ENNReal.ofReal (F l)) (by fun_prop)]

/-- The value of a vanilla payoff. -/
noncomputable def vanillaPays (type : PayoffType) (K x : ℝ) : ℝ := if type = .call then max (x - K) 0 else max (K - x) 0

open Classical in
/-- The comparison of the two runs in a model in which the fine path on every `m`-th date has the law of the coarse path. -/
theorem refined_barrier (hg : RandomSource g μ count) (hg' : RandomSource g' μ' count') {v : View ℝ} (hS : 0 < v.price) {T : ℝ} {m n : ℕ} (hm : 0 < m)
    (hn : 0 < n) (h2 : m * n ≤ INT_MAX) {k : ModelKind ℝ} (hk : Simulatable (T / (m * n : ℕ)) k) (hk' : Simulatable (T / n) k)
    {X : ℕ → G → ℝ} (a1 : SimulatedPath (Sim.prices g (m * n) v T k) (m * n) X) (mX : ∀ i, Measurable (X i)) (a3 : ∀ i, i < m * n → Integrable (X i) μ)
    {X' : ℕ → G' → ℝ} (b1 : SimulatedPath (Sim.prices g' n v T k) n X') (mX' : ∀ i, Measurable (X' i)) (b3 : ∀ i, i < n → Integrable (X' i) μ')
    (hthin : ∀ Φ : List ℝ → ℝ≥0∞, Measurable Φ →
      ∫⁻ s, Φ ((List.range n).map fun i => X (m * (i + 1) - 1) s) ∂μ = ∫⁻ s, Φ ((List.range n).map fun i => X' i s) ∂μ')
    (d : BarrierDirection) (B K : ℝ) (type : PayoffType) (ht : type = .call ∨ type = .put) {N N' : ℕ} (hN : 0 < N)
    (hN2 : N ≤ INT_MAX) (hN' : 0 < N') (hN2' : N' ≤ INT_MAX) :
    (∃ fine coarse, fine ≤ coarse ∧
      Expected μ (MC.barrier .knockOut (modelSource g (m * n) v k) (Eff.lift (.ok v.r)) (OptionModel.knockOutIsActive B d) (Payoff.vanilla type K).eval1 T N) fine ∧
      Expected μ' (MC.barrier .knockOut (modelSource g' n v k) (Eff.lift (.ok v.r)) (OptionModel.knockOutIsActive B d) (Payoff.vanilla type K).eval1 T N') coarse) ∧
    (∃ fine coarse, coarse ≤ fine ∧
      Expected μ (MC.barrier .knockIn (modelSource g (m * n) v k) (Eff.lift (.ok v.r)) (OptionModel.knockInIsActive B d) (Payoff.vanilla type K).eval1 T N) fine ∧
      Expected μ' (MC.barrier .knockIn (modelSource g' n v k) (Eff.lift (.ok v.r)) (OptionModel.knockInIsActive B d) (Payoff.vanilla type K).eval1 T N') coarse) := by
  have hn2 : n ≤ INT_MAX := le_trans (Nat.le_mul_of_pos_left n hm) h2
  have hmn : 0 < m * n := Nat.mul_pos hm hn
  set f := vanillaPays type K with hf
  have hfm : Measurable f := by
    rw [hf]; unfold vanillaPays
    split_ifs <;> fun_prop
  have hf0 : ∀ x, 0 ≤ f x := fun x => by
    rw [hf]; unfold vanillaPays
    split_ifs <;> exact le_max_right _ _
  have hpay : ∀ x, (Payoff.vanilla type K).eval1 x = .ok (f x) := fun x => by
    rcases ht with rfl | rfl
    · rw [callValue]; simp [hf, vanillaPays]
    · rw [putValue]; simp [hf, vanillaPays]
  have hfi : ∀ {H : Type} [MeasurableSpace H] {ρ : Measure H} [IsProbabilityMeasure ρ] {V : H → ℝ}, Integrable V ρ → Integrable (fun s => f (V s)) ρ := by
    intro H _ ρ _ V hV
    rw [hf]; unfold vanillaPays
    split_ifs
    · exact integrable_call hV K
    · exact integrable_put hV K
  obtain ⟨i1, o1⟩ := C70_barrier hg hS hmn h2 hk hfm hpay d B a1
  obtain ⟨i2, o2⟩ := C70_barrier hg' hS hn hn2 hk' hfm hpay d B b1
  have hB : MeasurableSet {x | Beyond d B x} := by
    cases d
    · exact measurableSet_Ici
    · exact measurableSet_Iic
  have mS : ∀ {H : Type} [MeasurableSpace H] (Y : ℕ → H → ℝ) (k : ℕ), (∀ i, Measurable (Y i)) → MeasurableSet {s | ∃ i < k, Beyond d B (Y i s)} := by
    intro H _ Y k hY
    have : {s | ∃ i < k, Beyond d B (Y i s)} = ⋃ i ∈ Finset.range k, Y i ⁻¹' {x | Beyond d B x} := by ext s; simp
    rw [this]
    exact Finset.measurableSet_biUnion _ fun i _ => hY i hB
  have li : ∀ {H : Type} [MeasurableSpace H] {ρ : Measure H} [IsProbabilityMeasure ρ] (Y : ℕ → H → ℝ) (k j : ℕ), (∀ i, Measurable (Y i)) → Integrable (Y j) ρ →
      Integrable (fun s => if ∃ i < k, Beyond d B (Y i s) then f (Y j s) else 0) ρ ∧ Integrable (fun s => if ∃ i < k, Beyond d B (Y i s) then 0 else f (Y j s)) ρ := by
    intro H _ ρ _ Y k j hY hj
    have hm := mS Y k hY
    have hb := hfi hj
    constructor
    · refine hb.mono' (Measurable.ite hm (hfm.comp (hY j)) measurable_const).aestronglyMeasurable (.of_forall fun s => ?_)
      split_ifs
      · rw [Real.norm_of_nonneg (hf0 _)]
      · simpa using hf0 _
    · refine hb.mono' (Measurable.ite hm measurable_const (hfm.comp (hY j))).aestronglyMeasurable (.of_forall fun s => ?_)
      split_ifs
      · simpa using hf0 _
      · rw [Real.norm_of_nonneg (hf0 _)]
  have q1 := li (ρ := μ) X (m * n) (m * n - 1) mX (a3 _ (by omega))
  have q2 := li (ρ := μ') X' n (n - 1) mX' (b3 _ (by omega))
  have q3 := li (ρ := μ) (fun i => X (m * (i + 1) - 1)) n (n - 1) (fun i => mX _) (by
    have : m * (n - 1 + 1) - 1 < m * n := by rw [Nat.sub_add_cancel hn]; omega
    exact a3 _ this)
  have elast : m * (n - 1 + 1) - 1 = m * n - 1 := by rw [Nat.sub_add_cancel hn]
  have sub : ∀ s, (∃ i < n, Beyond d B (X (m * (i + 1) - 1) s)) → ∃ i < m * n, Beyond d B (X i s) := by
    rintro s ⟨i, hi, h⟩
    refine ⟨_, ?_, h⟩
    have h3 : m * (i + 1) ≤ m * n := Nat.mul_le_mul_left _ hi
    have h4 : 0 < m * (i + 1) := by positivity
    omega
  have mb := measurable_barrier hfm d B (n - 1)
  have ex : ∀ {H : Type} (Y : ℕ → H → ℝ) s, (∃ x ∈ (List.range n).map (fun i => Y i s), Beyond d B x) ↔ ∃ i < n, Beyond d B (Y i s) := by
    intro H Y s; simp
  have el : ∀ {H : Type} (Y : ℕ → H → ℝ) s, ((List.range n).map fun i => Y i s).getD (n - 1) 0 = Y (n - 1) s := by
    intro H Y s
    have : n - 1 < n := by omega
    simp [this]
  have t1 := thin_integral mX mX' hthin mb.1 (fun l => by split_ifs <;> [exact hf0 _; exact le_rfl])
  have t2 := thin_integral mX mX' hthin mb.2 (fun l => by split_ifs <;> [exact le_rfl; exact hf0 _])
  simp only [ex X', el X', ex (fun i => X (m * (i + 1) - 1)), el (fun i => X (m * (i + 1) - 1))] at t1 t2
  constructor
  · refine ⟨_, _, mul_le_mul_of_nonneg_left ?_ (Real.exp_pos _).le, expected_of_averages o1 q1.2 (N := N) hN2 hN, expected_of_averages o2 q2.2 (N := N') hN2' hN'⟩
    rw [← t2]
    refine integral_mono q1.2 q3.2 fun s => ?_
    by_cases hc : ∃ i < n, Beyond d B (X (m * (i + 1) - 1) s)
    · simp only [if_pos (sub s hc), if_pos hc]; exact le_rfl
    · simp only [if_neg hc, elast]
      split_ifs
      · exact hf0 _
      · exact le_rfl
  · refine ⟨_, _, mul_le_mul_of_nonneg_left ?_ (Real.exp_pos _).le, expected_of_averages i1 q1.1 (N := N) hN2 hN, expected_of_averages i2 q2.1 (N := N') hN2' hN'⟩
    rw [← t1]
    refine integral_mono q3.1 q1.1 fun s => ?_
    by_cases hc : ∃ i < n, Beyond d B (X (m * (i + 1) - 1) s)
    · simp only [if_pos (sub s hc), if_pos hc, elast]; exact le_rfl
    · simp only [if_neg hc]
      split_ifs
      · exact hf0 _
      · exact le_rfl

/-- **C104.** Calls and puts with a barrier in geometric Brownian motion: with `m` times as many monitoring dates the expected price of a knock-out
option does not rise, that of a knock-in option does not fall. -/
theorem C104_barrier (hg : RandomSource g μ count) (hg' : RandomSource g' μ' count') {v : View ℝ} (hS : 0 < v.price) {T : ℝ} (hT : 0 ≤ T) {m n : ℕ} (hm : 0 < m)
    (hn : 0 < n) (h2 : m * n ≤ INT_MAX) (d : BarrierDirection) (B K : ℝ) (type : PayoffType) (ht : type = .call ∨ type = .put) {N N' : ℕ} (hN : 0 < N)
    (hN2 : N ≤ INT_MAX) (hN' : 0 < N') (hN2' : N' ≤ INT_MAX) :
    (∃ fine coarse, fine ≤ coarse ∧
      Expected μ (MC.barrier .knockOut (modelSource g (m * n) v .gbm) (Eff.lift (.ok v.r)) (OptionModel.knockOutIsActive B d) (Payoff.vanilla type K).eval1 T N) fine ∧
      Expected μ' (MC.barrier .knockOut (modelSource g' n v .gbm) (Eff.lift (.ok v.r)) (OptionModel.knockOutIsActive B d) (Payoff.vanilla type K).eval1 T N') coarse) ∧
    (∃ fine coarse, coarse ≤ fine ∧
      Expected μ (MC.barrier .knockIn (modelSource g (m * n) v .gbm) (Eff.lift (.ok v.r)) (OptionModel.knockInIsActive B d) (Payoff.vanilla type K).eval1 T N) fine ∧
      Expected μ' (MC.barrier .knockIn (modelSource g' n v .gbm) (Eff.lift (.ok v.r)) (OptionModel.knockInIsActive B d) (Payoff.vanilla type K).eval1 T N') coarse) := by
  have hn2 : n ≤ INT_MAX := le_trans (Nat.le_mul_of_pos_left n hm) h2
  obtain ⟨X, a1, mX, a3, -⟩ := C63_gbm hg hS hT (Nat.mul_pos hm hn) h2
  obtain ⟨X', b1, mX', b3, -⟩ := C63_gbm hg' hS hT hn hn2
  exact refined_barrier hg hg' hS hm hn h2 (k := .gbm) trivial trivial a1 mX (fun i hi => (a3 i hi).1) b1 mX' (fun i hi => (b3 i hi).1)
    (fun Φ hΦ => gbm_thin hg hg' hT hm hn h2 a1 b1 hΦ) d B K type ht hN hN2 hN' hN2'

/-- **C104.** Calls and puts with a barrier in the variance gamma model, where prices have a mean: with `m` times as many monitoring dates the expected price of a knock-out
option does not rise, that of a knock-in option does not fall. -/
theorem C104_varianceGamma (hg : RandomSource g μ count) (hg' : RandomSource g' μ' count') {v : View ℝ} (hS : 0 < v.price) {T : ℝ} (hT : 0 < T) {m n : ℕ} (hm : 0 < m)
    (hn : 0 < n) (h2 : m * n ≤ INT_MAX) {nu theta : ℝ} (hc : 0 < 1 - (theta + v.sigma ^ 2 / 2) * nu)
    (ha : theta + v.sigma ^ 2 / 2 < nu) {k : ModelKind ℝ} (hk : ModelKind.mkVarianceGamma v.sigma nu theta = .ok k) (d : BarrierDirection) (B K : ℝ) (type : PayoffType) (ht : type = .call ∨ type = .put) {N N' : ℕ} (hN : 0 < N)
    (hN2 : N ≤ INT_MAX) (hN' : 0 < N') (hN2' : N' ≤ INT_MAX) :
    (∃ fine coarse, fine ≤ coarse ∧
      Expected μ (MC.barrier .knockOut (modelSource g (m * n) v k) (Eff.lift (.ok v.r)) (OptionModel.knockOutIsActive B d) (Payoff.vanilla type K).eval1 T N) fine ∧
      Expected μ' (MC.barrier .knockOut (modelSource g' n v k) (Eff.lift (.ok v.r)) (OptionModel.knockOutIsActive B d) (Payoff.vanilla type K).eval1 T N') coarse) ∧
    (∃ fine coarse, coarse ≤ fine ∧
      Expected μ (MC.barrier .knockIn (modelSource g (m * n) v k) (Eff.lift (.ok v.r)) (OptionModel.knockInIsActive B d) (Payoff.vanilla type K).eval1 T N) fine ∧
      Expected μ' (MC.barrier .knockIn (modelSource g' n v k) (Eff.lift (.ok v.r)) (OptionModel.knockInIsActive B d) (Payoff.vanilla type K).eval1 T N') coarse) := by
  have hn2 : n ≤ INT_MAX := le_trans (Nat.le_mul_of_pos_left n hm) h2
  have hm' : (0 : ℝ) < m := by exact_mod_cast hm
  have hn' : (0 : ℝ) < n := by exact_mod_cast hn
  obtain ⟨X, a1, mX, a3, -⟩ := C63_varianceGamma_partial hg hS hT (Nat.mul_pos hm hn) h2 hc hk
  obtain ⟨X', b1, mX', b3, -⟩ := C63_varianceGamma_partial hg' hS hT hn hn2 hc hk
  unfold ModelKind.mkVarianceGamma at hk
  split at hk
  · simp [invalidArg] at hk
  rename_i hnu
  simp only [Fl.le_real, Fl.lit_real, Rat.cast_zero, not_le] at hnu
  simp only [Res.ok.injEq] at hk
  subst hk
  have s1 : 0 < T / (m * n : ℕ) ∧ 0 < nu := ⟨by push_cast; positivity, hnu⟩
  have s2 : 0 < T / n ∧ 0 < nu := ⟨by positivity, hnu⟩
  exact refined_barrier (k := .varianceGamma nu theta _) hg hg' hS hm hn h2 s1 s2 a1 mX (fun i hi => (a3 ha i hi).1) b1 mX'
    (fun i hi => (b3 ha i hi).1) (fun Φ hΦ => vg_thin hg hg' hT hm hn h2 hnu a1 b1 hΦ) d B K type ht hN hN2 hN' hN2'

/-- A down-and-out put monitored monthly and on 252 = 21 · 12 days. -/
example : ∃ fine coarse, fine ≤ coarse ∧
    Expected perfectMeasure (MC.barrier .knockOut (modelSource perfectGen (21 * 12) ⟨100, 1/5, none, 1/20⟩ .gbm) (Eff.lift (.ok (1/20)))
      (OptionModel.knockOutIsActive 80 .down) (Payoff.vanilla .put 100).eval1 1 10000) fine ∧
    Expected perfectMeasure (MC.barrier .knockOut (modelSource perfectGen 12 ⟨100, 1/5, none, 1/20⟩ .gbm) (Eff.lift (.ok (1/20)))
      (OptionModel.knockOutIsActive 80 .down) (Payoff.vanilla .put 100).eval1 1 5000) coarse :=
  (C104_barrier randomSource_perfectGen randomSource_perfectGen (v := ⟨100, 1/5, none, 1/20⟩) (by norm_num) (by norm_num) (by norm_num) (by norm_num)
    (by norm_num [INT_MAX]) .down 80 100 .put (.inr rfl) (by norm_num) (by norm_num [INT_MAX]) (by norm_num) (by norm_num [INT_MAX])).1

/-- Volatility 20%, `nu = 1/5`, `theta = -0.14`: an up-and-in call monitored monthly and on 252 days. -/
example : ∃ omega fine coarse, coarse ≤ fine ∧
    Expected perfectMeasure (MC.barrier .knockIn (modelSource perfectGen (21 * 12) ⟨100, 1/5, none, 1/20⟩ (.varianceGamma (1/5) (-7/50) omega))
      (Eff.lift (.ok (1/20))) (OptionModel.knockInIsActive 120 .up) (Payoff.vanilla .call 100).eval1 1 10000) fine ∧
    Expected perfectMeasure (MC.barrier .knockIn (modelSource perfectGen 12 ⟨100, 1/5, none, 1/20⟩ (.varianceGamma (1/5) (-7/50) omega))
      (Eff.lift (.ok (1/20))) (OptionModel.knockInIsActive 120 .up) (Payoff.vanilla .call 100).eval1 1 5000) coarse := by
  have hk : ∃ omega, ModelKind.mkVarianceGamma (1/5 : ℝ) (1/5) (-7/50) = .ok (.varianceGamma (1/5) (-7/50) omega) := by
    unfold ModelKind.mkVarianceGamma
    rw [if_neg]
    · exact ⟨_, rfl⟩
    · simp only [Fl.le_real, Fl.lit_real, Rat.cast_zero]; norm_num
  obtain ⟨omega, hk⟩ := hk
  exact ⟨omega, (C104_varianceGamma randomSource_perfectGen randomSource_perfectGen (v := ⟨100, 1/5, none, 1/20⟩) (by norm_num) one_pos (m := 21) (n := 12) (by norm_num)
    (by norm_num) (by norm_num [INT_MAX]) (nu := 1/5) (theta := -7/50) (by norm_num) (by norm_num) hk .up 120 100 .call (.inl rfl) (by norm_num)
    (by norm_num [INT_MAX]) (by norm_num) (by norm_num [INT_MAX])).2⟩

end Verif
