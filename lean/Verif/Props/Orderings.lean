import Verif.Props.Parity

/-!
# Property C103: how expected prices depend on volatility, maturity and averaging
-/

namespace Verif
open MeasureTheory ProbabilityTheory Function Spec
open scoped ENNReal NNReal

variable {G : Type} [MeasurableSpace G] {μ : Measure G} [IsProbabilityMeasure μ] {g : Gen G ℝ} {count : ℝ → Measure ℕ}
variable {G' : Type} [MeasurableSpace G'] {μ' : Measure G'} [IsProbabilityMeasure μ'] {g' : Gen G' ℝ} {count' : ℝ → Measure ℕ}

/-- The logarithm of a lognormal factor with mean 1. -/
noncomputable def unitLog (w : ℝ≥0) : Measure ℝ := gaussianReal (-(w / 2)) w

instance (w : ℝ≥0) : IsProbabilityMeasure (unitLog w) := by unfold unitLog; infer_instance

/-- Expected excess of `a` times a lognormal factor over `b`. -/
noncomputable def unitCall (a b : ℝ) (w : ℝ≥0) : ℝ := ∫ y, max (a * Real.exp y - b) 0 ∂unitLog w

theorem integrable_exp_unitLog (w : ℝ≥0) : Integrable Real.exp (unitLog w) := by
  have := integrable_exp_mul_gaussianReal (μ := -(w / 2)) (v := w) 1
  simpa [unitLog] using this

theorem integral_exp_unitLog (w : ℝ≥0) : ∫ y, Real.exp y ∂unitLog w = 1 := by
  have := congrFun (mgf_id_gaussianReal (μ := -(w / 2)) (v := w)) 1
  simp only [mgf, id, one_mul] at this
  rw [unitLog, this, Real.exp_eq_one_iff]
  ring

theorem integrable_excess (a b : ℝ) (w : ℝ≥0) : Integrable (fun y => max (a * Real.exp y - b) 0) (unitLog w) :=
  (((integrable_exp_unitLog w).const_mul a).sub (integrable_const b)).pos_part

/-- More variance, more expected excess (Jensen's inequality for the additional factor). -/
theorem unitCall_variance (a b : ℝ) {w w' : ℝ≥0} (h : w ≤ w') : unitCall a b w ≤ unitCall a b w' := by
  obtain ⟨u, rfl⟩ := exists_add_of_le h
  have e : unitLog (w + u) = ((unitLog w).prod (unitLog u)).map fun p => p.1 + p.2 := by
    change _ = unitLog w ∗ unitLog u
    unfold unitLog
    rw [gaussianReal_conv_gaussianReal]
    congr 1
    push_cast
    ring
  have hi : Integrable (fun p : ℝ × ℝ => max (a * Real.exp (p.1 + p.2) - b) 0) ((unitLog w).prod (unitLog u)) := by
    have := integrable_excess a b (w + u)
    rw [e] at this
    exact this.comp_measurable (by fun_prop)
  unfold unitCall
  rw [e, integral_map (by fun_prop) (by fun_prop), integral_prod _ hi]
  refine integral_mono (integrable_excess a b w) hi.integral_prod_left fun x => ?_
  have hu' : Integrable (fun y => a * Real.exp (x + y)) (unitLog u) := by
    simp only [Real.exp_add, ← mul_assoc]
    exact (integrable_exp_unitLog u).const_mul _
  have hu : Integrable (fun y => a * Real.exp (x + y) - b) (unitLog u) := hu'.sub (integrable_const b)
  refine max_le ?_ (integral_nonneg fun y => le_max_right _ _)
  have e2 : ∫ y, a * Real.exp (x + y) - b ∂unitLog u = a * Real.exp x - b := by
    rw [integral_sub hu' (integrable_const b)]
    simp only [Real.exp_add, ← mul_assoc]
    rw [integral_const_mul, integral_exp_unitLog]
    simp
  rw [← e2]
  exact integral_mono hu hu.pos_part fun y => le_max_left _ _

theorem unitCall_mono {a a' b b' : ℝ} (ha : a ≤ a') (hb : b' ≤ b) (w : ℝ≥0) : unitCall a b w ≤ unitCall a' b' w :=
  integral_mono (integrable_excess a b w) (integrable_excess a' b' w) fun y =>
    max_le_max (by have := mul_le_mul_of_nonneg_right ha (Real.exp_pos y).le; linarith) le_rfl

theorem unitCall_scale {c : ℝ} (hc : 0 ≤ c) (a b : ℝ) (w : ℝ≥0) : c * unitCall a b w = unitCall (c * a) (c * b) w := by
  unfold unitCall
  rw [← integral_const_mul]
  congr 1
  funext y
  rw [mul_max_of_nonneg _ _ hc]
  ring_nf

/-- The expected excess of a simulated price over the strike. -/
theorem gbm_excess (hg : RandomSource g μ count) {v : View ℝ} {T : ℝ} (hT : 0 ≤ T) {steps : ℕ} (h2 : steps ≤ INT_MAX)
    {X : ℕ → G → ℝ} (hX : SimulatedPath (Sim.prices g steps v T .gbm) steps X) {i : ℕ} (hi : i < steps) (K : ℝ) :
    ∫ s, max (X i s - K) 0 ∂μ = unitCall (v.price * Real.exp ((v.r - v.coupon.getD 0) * ((i + 1) * (T / steps)))) K
      (v.sigma ^ 2 * ((i + 1) * (T / steps))).toNNReal := by
  obtain ⟨m, e⟩ := C97_gbm hg hT h2 hX hi
  set t := ((i : ℝ) + 1) * (T / steps) with ht
  have ht0 : 0 ≤ t := by positivity
  have e1 : brownianLaw (v.r - v.coupon.getD 0 - v.sigma ^ 2 / 2) v.sigma t =
      (unitLog (v.sigma ^ 2 * t).toNNReal).map (· + (v.r - v.coupon.getD 0) * t) := by
    unfold brownianLaw unitLog
    rw [gaussianReal_map_add_const, Real.coe_toNNReal _ (by positivity)]
    congr 1
    ring
  have e2 := integral_map (μ := μ) m.aemeasurable (f := fun x => max (x - K) 0) (by fun_prop)
  rw [← e2, e, e1, integral_map (by fun_prop) (by fun_prop), integral_map (by fun_prop) (by fun_prop)]
  unfold unitCall
  congr 1
  funext y
  rw [Real.exp_add]
  ring_nf

/-- What a call in geometric Brownian motion costs on average. -/
theorem gbm_call (hg : RandomSource g μ count) {v : View ℝ} (hS : 0 < v.price) {T : ℝ} (hT : 0 ≤ T) {steps : ℕ} (h1 : 0 < steps) (h2 : steps ≤ INT_MAX)
    (K : ℝ) {N : ℕ} (hN : 0 < N) (hN2 : N ≤ INT_MAX) :
    Expected μ (MC.singlePath (modelSource g steps v .gbm) (Eff.lift (.ok v.r)) (Payoff.vanilla .call K).eval1 T N)
      (unitCall (v.price * Real.exp (-(v.coupon.getD 0 * T))) (K * Real.exp (-(v.r * T))) (v.sigma ^ 2 * T).toNNReal) := by
  obtain ⟨X, a1, -, a3, -⟩ := C63_gbm hg hS hT h1 h2
  obtain ⟨b1, -⟩ := a3 (steps - 1) (by omega)
  have := expected_of_averages (C70_singlePath hg h1 h2 (k := .gbm) trivial (f := fun x => max (x - K) 0) (by fun_prop) (callValue K) a1)
    (integrable_call b1 K) (N := N) hN2 hN
  rwa [gbm_excess hg hT h2 a1 (by omega) K, last_date h1, unitCall_scale (Real.exp_pos _).le, discounted_forward, mul_comm _ K] at this

/-- The same for a put, through parity. -/
theorem gbm_put (hg : RandomSource g μ count) {v : View ℝ} (hS : 0 < v.price) {T : ℝ} (hT : 0 ≤ T) {steps : ℕ} (h1 : 0 < steps) (h2 : steps ≤ INT_MAX)
    {K : ℝ} (hK : 0 ≤ K) {N : ℕ} (hN : 0 < N) (hN2 : N ≤ INT_MAX) :
    Expected μ (MC.singlePath (modelSource g steps v .gbm) (Eff.lift (.ok v.r)) (Payoff.vanilla .put K).eval1 T N)
      (unitCall (v.price * Real.exp (-(v.coupon.getD 0 * T))) (K * Real.exp (-(v.r * T))) (v.sigma ^ 2 * T).toNNReal -
        v.price * Real.exp (-(v.coupon.getD 0 * T)) + K * Real.exp (-(v.r * T))) := by
  obtain ⟨c, p, hc, hp, h⟩ := C102_gbm hg hS hT h1 h2 hK hN hN2
  have e := expected_unique hc (gbm_call hg hS hT h1 h2 K hN hN2)
  have := h.parity
  rw [← e, show c - v.price * Real.exp (-(v.coupon.getD 0 * T)) + K * Real.exp (-(v.r * T)) = p by linarith]
  exact hp

/-- **C103.** Expected prices of calls and puts rise with the volatility; steps, paths and generators may differ. -/
theorem C103_volatility (hg : RandomSource g μ count) (hg' : RandomSource g' μ' count') {S σ σ' r : ℝ} {q : Option ℝ} (hS : 0 < S) (hσ : 0 ≤ σ) (h : σ ≤ σ')
    {T : ℝ} (hT : 0 ≤ T) {steps steps' : ℕ} (h1 : 0 < steps) (h2 : steps ≤ INT_MAX) (h1' : 0 < steps') (h2' : steps' ≤ INT_MAX)
    {K : ℝ} (hK : 0 ≤ K) {N N' : ℕ} (hN : 0 < N) (hN2 : N ≤ INT_MAX) (hN' : 0 < N') (hN2' : N' ≤ INT_MAX) (type : PayoffType) (ht : type = .call ∨ type = .put) :
    ∃ low high, low ≤ high ∧
      Expected μ (MC.singlePath (modelSource g steps ⟨S, σ, q, r⟩ .gbm) (Eff.lift (.ok r)) (Payoff.vanilla type K).eval1 T N) low ∧
      Expected μ' (MC.singlePath (modelSource g' steps' ⟨S, σ', q, r⟩ .gbm) (Eff.lift (.ok r)) (Payoff.vanilla type K).eval1 T N') high := by
  have hw : (σ ^ 2 * T).toNNReal ≤ (σ' ^ 2 * T).toNNReal := Real.toNNReal_le_toNNReal (by gcongr)
  have key := unitCall_variance (S * Real.exp (-(q.getD 0 * T))) (K * Real.exp (-(r * T))) hw
  rcases ht with rfl | rfl
  · exact ⟨_, _, key, gbm_call hg (v := ⟨S, σ, q, r⟩) hS hT h1 h2 K hN hN2, gbm_call hg' (v := ⟨S, σ', q, r⟩) hS hT h1' h2' K hN' hN2'⟩
  · exact ⟨_, _, by linarith, gbm_put hg (v := ⟨S, σ, q, r⟩) hS hT h1 h2 hK hN hN2, gbm_put hg' (v := ⟨S, σ', q, r⟩) hS hT h1' h2' hK hN' hN2'⟩

/-- **C103.** Without dividends and with a non-negative rate the expected price of a call rises with the maturity. -/
theorem C103_maturity (hg : RandomSource g μ count) (hg' : RandomSource g' μ' count') {S σ r : ℝ} {q : Option ℝ} (hS : 0 < S) (hr : 0 ≤ r) (hq : q.getD 0 ≤ 0)
    {T T' : ℝ} (hT : 0 ≤ T) (h : T ≤ T') {steps steps' : ℕ} (h1 : 0 < steps) (h2 : steps ≤ INT_MAX) (h1' : 0 < steps') (h2' : steps' ≤ INT_MAX)
    {K : ℝ} (hK : 0 ≤ K) {N N' : ℕ} (hN : 0 < N) (hN2 : N ≤ INT_MAX) (hN' : 0 < N') (hN2' : N' ≤ INT_MAX) :
    ∃ low high, low ≤ high ∧
      Expected μ (MC.singlePath (modelSource g steps ⟨S, σ, q, r⟩ .gbm) (Eff.lift (.ok r)) (Payoff.vanilla .call K).eval1 T N) low ∧
      Expected μ' (MC.singlePath (modelSource g' steps' ⟨S, σ, q, r⟩ .gbm) (Eff.lift (.ok r)) (Payoff.vanilla .call K).eval1 T' N') high := by
  refine ⟨_, _, ?_, gbm_call hg (v := ⟨S, σ, q, r⟩) hS hT h1 h2 K hN hN2, gbm_call hg' (v := ⟨S, σ, q, r⟩) hS (hT.trans h) h1' h2' K hN' hN2'⟩
  refine (unitCall_variance _ _ (Real.toNNReal_le_toNNReal (by gcongr))).trans (unitCall_mono ?_ ?_ _)
  · have : q.getD 0 * T' ≤ q.getD 0 * T := mul_le_mul_of_nonpos_left h hq
    gcongr
  · gcongr

/-- The expected excess of a martingale's price over a strike rises from date to date if the account does not shrink. -/
theorem excess_le_last {S0 q : ℝ} {n : ℕ} {X : ℕ → G → ℝ} (hX : RiskNeutral μ S0 q n X) (hq : 1 ≤ q) (hp : ∀ i < n, ∀ s, 0 < X i s)
    (hi : ∀ i < n, Integrable (X i) μ) {i : ℕ} (hin : i < n) (K : ℝ) :
    ∫ s, max (X i s - K) 0 ∂μ ≤ ∫ s, max (X (n - 1) s - K) 0 ∂μ := by
  obtain ⟨hm, hM⟩ := hX
  have hq0 : 0 < q := by linarith
  have hqi : 0 < q ^ (i + 1) := by positivity
  have hqn : 0 < q ^ n := by positivity
  set c := K / q ^ (i + 1) with hc
  have sub : Submartingale (discounted S0 q n X - fun _ _ => c) (Filtration.natural (discounted S0 q n X) hm) μ :=
    (hM.sub (martingale_const _ _ c)).submartingale
  have h := sub.pos.setIntegral_le (show i + 1 ≤ n by omega) MeasurableSet.univ
  simp only [Measure.restrict_univ] at h
  have d1 : ∀ s, discounted S0 q n X (i + 1) s = X i s / q ^ (i + 1) := fun s => by
    unfold discounted
    rw [min_eq_left (by omega : i + 1 ≤ n), if_neg (by omega), Nat.add_sub_cancel]
  have d2 : ∀ s, discounted S0 q n X n s = X (n - 1) s / q ^ n := fun s => by
    unfold discounted
    rw [min_self, if_neg (by omega)]
  have e1 : ∫ s, max (X i s - K) 0 ∂μ = q ^ (i + 1) * ∫ s, (((discounted S0 q n X - fun _ _ => c) : ℕ → G → ℝ)⁺ (i + 1)) s ∂μ := by
    rw [← integral_const_mul]
    congr 1
    funext s
    change _ = q ^ (i + 1) * max (discounted S0 q n X (i + 1) s - c) 0
    rw [d1, mul_max_of_nonneg _ _ hqi.le, hc, ← sub_div, mul_div_cancel₀ _ hqi.ne', mul_zero]
  rw [e1]
  refine (mul_le_mul_of_nonneg_left h hqi.le).trans ?_
  rw [← integral_const_mul]
  refine integral_mono_of_nonneg (Filter.Eventually.of_forall fun s => mul_nonneg hqi.le (le_max_right _ _)) (integrable_call (hi _ (by omega)) K)
    (Filter.Eventually.of_forall fun s => ?_)
  change q ^ (i + 1) * max (discounted S0 q n X n s - c) 0 ≤ _
  rw [d2, mul_max_of_nonneg _ _ hqi.le, mul_zero, mul_sub, hc, mul_div_cancel₀ _ hqi.ne']
  refine max_le_max ?_ le_rfl
  have h3 : q ^ (i + 1) ≤ q ^ n := pow_le_pow_right₀ hq (by omega)
  have h4 : q ^ (i + 1) * (X (n - 1) s / q ^ n) ≤ X (n - 1) s := by
    rw [mul_div_assoc', div_le_iff₀ hqn, mul_comm]
    exact mul_le_mul_of_nonneg_left h3 (hp _ (by omega) s).le
  linarith

theorem mean_excess {n : ℕ} (hn : 0 < n) (x : ℕ → ℝ) (K : ℝ) :
    max ((∑ i ∈ Finset.range n, x i) / n - K) 0 ≤ (∑ i ∈ Finset.range n, max (x i - K) 0) / n := by
  have hn' : (0 : ℝ) < n := by exact_mod_cast hn
  refine max_le ?_ (div_nonneg (Finset.sum_nonneg fun i _ => le_max_right _ _) hn'.le)
  rw [le_div_iff₀ hn', sub_mul, div_mul_cancel₀ _ hn'.ne']
  have : ∑ i ∈ Finset.range n, (x i - K) ≤ ∑ i ∈ Finset.range n, max (x i - K) 0 := Finset.sum_le_sum fun i _ => le_max_left _ _
  rw [Finset.sum_sub_distrib, Finset.sum_const, Finset.card_range, nsmul_eq_mul] at this
  linarith

/-- **C103.** In a risk neutral model whose account does not shrink an arithmetic Asian call costs on average no more than the
European call. -/
theorem C103_asian (hg : RandomSource g μ count) {v : View ℝ} (hS : 0 < v.price) {T : ℝ} {steps : ℕ} (h1 : 0 < steps) (h2 : steps ≤ INT_MAX)
    {k : ModelKind ℝ} (hk : Simulatable (T / steps) k) {X : ℕ → G → ℝ} (hX : SimulatedPath (Sim.prices g steps v T k) steps X)
    (hi : ∀ i < steps, Integrable (X i) μ) {a : ℝ} (ha : 1 ≤ a) (hR : RiskNeutral μ v.price a steps X) (K : ℝ) {N N' : ℕ} (hN : 0 < N)
    (hN' : 0 < N') (hN2' : N' ≤ INT_MAX) :
    ∃ asian european, asian ≤ european ∧
      Expected μ (MC.asian .arithmetic (modelSource g steps v k) (Eff.lift (.ok v.r)) (Payoff.vanilla .call K).eval1 T N) asian ∧
      Expected μ (MC.singlePath (modelSource g steps v k) (Eff.lift (.ok v.r)) (Payoff.vanilla .call K).eval1 T N') european := by
  have hs' : (0 : ℝ) < steps := by exact_mod_cast h1
  have hi' : Integrable (fun s => (∑ i ∈ Finset.range steps, X i s) / steps) μ :=
    (integrable_finsetSum _ fun i hi'' => hi i (Finset.mem_range.mp hi'')).div_const _
  refine ⟨_, _, ?_,
    expected_of_averages (C70_asian hg hS h2 hk (f := fun x => max (x - K) 0) (by fun_prop) (callValue K) hX).1 (integrable_call hi' K) (N := N) trivial hN,
    expected_of_averages (C70_singlePath hg h1 h2 hk (f := fun x => max (x - K) 0) (by fun_prop) (callValue K) hX)
      (integrable_call (hi _ (by omega)) K) (N := N') hN2' hN'⟩
  refine mul_le_mul_of_nonneg_left ?_ (Real.exp_pos _).le
  have hc : ∀ i ∈ Finset.range steps, Integrable (fun s => max (X i s - K) 0) μ := fun i hi'' => integrable_call (hi i (Finset.mem_range.mp hi'')) K
  refine (integral_mono (integrable_call hi' K) ((integrable_finsetSum _ hc).div_const _) fun s => mean_excess h1 (fun i => X i s) K).trans ?_
  rw [integral_div, integral_finsetSum _ hc, div_le_iff₀ hs']
  refine (Finset.sum_le_sum fun i hi'' => excess_le_last hR ha (path_pos hS hX) hi (Finset.mem_range.mp hi'') K).trans ?_
  rw [Finset.sum_const, Finset.card_range, nsmul_eq_mul, mul_comm]

theorem growth_ge_one {r q T : ℝ} (h : q ≤ r) (hT : 0 ≤ T) (steps : ℕ) : 1 ≤ Real.exp ((r - q) * (T / steps)) :=
  Real.one_le_exp (mul_nonneg (by linarith) (by positivity))

/-- **C103.** Geometric Brownian motion with a rate not below the dividend yield. -/
theorem C103_asian_gbm (hg : RandomSource g μ count) {v : View ℝ} (hS : 0 < v.price) (hr : v.coupon.getD 0 ≤ v.r) {T : ℝ} (hT : 0 ≤ T) {steps : ℕ} (h1 : 0 < steps)
    (h2 : steps ≤ INT_MAX) (K : ℝ) {N N' : ℕ} (hN : 0 < N) (hN' : 0 < N') (hN2' : N' ≤ INT_MAX) :
    ∃ asian european, asian ≤ european ∧
      Expected μ (MC.asian .arithmetic (modelSource g steps v .gbm) (Eff.lift (.ok v.r)) (Payoff.vanilla .call K).eval1 T N) asian ∧
      Expected μ (MC.singlePath (modelSource g steps v .gbm) (Eff.lift (.ok v.r)) (Payoff.vanilla .call K).eval1 T N') european := by
  obtain ⟨X, a1, -, a3, a4⟩ := C63_gbm hg hS hT h1 h2
  exact C103_asian hg hS h1 h2 (k := .gbm) trivial a1 (fun i hi => (a3 i hi).1) (growth_ge_one hr hT steps) a4 K hN hN' hN2'

/-- **C103.** Every Heston model that can be constructed, with a rate not below the dividend yield. -/
theorem C103_asian_heston (hg : RandomSource g μ count) {v : View ℝ} (hS : 0 < v.price) (hr : v.coupon.getD 0 ≤ v.r) {T : ℝ} (hT : 0 ≤ T) {steps : ℕ} (h1 : 0 < steps)
    (h2 : steps ≤ INT_MAX) {kappa theta sigmaV rho v0 : ℝ} {disc : Option (CIR ℝ)} {k : ModelKind ℝ}
    (hk : ModelKind.mkHeston kappa theta sigmaV rho v0 disc = .ok k) (K : ℝ) {N N' : ℕ} (hN : 0 < N) (hN' : 0 < N') (hN2' : N' ≤ INT_MAX) :
    ∃ asian european, asian ≤ european ∧
      Expected μ (MC.asian .arithmetic (modelSource g steps v k) (Eff.lift (.ok v.r)) (Payoff.vanilla .call K).eval1 T N) asian ∧
      Expected μ (MC.singlePath (modelSource g steps v k) (Eff.lift (.ok v.r)) (Payoff.vanilla .call K).eval1 T N') european := by
  obtain ⟨X, a1, -, a3, a4⟩ := C63_heston hg hS hT h1 h2 hk
  exact C103_asian hg hS h1 h2 (mkHeston_simulatable hk) a1 (fun i hi => (a3 i hi).1) (growth_ge_one hr hT steps) a4 K hN hN' hN2'

/-! ## Models with jumps -/

/-- The expected excess over the strike, given the jumps first. -/
theorem jumps_excess {X : G → ℝ} (hm : Measurable X) (hi : Integrable X μ) {b σ t S : ℝ} (ht : 0 ≤ t) {Q : Measure ℝ} [IsProbabilityMeasure Q]
    (e : μ.map X = (brownianLaw (b - σ ^ 2 / 2) σ t ∗ Q).map fun y => S * Real.exp y) (K : ℝ) :
    Integrable (fun j => unitCall (S * Real.exp (b * t + j)) K (σ ^ 2 * t).toNNReal) Q ∧
    ∫ s, max (X s - K) 0 ∂μ = ∫ j, unitCall (S * Real.exp (b * t + j)) K (σ ^ 2 * t).toNNReal ∂Q := by
  set w := (σ ^ 2 * t).toNNReal with hw
  have e1 : brownianLaw (b - σ ^ 2 / 2) σ t = (unitLog w).map (· + b * t) := by
    unfold brownianLaw unitLog
    rw [gaussianReal_map_add_const, hw, Real.coe_toNNReal _ (by positivity)]
    congr 1
    ring
  have e2 : μ.map X = (Q.prod (unitLog w)).map fun p => S * Real.exp (b * t + p.1 + p.2) := by
    have e3 : (unitLog w).map (· + b * t) ∗ Q = (Q.prod (unitLog w)).map fun p => p.2 + b * t + p.1 := by
      rw [Measure.conv_comm]
      unfold Measure.conv
      rw [← Measure.map_id (μ := Q), Measure.map_prod_map _ _ measurable_id (by fun_prop), Measure.map_map (by fun_prop) (by fun_prop), Measure.map_id]
      congr 1
      funext p
      simp only [Function.comp, Prod.map, id]
      ring
    rw [e, e1, e3, Measure.map_map (by fun_prop) (by fun_prop)]
    congr 1
    funext p
    simp only [Function.comp]
    ring_nf
  have hf : Measurable fun x : ℝ => max (x - K) 0 := by fun_prop
  have hi2 : Integrable (fun p : ℝ × ℝ => max (S * Real.exp (b * t + p.1 + p.2) - K) 0) (Q.prod (unitLog w)) := by
    have h1 : Integrable (fun x => max (x - K) 0) (μ.map X) :=
      (integrable_map_measure hf.aestronglyMeasurable hm.aemeasurable).mpr (integrable_call hi K)
    rw [e2] at h1
    exact h1.comp_measurable (by fun_prop)
  have e4 : ∀ j, unitCall (S * Real.exp (b * t + j)) K w = ∫ y, max (S * Real.exp (b * t + j + y) - K) 0 ∂unitLog w := by
    intro j
    unfold unitCall
    congr 1
    funext y
    rw [Real.exp_add (b * t + j)]
    ring_nf
  simp only [e4]
  refine ⟨hi2.integral_prod_left, ?_⟩
  rw [← integral_prod _ hi2, ← integral_map (μ := μ) hm.aemeasurable (f := fun x => max (x - K) 0) hf.aestronglyMeasurable, e2,
    integral_map (by fun_prop) hf.aestronglyMeasurable]

/-- More volatility, more expected excess, for the same jumps. -/
theorem jumps_volatility {X : G → ℝ} {X' : G' → ℝ} (hm : Measurable X) (hi : Integrable X μ) (hm' : Measurable X') (hi' : Integrable X' μ') {b σ σ' t S : ℝ} (ht : 0 ≤ t)
    (hσ : 0 ≤ σ) (h : σ ≤ σ') {Q : Measure ℝ} [IsProbabilityMeasure Q] (e : μ.map X = (brownianLaw (b - σ ^ 2 / 2) σ t ∗ Q).map fun y => S * Real.exp y)
    (e' : μ'.map X' = (brownianLaw (b - σ' ^ 2 / 2) σ' t ∗ Q).map fun y => S * Real.exp y) (K : ℝ) :
    ∫ s, max (X s - K) 0 ∂μ ≤ ∫ s, max (X' s - K) 0 ∂μ' := by
  obtain ⟨a1, a2⟩ := jumps_excess hm hi ht e K
  obtain ⟨b1, b2⟩ := jumps_excess hm' hi' ht e' K
  rw [a2, b2]
  exact integral_mono a1 b1 fun j => unitCall_variance _ _ (Real.toNNReal_le_toNNReal (by gcongr))

/-- From the expected excesses to calls and puts. -/
theorem ordered_prices (hg : RandomSource g μ count) (hg' : RandomSource g' μ' count') {v v' : View ℝ} (hS : 0 < v.price) (hS' : 0 < v'.price) (hr : v.r = v'.r)
    {T : ℝ} {steps : ℕ} (h1 : 0 < steps) (h2 : steps ≤ INT_MAX) {k : ModelKind ℝ} (hk : Simulatable (T / steps) k)
    {X : ℕ → G → ℝ} (hX : SimulatedPath (Sim.prices g steps v T k) steps X) (hi : Integrable (X (steps - 1)) μ)
    {X' : ℕ → G' → ℝ} (hX' : SimulatedPath (Sim.prices g' steps v' T k) steps X') (hi' : Integrable (X' (steps - 1)) μ')
    (hE : ∫ s, X (steps - 1) s ∂μ = ∫ s, X' (steps - 1) s ∂μ') {K : ℝ} (h : ∫ s, max (X (steps - 1) s - K) 0 ∂μ ≤ ∫ s, max (X' (steps - 1) s - K) 0 ∂μ')
    {N N' : ℕ} (hN : 0 < N) (hN2 : N ≤ INT_MAX) (hN' : 0 < N') (hN2' : N' ≤ INT_MAX) (type : PayoffType) (ht : type = .call ∨ type = .put) :
    ∃ low high, low ≤ high ∧
      Expected μ (MC.singlePath (modelSource g steps v k) (Eff.lift (.ok v.r)) (Payoff.vanilla type K).eval1 T N) low ∧
      Expected μ' (MC.singlePath (modelSource g' steps v' k) (Eff.lift (.ok v'.r)) (Payoff.vanilla type K).eval1 T N') high := by
  rcases ht with rfl | rfl
  · refine ⟨_, _, ?_, expected_of_averages (C70_singlePath hg h1 h2 hk (f := fun x => max (x - K) 0) (by fun_prop) (callValue K) hX) (integrable_call hi K) (N := N) hN2 hN,
      expected_of_averages (C70_singlePath hg' h1 h2 hk (f := fun x => max (x - K) 0) (by fun_prop) (callValue K) hX') (integrable_call hi' K) (N := N') hN2' hN'⟩
    rw [hr]
    exact mul_le_mul_of_nonneg_left h (Real.exp_pos _).le
  · refine ⟨_, _, ?_, expected_of_averages (C70_singlePath hg h1 h2 hk (f := fun x => max (K - x) 0) (by fun_prop) (putValue K) hX) (integrable_put hi K) (N := N) hN2 hN,
      expected_of_averages (C70_singlePath hg' h1 h2 hk (f := fun x => max (K - x) 0) (by fun_prop) (putValue K) hX') (integrable_put hi' K) (N := N') hN2' hN'⟩
    rw [hr]
    have p1 := integral_call_sub_put hi K
    have p2 := integral_call_sub_put hi' K
    exact mul_le_mul_of_nonneg_left (by linarith) (Real.exp_pos _).le

theorem mkMerton_simulatable {lambda muJ sigmaJ dt : ℝ} (hl : 0 < lambda) (hdt : 0 < dt) {k : ModelKind ℝ} (hk : ModelKind.mkMerton lambda muJ sigmaJ = .ok k) :
    Simulatable dt k := by
  unfold ModelKind.mkMerton at hk
  split at hk
  · simp [invalidArg] at hk
  rename_i hs
  simp only [Fl.le_real, Fl.lit_real, Rat.cast_zero, not_le] at hs
  simp only [Res.ok.injEq] at hk
  subst hk
  exact ⟨by positivity, hs⟩

theorem mkKou_simulatable {lambda p eta1 eta2 dt : ℝ} (hl : 0 < lambda) (hdt : 0 < dt) (he1 : 1 < eta1) (he2 : 0 < eta2) {k : ModelKind ℝ}
    (hk : ModelKind.mkKou lambda p eta1 eta2 = .ok k) : Simulatable dt k ∧ 0 ≤ p ∧ p ≤ 1 := by
  unfold ModelKind.mkKou at hk
  split at hk
  · simp [invalidArg] at hk
  rename_i hp
  split at hk
  · simp [invalidArg] at hk
  split at hk
  · simp [invalidArg] at hk
  simp only [Bool.or_eq_true, Fl.lt_real, Fl.gt_real, Fl.lit_real, not_or, not_lt, Rat.cast_one, Rat.cast_zero] at hp
  simp only [Res.ok.injEq] at hk
  subst hk
  exact ⟨⟨by positivity, by linarith, he2⟩, hp⟩

/-- **C103.** Merton's model: expected prices rise with the volatility although the drift has no compensator. -/
theorem C103_merton (hg : RandomSource g μ count) (hg' : RandomSource g' μ' count) {S σ σ' r : ℝ} {q : Option ℝ} (hS : 0 < S) (hσ : 0 ≤ σ) (h : σ ≤ σ')
    {T : ℝ} (hT : 0 < T) {steps : ℕ} (h1 : 0 < steps) (h2 : steps ≤ INT_MAX) {lambda muJ sigmaJ : ℝ} (hl : 0 < lambda) {k : ModelKind ℝ}
    (hk : ModelKind.mkMerton lambda muJ sigmaJ = .ok k) (K : ℝ) {N N' : ℕ} (hN : 0 < N) (hN2 : N ≤ INT_MAX) (hN' : 0 < N') (hN2' : N' ≤ INT_MAX)
    (type : PayoffType) (ht : type = .call ∨ type = .put) :
    ∃ low high, low ≤ high ∧
      Expected μ (MC.singlePath (modelSource g steps ⟨S, σ, q, r⟩ k) (Eff.lift (.ok r)) (Payoff.vanilla type K).eval1 T N) low ∧
      Expected μ' (MC.singlePath (modelSource g' steps ⟨S, σ', q, r⟩ k) (Eff.lift (.ok r)) (Payoff.vanilla type K).eval1 T N') high := by
  have hs' : (0 : ℝ) < steps := by exact_mod_cast h1
  have hm : 0 < lambda * (T / steps) := by positivity
  haveI := count_probability hg hm
  obtain ⟨X, a1, -, a3, -⟩ := C63_merton_partial hg (v := ⟨S, σ, q, r⟩) hS hT h1 h2 hl hk
  obtain ⟨X', b1, -, b3, -⟩ := C63_merton_partial hg' (v := ⟨S, σ', q, r⟩) hS hT h1 h2 hl hk
  obtain ⟨m, e⟩ := C97_merton hg (v := ⟨S, σ, q, r⟩) hT h2 hl hk a1 (i := steps - 1) (by omega)
  obtain ⟨m', e'⟩ := C97_merton hg' (v := ⟨S, σ', q, r⟩) hT h2 hl hk b1 (i := steps - 1) (by omega)
  obtain ⟨i1, i2⟩ := a3 (steps - 1) (by omega)
  obtain ⟨j1, j2⟩ := b3 (steps - 1) (by omega)
  haveI := compound_probability (sumLaw (count (lambda * (T / steps))) (steps - 1 + 1)) (gaussianReal muJ (sigmaJ ^ 2).toNNReal)
  exact ordered_prices hg hg' (v := ⟨S, σ, q, r⟩) (v' := ⟨S, σ', q, r⟩) hS hS rfl h1 h2 (mkMerton_simulatable hl (by positivity) hk) a1 i1 b1 j1 (i2.trans j2.symm)
    (jumps_volatility m i1 m' j1 (by positivity) hσ h e e' K) hN hN2 hN' hN2' type ht

/-- **C103.** Kou's model. -/
theorem C103_kou (hg : RandomSource g μ count) (hg' : RandomSource g' μ' count) {S σ σ' r : ℝ} {q : Option ℝ} (hS : 0 < S) (hσ : 0 ≤ σ) (h : σ ≤ σ')
    {T : ℝ} (hT : 0 < T) {steps : ℕ} (h1 : 0 < steps) (h2 : steps ≤ INT_MAX) {lambda p eta1 eta2 : ℝ} (hl : 0 < lambda) (he1 : 1 < eta1) (he2 : 0 < eta2)
    {k : ModelKind ℝ} (hk : ModelKind.mkKou lambda p eta1 eta2 = .ok k) (K : ℝ) {N N' : ℕ} (hN : 0 < N) (hN2 : N ≤ INT_MAX) (hN' : 0 < N') (hN2' : N' ≤ INT_MAX)
    (type : PayoffType) (ht : type = .call ∨ type = .put) :
    ∃ low high, low ≤ high ∧
      Expected μ (MC.singlePath (modelSource g steps ⟨S, σ, q, r⟩ k) (Eff.lift (.ok r)) (Payoff.vanilla type K).eval1 T N) low ∧
      Expected μ' (MC.singlePath (modelSource g' steps ⟨S, σ', q, r⟩ k) (Eff.lift (.ok r)) (Payoff.vanilla type K).eval1 T N') high := by
  have hs' : (0 : ℝ) < steps := by exact_mod_cast h1
  have hm : 0 < lambda * (T / steps) := by positivity
  haveI := count_probability hg hm
  obtain ⟨X, a1, -, a3, -⟩ := C63_kou_partial hg (v := ⟨S, σ, q, r⟩) hS hT h1 h2 hl he1 he2 hk
  obtain ⟨X', b1, -, b3, -⟩ := C63_kou_partial hg' (v := ⟨S, σ', q, r⟩) hS hT h1 h2 hl he1 he2 hk
  obtain ⟨m, e⟩ := C97_kou hg (v := ⟨S, σ, q, r⟩) hT h2 hl he1 he2 hk a1 (i := steps - 1) (by omega)
  obtain ⟨m', e'⟩ := C97_kou hg' (v := ⟨S, σ', q, r⟩) hT h2 hl he1 he2 hk b1 (i := steps - 1) (by omega)
  obtain ⟨i1, i2⟩ := a3 (steps - 1) (by omega)
  obtain ⟨j1, j2⟩ := b3 (steps - 1) (by omega)
  rw [sub_right_comm] at e e'
  obtain ⟨hs, p0, p1⟩ := mkKou_simulatable (dt := T / steps) hl (by positivity) he1 he2 hk
  haveI := Sim.kouJumpLaw_probability p0 p1 (show 0 < eta1 by linarith) he2
  haveI := compound_probability (sumLaw (count (lambda * (T / steps))) (steps - 1 + 1)) (kouJumpLaw p eta1 eta2)
  exact ordered_prices hg hg' (v := ⟨S, σ, q, r⟩) (v' := ⟨S, σ', q, r⟩) hS hS rfl h1 h2 hs a1 i1 b1 j1 (i2.trans j2.symm)
    (jumps_volatility m i1 m' j1 (by positivity) hσ h e e' K) hN hN2 hN' hN2' type ht

/-- A call in Merton's model at 20% and at 30% volatility. -/
example : ∃ low high, low ≤ high ∧
    Expected perfectMeasure (MC.singlePath (modelSource perfectGen 252 ⟨100, 1/5, none, 1/20⟩ (.merton 1 (-1/10) (3/20))) (Eff.lift (.ok (1/20)))
      (Payoff.vanilla .call 100).eval1 1 1000) low ∧
    Expected perfectMeasure (MC.singlePath (modelSource perfectGen 252 ⟨100, 3/10, none, 1/20⟩ (.merton 1 (-1/10) (3/20))) (Eff.lift (.ok (1/20)))
      (Payoff.vanilla .call 100).eval1 1 5000) high := by
  have hk : ModelKind.mkMerton (1 : ℝ) (-1/10) (3/20) = .ok (.merton 1 (-1/10) (3/20)) := by
    unfold ModelKind.mkMerton
    rw [if_neg]
    simp only [Fl.le_real, Fl.lit_real, Rat.cast_zero]; norm_num
  exact C103_merton randomSource_perfectGen randomSource_perfectGen (by norm_num) (by norm_num) (by norm_num) (by norm_num) (by norm_num) (by norm_num [INT_MAX])
    one_pos hk 100 (by norm_num) (by norm_num [INT_MAX]) (by norm_num) (by norm_num [INT_MAX]) .call (.inl rfl)

/-- A put at 20% and at 30% volatility, with 12 and 252 steps. -/
example : ∃ low high, low ≤ high ∧
    Expected perfectMeasure (MC.singlePath (modelSource perfectGen 12 ⟨100, 1/5, none, 1/20⟩ .gbm) (Eff.lift (.ok (1/20))) (Payoff.vanilla .put 100).eval1 1 1000) low ∧
    Expected perfectMeasure (MC.singlePath (modelSource perfectGen 252 ⟨100, 3/10, none, 1/20⟩ .gbm) (Eff.lift (.ok (1/20))) (Payoff.vanilla .put 100).eval1 1 5000) high :=
  C103_volatility randomSource_perfectGen randomSource_perfectGen (by norm_num) (by norm_num) (by norm_num) (by norm_num) (by norm_num) (by norm_num [INT_MAX])
    (by norm_num) (by norm_num [INT_MAX]) (by norm_num) (by norm_num) (by norm_num [INT_MAX]) (by norm_num) (by norm_num [INT_MAX]) .put (.inr rfl)

/-- A call with one year and with two years to maturity. -/
example : ∃ low high, low ≤ high ∧
    Expected perfectMeasure (MC.singlePath (modelSource perfectGen 12 ⟨100, 1/5, none, 1/20⟩ .gbm) (Eff.lift (.ok (1/20))) (Payoff.vanilla .call 100).eval1 1 1000) low ∧
    Expected perfectMeasure (MC.singlePath (modelSource perfectGen 24 ⟨100, 1/5, none, 1/20⟩ .gbm) (Eff.lift (.ok (1/20))) (Payoff.vanilla .call 100).eval1 2 1000) high :=
  C103_maturity randomSource_perfectGen randomSource_perfectGen (by norm_num) (by norm_num) (by simp) (by norm_num) (by norm_num) (by norm_num) (by norm_num [INT_MAX])
    (by norm_num) (by norm_num [INT_MAX]) (by norm_num) (by norm_num) (by norm_num [INT_MAX]) (by norm_num) (by norm_num [INT_MAX])

/-- A Heston model with twelve dates. -/
example : ∃ asian european, asian ≤ european ∧
    Expected perfectMeasure (MC.asian .arithmetic (modelSource perfectGen 12 ⟨100, 1/5, some (1/100), 1/20⟩ (.heston 2 (1/25) (3/10) (-7/10) (1/25) cirExplicitEuler))
      (Eff.lift (.ok (1/20))) (Payoff.vanilla .call 100).eval1 1 5000) asian ∧
    Expected perfectMeasure (MC.singlePath (modelSource perfectGen 12 ⟨100, 1/5, some (1/100), 1/20⟩ (.heston 2 (1/25) (3/10) (-7/10) (1/25) cirExplicitEuler))
      (Eff.lift (.ok (1/20))) (Payoff.vanilla .call 100).eval1 1 5000) european :=
  C103_asian_heston randomSource_perfectGen (v := ⟨100, 1/5, some (1/100), 1/20⟩) (by norm_num) (by norm_num) (by norm_num) (by norm_num) (by norm_num [INT_MAX])
    heston_constructed 100 (by norm_num) (by norm_num) (by norm_num [INT_MAX])

end Verif
