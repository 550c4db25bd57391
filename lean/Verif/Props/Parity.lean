import Verif.Spec.ParitySpec
import Verif.Props.Concentration
import Verif.Props.ModelDrift
import Verif.Props.ExactLaws

/-!
# Property C102: expected Monte Carlo prices satisfy put-call parity and allow no arbitrage
-/

namespace Verif
open MeasureTheory ProbabilityTheory Function Spec
open scoped ENNReal

variable {G : Type} [MeasurableSpace G] {μ : Measure G} [IsProbabilityMeasure μ] {g : Gen G ℝ} {count : ℝ → Measure ℕ}

theorem callValue (K x : ℝ) : (Payoff.vanilla .call K).eval1 x = .ok (max (x - K) 0) := by
  simp [Payoff.eval1]

/-- An average of copies of an integrable payment has the expectation of the payment. -/
theorem expected_of_averages {run : ℕ → Eff G ℝ} {ok : Set ℕ} {d : ℝ} {V : G → ℝ} (h : Averages μ run ok d V) (hL : Integrable V μ) {N : ℕ} (hN : N ∈ ok)
    (h0 : 0 < N) : Expected μ (run N) (d * ∫ s, V s ∂μ) := by
  obtain ⟨X, -, h2, h3⟩ := h
  have hNr : (0 : ℝ) < N := by exact_mod_cast h0
  have hXL : ∀ n, Integrable (X n) μ := fun n => (h2 n).symm.integrable_snd hL
  refine ⟨_, h3 N hN h0, ((integrable_finsetSum _ fun n _ => hXL n).div_const _).const_mul _, ?_⟩
  rw [integral_const_mul, integral_div, integral_finsetSum _ fun n _ => hXL n, Finset.sum_congr rfl fun n _ => (h2 n).integral_eq]
  simp only [Finset.sum_const, Finset.card_range, nsmul_eq_mul]
  field_simp

theorem integrable_call {V : G → ℝ} (hV : Integrable V μ) (K : ℝ) : Integrable (fun s => max (V s - K) 0) μ :=
  (hV.sub (integrable_const K)).pos_part

theorem integrable_put {V : G → ℝ} (hV : Integrable V μ) (K : ℝ) : Integrable (fun s => max (K - V s) 0) μ :=
  ((integrable_const K).sub hV).pos_part

theorem integral_call_sub_put {V : G → ℝ} (hV : Integrable V μ) (K : ℝ) :
    (∫ s, max (V s - K) 0 ∂μ) - ∫ s, max (K - V s) 0 ∂μ = (∫ s, V s ∂μ) - K := by
  rw [← integral_sub (integrable_call hV K) (integrable_put hV K)]
  have e : (fun s => max (V s - K) 0 - max (K - V s) 0) = fun s => V s - K := by
    funext s
    rcases le_total (V s) K with h | h
    · rw [max_eq_right (by linarith), max_eq_left (by linarith)]; ring
    · rw [max_eq_left (by linarith), max_eq_right (by linarith)]; ring
  rw [e, integral_sub hV (integrable_const K)]
  simp

/-- Options on a positive quantity: parity and the bounds. -/
theorem arbitrageFree_integral {V : G → ℝ} (hV : Integrable V μ) (hp : ∀ s, 0 ≤ V s) {K d : ℝ} (hK : 0 ≤ K) (hd : 0 ≤ d) :
    ArbitrageFree (d * ∫ s, V s ∂μ) (d * K) (d * ∫ s, max (V s - K) 0 ∂μ) (d * ∫ s, max (K - V s) 0 ∂μ) := by
  have e := integral_call_sub_put hV K
  have e' : d * (∫ s, max (V s - K) 0 ∂μ) - d * ∫ s, max (K - V s) 0 ∂μ = d * (∫ s, V s ∂μ) - d * K := by rw [← mul_sub, e, mul_sub]
  have c0 : 0 ≤ d * ∫ s, max (V s - K) 0 ∂μ := mul_nonneg hd (integral_nonneg fun s => le_max_right _ _)
  have p0 : 0 ≤ d * ∫ s, max (K - V s) 0 ∂μ := mul_nonneg hd (integral_nonneg fun s => le_max_right _ _)
  have cu : d * (∫ s, max (V s - K) 0 ∂μ) ≤ d * ∫ s, V s ∂μ :=
    mul_le_mul_of_nonneg_left (integral_mono (integrable_call hV K) hV fun s => max_le (by linarith) (hp s)) hd
  exact ⟨e', max_le (by linarith) c0, cu, max_le (by linarith) p0, by linarith⟩

/-- The call and the put with strike `K` priced by simulation have arbitrage free expectations, where the underlying costs
`asset`. -/
def ParityHolds (μ : Measure G) (g : Gen G ℝ) (steps : ℕ) (v : View ℝ) (T : ℝ) (k : ModelKind ℝ) (asset K : ℝ) (N : ℕ) : Prop :=
  ∃ call put, Expected μ (MC.singlePath (modelSource g steps v k) (Eff.lift (.ok v.r)) (Payoff.vanilla .call K).eval1 T N) call ∧
    Expected μ (MC.singlePath (modelSource g steps v k) (Eff.lift (.ok v.r)) (Payoff.vanilla .put K).eval1 T N) put ∧
    ArbitrageFree asset (K * Real.exp (-(v.r * T))) call put

theorem path_pos {v : View ℝ} (hS : 0 < v.price) {T : ℝ} {steps : ℕ} {k : ModelKind ℝ} {X : ℕ → G → ℝ}
    (hX : SimulatedPath (Sim.prices g steps v T k) steps X) : ∀ i < steps, ∀ s, 0 < X i s := by
  intro i hi s
  obtain ⟨s', h⟩ := hX s
  exact C32_positive _ _ _ hS _ _ _ _ _ h _ (List.mem_map.mpr ⟨i, List.mem_range.mpr hi, rfl⟩)

/-- **C102.** Every model whose simulated price at maturity has an expectation: the expected prices of a call and a put satisfy
parity with the discounted expectation of the simulated price, whatever the number of steps and paths. -/
theorem C102_parity (hg : RandomSource g μ count) {v : View ℝ} (hS : 0 < v.price) {T : ℝ} {steps : ℕ} (h1 : 0 < steps) (h2 : steps ≤ INT_MAX)
    {k : ModelKind ℝ} (hk : Simulatable (T / steps) k) {X : ℕ → G → ℝ} (hX : SimulatedPath (Sim.prices g steps v T k) steps X)
    (hi : Integrable (X (steps - 1)) μ) {K : ℝ} (hK : 0 ≤ K) {N : ℕ} (hN : 0 < N) (hN2 : N ≤ INT_MAX) :
    ParityHolds μ g steps v T k (Real.exp (-(v.r * T)) * ∫ s, X (steps - 1) s ∂μ) K N := by
  refine ⟨_, _, expected_of_averages (C70_singlePath hg h1 h2 hk (f := fun x => max (x - K) 0) (by fun_prop) (callValue K) hX) (integrable_call hi K) (N := N) hN2 hN,
    expected_of_averages (C70_singlePath hg h1 h2 hk (f := fun x => max (K - x) 0) (by fun_prop) (putValue K) hX) (integrable_put hi K) (N := N) hN2 hN, ?_⟩
  rw [mul_comm K]
  exact arbitrageFree_integral hi (fun s => (path_pos hS hX _ (by omega) s).le) hK (Real.exp_pos _).le

theorem discounted_forward (S r q T : ℝ) : Real.exp (-(r * T)) * (S * Real.exp ((r - q) * T)) = S * Real.exp (-(q * T)) := by
  rw [mul_left_comm, ← Real.exp_add]
  congr 2
  ring

/-- **C102.** Geometric Brownian motion: parity with the spot less the dividends, `S exp (-q T) - K exp (-r T)`. -/
theorem C102_gbm (hg : RandomSource g μ count) {v : View ℝ} (hS : 0 < v.price) {T : ℝ} (hT : 0 ≤ T) {steps : ℕ} (h1 : 0 < steps) (h2 : steps ≤ INT_MAX)
    {K : ℝ} (hK : 0 ≤ K) {N : ℕ} (hN : 0 < N) (hN2 : N ≤ INT_MAX) :
    ParityHolds μ g steps v T .gbm (v.price * Real.exp (-(v.coupon.getD 0 * T))) K N := by
  obtain ⟨X, a1, -, a3, -⟩ := C63_gbm hg hS hT h1 h2
  obtain ⟨b1, b2⟩ := a3 (steps - 1) (by omega)
  rw [last_date h1] at b2
  have := C102_parity hg hS h1 h2 (k := .gbm) trivial a1 b1 hK hN hN2
  rwa [b2, discounted_forward] at this

theorem mkHeston_simulatable {kappa theta sigmaV rho v0 dt : ℝ} {disc : Option (CIR ℝ)} {k : ModelKind ℝ}
    (hk : ModelKind.mkHeston kappa theta sigmaV rho v0 disc = .ok k) : Simulatable dt k := by
  unfold ModelKind.mkHeston at hk
  split at hk
  · simp [logicErr] at hk
  · split at hk
    · simp [logicErr] at hk
    · simp only [Res.ok.injEq] at hk
      subst hk
      exact cirExplicitEuler_measurable

/-- **C102.** Every Heston model that can be constructed: the same, for every number of time steps although the variance is
only discretised. -/
theorem C102_heston (hg : RandomSource g μ count) {v : View ℝ} (hS : 0 < v.price) {T : ℝ} (hT : 0 ≤ T) {steps : ℕ} (h1 : 0 < steps) (h2 : steps ≤ INT_MAX)
    {kappa theta sigmaV rho v0 : ℝ} {disc : Option (CIR ℝ)} {k : ModelKind ℝ} (hk : ModelKind.mkHeston kappa theta sigmaV rho v0 disc = .ok k)
    {K : ℝ} (hK : 0 ≤ K) {N : ℕ} (hN : 0 < N) (hN2 : N ≤ INT_MAX) :
    ParityHolds μ g steps v T k (v.price * Real.exp (-(v.coupon.getD 0 * T))) K N := by
  obtain ⟨X, a1, -, a3, -⟩ := C63_heston hg hS hT h1 h2 hk
  obtain ⟨b1, b2⟩ := a3 (steps - 1) (by omega)
  rw [last_date h1] at b2
  have := C102_parity hg hS h1 h2 (mkHeston_simulatable hk) a1 b1 hK hN hN2
  rwa [b2, discounted_forward] at this

/-- **C102.** Merton's model: parity holds with a forward price that is multiplied by the expected jumps. -/
theorem C102_merton_partial (hg : RandomSource g μ count) {v : View ℝ} (hS : 0 < v.price) {T : ℝ} (hT : 0 < T) {steps : ℕ} (h1 : 0 < steps)
    (h2 : steps ≤ INT_MAX) {lambda muJ sigmaJ : ℝ} (hl : 0 < lambda) {k : ModelKind ℝ} (hk : ModelKind.mkMerton lambda muJ sigmaJ = .ok k)
    {K : ℝ} (hK : 0 ≤ K) {N : ℕ} (hN : 0 < N) (hN2 : N ≤ INT_MAX) :
    ParityHolds μ g steps v T k (v.price * Real.exp (-(v.coupon.getD 0 * T)) *
      (∫ n, Real.exp (muJ + sigmaJ ^ 2 / 2) ^ n ∂count (lambda * (T / steps))) ^ steps) K N := by
  have hs' : (0 : ℝ) < steps := by exact_mod_cast h1
  have hsim : Simulatable (T / steps) k := by
    unfold ModelKind.mkMerton at hk
    split at hk
    · simp [invalidArg] at hk
    rename_i hs
    simp only [Fl.le_real, Fl.lit_real, Rat.cast_zero, not_le] at hs
    simp only [Res.ok.injEq] at hk
    subst hk
    exact ⟨by positivity, hs⟩
  obtain ⟨X, a1, -, a3, -⟩ := C63_merton_partial hg hS hT h1 h2 hl hk
  obtain ⟨b1, b2⟩ := a3 (steps - 1) (by omega)
  rw [last_date h1, Nat.sub_add_cancel h1] at b2
  have := C102_parity hg hS h1 h2 hsim a1 b1 hK hN hN2
  rwa [b2, ← mul_assoc, discounted_forward] at this

theorem expected_unique {run : Eff G ℝ} {a b : ℝ} (ha : Expected μ run a) (hb : Expected μ run b) : a = b := by
  obtain ⟨Y, y1, -, y3⟩ := ha
  obtain ⟨Z, z1, -, z3⟩ := hb
  have e : Y = Z := by
    funext s
    obtain ⟨s1, h1⟩ := y1 s
    obtain ⟨s2, h2⟩ := z1 s
    rw [h1] at h2
    simpa using congrArg Prod.fst h2
  rw [← y3, e, z3]

/-- Only one price of the underlying fits. -/
theorem ParityHolds.unique {steps : ℕ} {v : View ℝ} {T : ℝ} {k : ModelKind ℝ} {a b K : ℝ} {N : ℕ} (ha : ParityHolds μ g steps v T k a K N)
    (hb : ParityHolds μ g steps v T k b K N) : a = b := by
  obtain ⟨c, p, c1, p1, h1⟩ := ha
  obtain ⟨c', p', c2, p2, h2⟩ := hb
  have e1 := expected_unique c1 c2
  have e2 := expected_unique p1 p2
  have := h1.parity
  have := h2.parity
  subst e1 e2
  linarith

/-- **C102.** With a perfect generator Merton's call and put prices violate put-call parity whenever a jump changes the
expected price. -/
theorem C102_merton_fails {v : View ℝ} (hS : 0 < v.price) {T : ℝ} (hT : 0 < T) {steps : ℕ} (h1 : 0 < steps) (h2 : steps ≤ INT_MAX)
    {lambda muJ sigmaJ : ℝ} (hl : 0 < lambda) {k : ModelKind ℝ} (hk : ModelKind.mkMerton lambda muJ sigmaJ = .ok k) (hJ : muJ + sigmaJ ^ 2 / 2 ≠ 0)
    {K : ℝ} (hK : 0 ≤ K) {N : ℕ} (hN : 0 < N) (hN2 : N ≤ INT_MAX) :
    ¬ ParityHolds perfectMeasure perfectGen steps v T k (v.price * Real.exp (-(v.coupon.getD 0 * T))) K N := by
  intro h
  have hs' : (0 : ℝ) < steps := by exact_mod_cast h1
  have hm : 0 < lambda * (T / steps) := by positivity
  have e := (C102_merton_partial randomSource_perfectGen hS hT h1 h2 hl hk hK hN hN2).unique h
  have e1 := mul_left_cancel₀ (mul_pos hS (Real.exp_pos (-(v.coupon.getD 0 * T)))).ne' (e.trans (mul_one _).symm)
  rw [pow_eq_one_iff_of_nonneg (integral_nonneg fun n => by positivity) (by omega),
    integral_pow_count randomSource_perfectGen hm (Real.exp_pos _), exp_pow_eq_one] at e1
  rcases e1 with h3 | h3
  · exact hJ h3
  · exact clippedPoisson_not_zero hm h3

/-- **C102.** Arithmetic Asian options: parity with the mean of the expected prices on the dates. -/
theorem C102_asian (hg : RandomSource g μ count) {v : View ℝ} (hS : 0 < v.price) {T : ℝ} {steps : ℕ} (h1 : 0 < steps) (h2 : steps ≤ INT_MAX)
    {k : ModelKind ℝ} (hk : Simulatable (T / steps) k) {X : ℕ → G → ℝ} (hX : SimulatedPath (Sim.prices g steps v T k) steps X)
    (hi : ∀ i < steps, Integrable (X i) μ) {K : ℝ} (hK : 0 ≤ K) {N : ℕ} (hN : 0 < N) :
    ∃ call put, Expected μ (MC.asian .arithmetic (modelSource g steps v k) (Eff.lift (.ok v.r)) (Payoff.vanilla .call K).eval1 T N) call ∧
      Expected μ (MC.asian .arithmetic (modelSource g steps v k) (Eff.lift (.ok v.r)) (Payoff.vanilla .put K).eval1 T N) put ∧
      ArbitrageFree (Real.exp (-(v.r * T)) * ((∑ i ∈ Finset.range steps, ∫ s, X i s ∂μ) / steps)) (K * Real.exp (-(v.r * T))) call put := by
  have hi' : Integrable (fun s => (∑ i ∈ Finset.range steps, X i s) / steps) μ :=
    (integrable_finsetSum _ fun i hi'' => hi i (Finset.mem_range.mp hi'')).div_const _
  have hp : ∀ s, 0 ≤ (∑ i ∈ Finset.range steps, X i s) / steps := fun s =>
    div_nonneg (Finset.sum_nonneg fun i hi'' => (path_pos hS hX _ (Finset.mem_range.mp hi'') s).le) (Nat.cast_nonneg _)
  refine ⟨_, _, expected_of_averages (C70_asian hg hS h2 hk (f := fun x => max (x - K) 0) (by fun_prop) (callValue K) hX).1 (integrable_call hi' K) (N := N) trivial hN,
    expected_of_averages (C70_asian hg hS h2 hk (f := fun x => max (K - x) 0) (by fun_prop) (putValue K) hX).1 (integrable_put hi' K) (N := N) trivial hN, ?_⟩
  have e : ∑ i ∈ Finset.range steps, ∫ s, X i s ∂μ = ∫ s, ∑ i ∈ Finset.range steps, X i s ∂μ :=
    (integral_finsetSum _ fun i hi'' => hi i (Finset.mem_range.mp hi'')).symm
  rw [mul_comm K, e, ← integral_div]
  exact arbitrageFree_integral hi' hp hK (Real.exp_pos _).le

/-- **C102.** Arithmetic Asian options in geometric Brownian motion: parity with the mean of the forward prices. -/
theorem C102_asian_gbm (hg : RandomSource g μ count) {v : View ℝ} (hS : 0 < v.price) {T : ℝ} (hT : 0 ≤ T) {steps : ℕ} (h1 : 0 < steps) (h2 : steps ≤ INT_MAX)
    {K : ℝ} (hK : 0 ≤ K) {N : ℕ} (hN : 0 < N) :
    ∃ call put, Expected μ (MC.asian .arithmetic (modelSource g steps v .gbm) (Eff.lift (.ok v.r)) (Payoff.vanilla .call K).eval1 T N) call ∧
      Expected μ (MC.asian .arithmetic (modelSource g steps v .gbm) (Eff.lift (.ok v.r)) (Payoff.vanilla .put K).eval1 T N) put ∧
      ArbitrageFree (Real.exp (-(v.r * T)) * ((∑ i ∈ Finset.range steps, v.price * Real.exp ((v.r - v.coupon.getD 0) * ((i + 1) * (T / steps)))) / steps))
        (K * Real.exp (-(v.r * T))) call put := by
  obtain ⟨X, a1, -, a3, -⟩ := C63_gbm hg hS hT h1 h2
  have := C102_asian hg hS h1 h2 (k := .gbm) trivial a1 (fun i hi => (a3 i hi).1) hK hN
  rwa [Finset.sum_congr rfl fun i hi => (a3 i (Finset.mem_range.mp hi)).2] at this

/-- **C102.** The same in every Heston model that can be constructed. -/
theorem C102_asian_heston (hg : RandomSource g μ count) {v : View ℝ} (hS : 0 < v.price) {T : ℝ} (hT : 0 ≤ T) {steps : ℕ} (h1 : 0 < steps) (h2 : steps ≤ INT_MAX)
    {kappa theta sigmaV rho v0 : ℝ} {disc : Option (CIR ℝ)} {k : ModelKind ℝ} (hk : ModelKind.mkHeston kappa theta sigmaV rho v0 disc = .ok k)
    {K : ℝ} (hK : 0 ≤ K) {N : ℕ} (hN : 0 < N) :
    ∃ call put, Expected μ (MC.asian .arithmetic (modelSource g steps v k) (Eff.lift (.ok v.r)) (Payoff.vanilla .call K).eval1 T N) call ∧
      Expected μ (MC.asian .arithmetic (modelSource g steps v k) (Eff.lift (.ok v.r)) (Payoff.vanilla .put K).eval1 T N) put ∧
      ArbitrageFree (Real.exp (-(v.r * T)) * ((∑ i ∈ Finset.range steps, v.price * Real.exp ((v.r - v.coupon.getD 0) * ((i + 1) * (T / steps)))) / steps))
        (K * Real.exp (-(v.r * T))) call put := by
  obtain ⟨X, a1, -, a3, -⟩ := C63_heston hg hS hT h1 h2 hk
  have := C102_asian hg hS h1 h2 (mkHeston_simulatable hk) a1 (fun i hi => (a3 i hi).1) hK hN
  rwa [Finset.sum_congr rfl fun i hi => (a3 i (Finset.mem_range.mp hi)).2] at this

theorem heston_constructed : ModelKind.mkHeston (2 : ℝ) (1/25) (3/10) (-7/10) (1/25) none = .ok (.heston 2 (1/25) (3/10) (-7/10) (1/25) cirExplicitEuler) := by
  unfold ModelKind.mkHeston
  rw [if_neg, if_neg]
  · simp only [Bool.or_eq_true, Fl.lt_real, Fl.lit_real, Rat.cast_zero]; norm_num
  · simp only [Bool.or_eq_true, Fl.lt_real, Fl.gt_real, Fl.lit_real, Rat.cast_one]; norm_num

/-- Three steps of a Heston model, spot 100, rate 5%, yield 1%, strike 90, maturity 3, one path. -/
example : ParityHolds perfectMeasure perfectGen 3 ⟨100, 1/5, some (1/100), 1/20⟩ 3 (.heston 2 (1/25) (3/10) (-7/10) (1/25) cirExplicitEuler)
    (100 * Real.exp (-(1/100 * 3))) 90 1 :=
  C102_heston randomSource_perfectGen (v := ⟨100, 1/5, some (1/100), 1/20⟩) (by norm_num) (by norm_num) (by norm_num) (by norm_num [INT_MAX])
    heston_constructed (by norm_num) one_pos (by norm_num [INT_MAX])

/-- Geometric Brownian motion, 252 steps, 10000 paths. -/
example : ParityHolds perfectMeasure perfectGen 252 ⟨100, 1/5, some (1/100), 1/20⟩ 1 .gbm (100 * Real.exp (-(1/100 * 1))) 110 10000 :=
  C102_gbm randomSource_perfectGen (v := ⟨100, 1/5, some (1/100), 1/20⟩) (by norm_num) (by norm_num) (by norm_num) (by norm_num [INT_MAX])
    (by norm_num) (by norm_num) (by norm_num [INT_MAX])

/-- Merton's model with one jump a year on average and jump sizes `N(-0.1, 0.15²)`: no parity. -/
example : ¬ ParityHolds perfectMeasure perfectGen 252 ⟨100, 1/5, none, 1/20⟩ 1 (.merton 1 (-1/10) (3/20))
    (100 * Real.exp (-((none : Option ℝ).getD 0 * 1))) 100 10000 := by
  have hk : ModelKind.mkMerton (1 : ℝ) (-1/10) (3/20) = .ok (.merton 1 (-1/10) (3/20)) := by
    unfold ModelKind.mkMerton
    rw [if_neg]
    simp only [Fl.le_real, Fl.lit_real, Rat.cast_zero]; norm_num
  exact C102_merton_fails (v := ⟨100, 1/5, none, 1/20⟩) (by norm_num) one_pos (by norm_num) (by norm_num [INT_MAX]) one_pos hk (by norm_num)
    (by norm_num) (by norm_num) (by norm_num [INT_MAX])

/-- An Asian option on twelve dates in the Heston model. -/
example : ∃ call put, Expected perfectMeasure (MC.asian .arithmetic (modelSource perfectGen 12 ⟨100, 1/5, some (1/100), 1/20⟩
      (.heston 2 (1/25) (3/10) (-7/10) (1/25) cirExplicitEuler)) (Eff.lift (.ok (1/20))) (Payoff.vanilla .call 100).eval1 1 5000) call ∧
    Expected perfectMeasure (MC.asian .arithmetic (modelSource perfectGen 12 ⟨100, 1/5, some (1/100), 1/20⟩
      (.heston 2 (1/25) (3/10) (-7/10) (1/25) cirExplicitEuler)) (Eff.lift (.ok (1/20))) (Payoff.vanilla .put 100).eval1 1 5000) put ∧ put ≤ call + 100 := by
  obtain ⟨c, p, h1, h2, h3⟩ := C102_asian_heston randomSource_perfectGen (v := ⟨100, 1/5, some (1/100), 1/20⟩) (by norm_num) (T := 1) (by norm_num) (steps := 12)
    (by norm_num) (by norm_num [INT_MAX]) heston_constructed (K := 100) (by norm_num) (N := 5000) (by norm_num)
  refine ⟨c, p, h1, h2, ?_⟩
  have a := h3.put_upper
  have b := (le_max_right _ _).trans h3.call_lower
  have e : Real.exp (-((1 : ℝ) / 20 * 1)) ≤ 1 := Real.exp_le_one_iff.mpr (by norm_num)
  simp only at a
  linarith

end Verif
