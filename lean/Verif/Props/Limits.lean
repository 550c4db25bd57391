import Verif.Spec.LimitSpec
import Verif.Props.ClosedForm
import Mathlib.Probability.CentralLimitTheorem
import Mathlib.Probability.StrongLaw
import Mathlib.MeasureTheory.Measure.Portmanteau

/-!
# Property C75: Asian prices converge as the number of paths grows

The Asian pricers count the paths with an `unsigned long`; the other pricers use an `int` and have undefined behaviour beyond
`INT_MAX` paths, so that limits make sense for Asian options only.
-/

set_option linter.unusedSectionVars false

namespace Verif
open MeasureTheory ProbabilityTheory Spec Filter Topology

section
variable {E Q : Type} [MeasurableSpace E] {μ : Measure E} [IsProbabilityMeasure μ] {count : ℝ → Measure ℕ}

theorem converges_of_averages {run : ℕ → Eff E ℝ} {d : ℝ} {V : E → ℝ} (h : Averages μ run Set.univ d V) (hV : Integrable V μ) :
    Converges μ run (d * ∫ x, V x ∂μ) := by
  obtain ⟨X, h1, h2, h3⟩ := h
  refine ⟨_, fun N hN s => h3 N trivial hN s, ?_⟩
  have h4 := strong_law_ae_real X ((h2 0).integrable_iff.mpr hV) (fun i j hij => h1.indepFun hij) (fun i => (h2 i).trans (h2 0).symm)
  filter_upwards [h4] with s hs
  have := hs.const_mul d
  rwa [(h2 0).integral_eq] at this

theorem normalErrors_of_averages {run : ℕ → Eff E ℝ} {d : ℝ} (hd : 0 < d) {V : E → ℝ} (h : Averages μ run Set.univ d V) (hV : MemLp V 2 μ) (hv : 0 < Var[V; μ]) :
    NormalErrors μ run (d * ∫ x, V x ∂μ) (Real.sqrt Var[fun x => d * V x; μ]) := by
  obtain ⟨X, h1, h2, h3⟩ := h
  refine ⟨_, fun N hN s => h3 N trivial hN s, fun a b => ?_⟩
  have hvar : Var[X 0; μ] = Var[V; μ] := (h2 0).variance_eq
  have hmean : ∫ x, X 0 x ∂μ = ∫ x, V x ∂μ := (h2 0).integral_eq
  set v := Var[V; μ] with hvdef
  have hsd : Real.sqrt Var[fun x => d * V x; μ] = d * Real.sqrt v := by
    rw [variance_const_mul, Real.sqrt_mul (sq_nonneg _), Real.sqrt_sq hd.le]
  have hw : 0 < Real.sqrt v := Real.sqrt_pos.mpr hv
  have clt := (tendstoInDistribution_inv_sqrt_mul_sum_sub (X := X) (P := μ) (Y := id) (P' := gaussianReal 0 Var[X 0; μ].toNNReal) .id
    ((h2 0).memLp_iff.mpr hV) h1 (fun i => (h2 i).trans (h2 0).symm))
  have hlim : (gaussianReal 0 v.toNNReal) (Set.Icc (a * Real.sqrt v) (b * Real.sqrt v)) = gaussianReal 0 1 (Set.Icc a b) := by
    have e := (gaussianReal_const_mul (P := gaussianReal 0 1) (X := id) (μ := 0) (v := 1) .id (Real.sqrt v)).map_eq
    have e2 : gaussianReal 0 v.toNNReal = (gaussianReal 0 1).map fun x => Real.sqrt v * id x := by
      rw [e]
      congr 1
      · simp
      · ext
        simp [Real.sq_sqrt hv.le, Real.coe_toNNReal _ hv.le]
    rw [e2, Measure.map_apply (by fun_prop) measurableSet_Icc]
    congr 1
    ext x
    simp only [Set.mem_preimage, Set.mem_Icc, id]
    constructor
    · rintro ⟨h1, h2⟩
      exact ⟨le_of_mul_le_mul_right (by linarith) hw, le_of_mul_le_mul_right (by linarith) hw⟩
    · rintro ⟨h1, h2⟩
      exact ⟨by nlinarith, by nlinarith⟩
  have hfr : (gaussianReal 0 Var[X 0; μ].toNNReal).map id (frontier (Set.Icc (a * Real.sqrt v) (b * Real.sqrt v))) = 0 := by
    rw [Measure.map_id, hvar]
    have hv0 : v.toNNReal ≠ 0 := by simpa using hv
    haveI := nullSingletonClass_gaussianReal (μ := 0) (v := v.toNNReal) hv0
    refine measure_mono_null (t := {a * Real.sqrt v, b * Real.sqrt v}) ?_ ((Set.toFinite _).measure_zero _)
    rcases le_or_gt (a * Real.sqrt v) (b * Real.sqrt v) with hab | hab
    · rw [frontier_Icc hab]
    · rw [Set.Icc_eq_empty (not_le.mpr hab), frontier_empty]; exact Set.empty_subset _
  have key := ProbabilityMeasure.tendsto_measure_of_null_frontier_of_tendsto' clt.tendsto hfr
  have hfin : (gaussianReal 0 Var[X 0; μ].toNNReal).map id (Set.Icc (a * Real.sqrt v) (b * Real.sqrt v)) ≠ ⊤ := by
    rw [Measure.map_id]
    exact measure_ne_top _ _
  have key2 := (ENNReal.tendsto_toReal hfin).comp key
  have hlast : ((gaussianReal 0 Var[X 0; μ].toNNReal).map id (Set.Icc (a * Real.sqrt v) (b * Real.sqrt v))).toReal = (gaussianReal 0 1).real (Set.Icc a b) := by
    rw [Measure.map_id, hvar, hlim]
    rfl
  have key3 : Tendsto (fun N : ℕ => (μ.map (fun ω => (Real.sqrt N)⁻¹ * (∑ k ∈ Finset.range N, X k ω - N * ∫ x, X 0 x ∂μ))).real
      (Set.Icc (a * Real.sqrt v) (b * Real.sqrt v))) atTop (𝓝 ((gaussianReal 0 1).real (Set.Icc a b))) := by
    rw [← hlast]
    exact key2
  refine key3.congr' ?_
  filter_upwards [eventually_gt_atTop 0] with N hN
  have hNr : (0 : ℝ) < N := by exact_mod_cast hN
  have hsq : 0 < Real.sqrt N := Real.sqrt_pos.mpr hNr
  rw [measureReal_def, Measure.map_apply_of_aemeasurable (clt.forall_aemeasurable N) measurableSet_Icc, ← measureReal_def]
  congr 1
  ext s
  simp only [Set.mem_preimage, Set.mem_Icc, Set.mem_setOf_eq, hmean, hsd]
  set S := ∑ k ∈ Finset.range N, X k s with hS
  set m := ∫ x, V x ∂μ with hm
  have e1 : d * (S / N) - d * m = d / Real.sqrt N * ((Real.sqrt N)⁻¹ * (S - N * m)) := by
    have : (N : ℝ) = Real.sqrt N * Real.sqrt N := (Real.mul_self_sqrt hNr.le).symm
    have h5 : d * (S / N) - d * m = d * ((S - N * m) / N) := by field_simp
    rw [h5]
    have h6 : d / Real.sqrt N * ((Real.sqrt N)⁻¹ * (S - N * m)) = d * ((S - N * m) / (Real.sqrt N * Real.sqrt N)) := by
      field_simp
    rw [h6, ← this]
  have e2 : ∀ c : ℝ, c * (d * Real.sqrt v / Real.sqrt N) = d / Real.sqrt N * (c * Real.sqrt v) := fun c => by ring
  have hpos : 0 < d / Real.sqrt N := by positivity
  rw [e1, e2, e2, mul_le_mul_iff_right₀ hpos, mul_le_mul_iff_right₀ hpos]

theorem Estimator.unique {run : Eff E ℝ} {m m' w w' : ℝ} (h : Estimator μ run m w) (h' : Estimator μ run m' w') : m = m' ∧ w = w' := by
  obtain ⟨Y, h1, -, h3, h4⟩ := h
  obtain ⟨Y', h1', -, h3', h4'⟩ := h'
  have e : Y = Y' := by
    funext s
    obtain ⟨a, ha⟩ := h1 s
    obtain ⟨b, hb⟩ := h1' s
    rw [ha] at hb
    exact Res.ok.inj (Prod.mk.inj hb).1
  subst e
  exact ⟨h3.symm.trans h3', h4.symm.trans h4'⟩

/-- A continuous function of a standard normal number which takes two values has positive variance. -/
theorem variance_pos_of_ne {f : ℝ → ℝ} (hf : Continuous f) (hL : MemLp f 2 (gaussianReal 0 1)) {x y : ℝ} (h : f x ≠ f y) : 0 < Var[f; gaussianReal 0 1] := by
  refine lt_of_le_of_ne (variance_nonneg _ _) fun h0 => h ?_
  have e : evariance f (gaussianReal 0 1) = 0 := by rw [← ofReal_variance hL, ← h0, ENNReal.ofReal_zero]
  have e1 := (evariance_eq_zero_iff hf.aemeasurable).mp e
  have e2 : f =ᵐ[volume] fun _ => ∫ x, f x ∂gaussianReal 0 1 := (gaussianReal_absolutelyContinuous' 0 one_ne_zero).ae_eq e1
  have e3 := (Continuous.ae_eq_iff_eq volume hf continuous_const).mp e2
  rw [e3]

/-- The Black-Scholes price takes every positive value. -/
theorem blackScholesPrice_surj (v : View ℝ) {T : ℝ} (hS : 0 < v.price) (hσ : 0 < v.sigma) (hT : 0 < T) {y : ℝ} (hy : 0 < y) : ∃ z, blackScholesPrice v T z = y := by
  have hs : 0 < v.sigma * Real.sqrt T := mul_pos hσ (Real.sqrt_pos.mpr hT)
  refine ⟨(Real.log (y / v.price) - (v.r - v.coupon.getD 0 - v.sigma ^ 2 / 2) * T) / (v.sigma * Real.sqrt T), ?_⟩
  unfold blackScholesPrice
  rw [mul_div_cancel₀ _ hs.ne', add_sub_cancel, Real.exp_log (by positivity)]
  field_simp

end

section
variable {E Q : Type} [MeasurableSpace E] {μ : Measure E} [IsProbabilityMeasure μ] {count : ℝ → Measure ℕ} [FlInf ℝ] (env : Env E Q ℝ)

/-- **C75.** Arithmetic Asian options in every model: if the payoff has an expectation, the price converges almost surely to
the discounted expectation as the number of paths grows. -/
theorem C75_arithmeticAsian (he : RandomEngine env.engine μ count) {i : Session ℝ} {c : Session.Choices} {k : ModelKind ℝ} {o : OptObj ℝ}
    (h : AcceptedSession i c k o) (hcls : i.cls = .arithmeticAsian) (h2 : i.dim ≤ INT_MAX) (hk : Simulatable (o.T / i.dim) k)
    {f : ℝ → ℝ} (hf : Measurable f) (hpay : ∀ x, o.payoff.eval1 x = .ok (f x)) {X : ℕ → E → ℝ}
    (hX : ∀ x, ∃ s', SysCall.runPrices env ⟨i.ticker, 0, k, 0⟩ o.T (alone i.ticker (stockOf i) i.r (.pseudo ⟨i.dim, c.rd, x⟩)) =
      (.ok ((List.range i.dim).map fun j => X j x), s'))
    (hI : Integrable (fun x => f ((∑ j ∈ Finset.range i.dim, X j x) / i.dim)) μ) (s : Sys E Q ℝ) :
    Converges μ (started env c i s) (Real.exp (-(i.r * o.T)) * ∫ x, f ((∑ j ∈ Finset.range i.dim, X j x) / i.dim) ∂μ) :=
  converges_of_averages (C73_arithmeticAsian env he h hcls h2 hk hf hpay hX s) hI

/-- **C75.** If the payoff has a positive finite variance, errors are asymptotically normal with the standard error of the
discounted payoff. -/
theorem C75_arithmeticAsian_errors (he : RandomEngine env.engine μ count) {i : Session ℝ} {c : Session.Choices} {k : ModelKind ℝ} {o : OptObj ℝ}
    (h : AcceptedSession i c k o) (hcls : i.cls = .arithmeticAsian) (h2 : i.dim ≤ INT_MAX) (hk : Simulatable (o.T / i.dim) k)
    {f : ℝ → ℝ} (hf : Measurable f) (hpay : ∀ x, o.payoff.eval1 x = .ok (f x)) {X : ℕ → E → ℝ}
    (hX : ∀ x, ∃ s', SysCall.runPrices env ⟨i.ticker, 0, k, 0⟩ o.T (alone i.ticker (stockOf i) i.r (.pseudo ⟨i.dim, c.rd, x⟩)) =
      (.ok ((List.range i.dim).map fun j => X j x), s'))
    (hL : MemLp (fun x => f ((∑ j ∈ Finset.range i.dim, X j x) / i.dim)) 2 μ)
    (hv : 0 < Var[fun x => f ((∑ j ∈ Finset.range i.dim, X j x) / i.dim); μ]) (s : Sys E Q ℝ) :
    NormalErrors μ (started env c i s) (Real.exp (-(i.r * o.T)) * ∫ x, f ((∑ j ∈ Finset.range i.dim, X j x) / i.dim) ∂μ)
      (Real.sqrt Var[fun x => Real.exp (-(i.r * o.T)) * f ((∑ j ∈ Finset.range i.dim, X j x) / i.dim); μ]) :=
  normalErrors_of_averages (Real.exp_pos _) (C73_arithmeticAsian env he h hcls h2 hk hf hpay hX s) hL hv

/-- **C75.** Arithmetic Asian puts converge in every model, without any assumption on moments. -/
theorem C75_arithmeticPut (he : RandomEngine env.engine μ count) {i : Session ℝ} {c : Session.Choices} {k : ModelKind ℝ} {o : OptObj ℝ}
    (h : AcceptedSession i c k o) (hcls : i.cls = .arithmeticAsian) (h2 : i.dim ≤ INT_MAX) (hk : Simulatable (o.T / i.dim) k)
    {K : ℝ} (hpay : o.payoff = .vanilla .put K) (s : Sys E Q ℝ) :
    ∃ X : ℕ → E → ℝ, (∀ x, ∃ s', SysCall.runPrices env ⟨i.ticker, 0, k, 0⟩ o.T (alone i.ticker (stockOf i) i.r (.pseudo ⟨i.dim, c.rd, x⟩)) =
      (.ok ((List.range i.dim).map fun j => X j x), s')) ∧
    Converges μ (started env c i s) (Real.exp (-(i.r * o.T)) * ∫ x, max (K - (∑ j ∈ Finset.range i.dim, X j x) / i.dim) 0 ∂μ) := by
  obtain ⟨X, h3, h4, h5⟩ := C73_path env he h h2 hk
  refine ⟨X, h5, C75_arithmeticAsian env he h hcls h2 hk (f := fun x => max (K - x) 0) (by fun_prop) (fun x => by rw [hpay]; simp [Payoff.eval1]) h5 ?_ s⟩
  refine Integrable.of_bound (C := max K 0) ?_ (.of_forall fun x => ?_)
  · exact (by fun_prop : Measurable fun x => max (K - (∑ j ∈ Finset.range i.dim, X j x) / i.dim) 0).aestronglyMeasurable
  · rw [Real.norm_eq_abs, abs_of_nonneg (le_max_right _ _)]
    have : 0 ≤ (∑ j ∈ Finset.range i.dim, X j x) / i.dim :=
      div_nonneg (Finset.sum_nonneg fun j hj => (h4 j (Finset.mem_range.mp hj) x).le) (Nat.cast_nonneg _)
    exact max_le_max (by linarith) le_rfl

/-- In the GBM model the simulated prices are those of the GBM path. -/
theorem eq_gbmPrice {i : Session ℝ} {c : Session.Choices} {T : ℝ} {X : ℕ → E → ℝ}
    (hX : ∀ x, ∃ s', SysCall.runPrices env ⟨i.ticker, 0, .gbm, 0⟩ T (alone i.ticker (stockOf i) i.r (.pseudo ⟨i.dim, c.rd, x⟩)) =
      (.ok ((List.range i.dim).map fun j => X j x), s')) {Z : ℕ → E → ℝ}
    (hZ : SimulatedPath (Sim.prices env.engine.gen i.dim (ModelObj.seen (stockOf i) i.r) T .gbm) i.dim (gbmPrice (ModelObj.seen (stockOf i) i.r) T i.dim Z 0))
    {j : ℕ} (hj : j < i.dim) : X j = gbmPrice (ModelObj.seen (stockOf i) i.r) T i.dim Z 0 j := by
  funext x
  obtain ⟨a, ha⟩ := simulatedPath_engine env hX x
  obtain ⟨b, hb⟩ := hZ x
  rw [ha] at hb
  exact List.map_inj_left.mp (Res.ok.inj (Prod.mk.inj hb).1) j (List.mem_range.mpr hj)

/-- **C75.** Arithmetic Asian calls in the GBM model converge to the discounted expectation of the payoff. -/
theorem C75_arithmeticCall (he : RandomEngine env.engine μ count) {i : Session ℝ} {c : Session.Choices} {o : OptObj ℝ}
    (h : AcceptedSession i c .gbm o) (hcls : i.cls = .arithmeticAsian) (h2 : i.dim ≤ INT_MAX) {K : ℝ} (hpay : o.payoff = .vanilla .call K) {X : ℕ → E → ℝ}
    (hX : ∀ x, ∃ s', SysCall.runPrices env ⟨i.ticker, 0, .gbm, 0⟩ o.T (alone i.ticker (stockOf i) i.r (.pseudo ⟨i.dim, c.rd, x⟩)) =
      (.ok ((List.range i.dim).map fun j => X j x), s')) (s : Sys E Q ℝ) :
    Converges μ (started env c i s) (Real.exp (-(i.r * o.T)) * ∫ x, max ((∑ j ∈ Finset.range i.dim, X j x) / i.dim - K) 0 ∂μ) := by
  obtain ⟨Z, hZ, hp⟩ := exists_draws (randomSource_engine he)
  refine C75_arithmeticAsian env he h hcls h2 trivial (f := fun x => max (x - K) 0) (by fun_prop) (fun x => by rw [hpay]; simp [Payoff.eval1]) hX ?_ s
  refine Integrable.pos_part (Integrable.sub (Integrable.div_const (integrable_finset_sum _ fun j hj => ?_) _) (integrable_const K))
  rw [eq_gbmPrice env hX (hp _ _ _ h2) (Finset.mem_range.mp hj)]
  exact (memLp_gbmPrice hZ _ _ _ _ _).integrable (by norm_num)

/-- **C75.** Geometric Asian calls in the GBM model: almost sure convergence to the closed formula and asymptotically normal
errors. -/
theorem C75_geometricCall (he : RandomEngine env.engine μ count) {i : Session ℝ} {c : Session.Choices} {o : OptObj ℝ} (h : AcceptedSession i c .gbm o)
    (hcls : i.cls = .geometricAsian) (hfac : i.factory = .geometricAsian) (hty : i.ty = .call) {K T : ℝ} (hK : lastSet i.params "K" = some (.dbl K))
    (hT : lastSet i.params "T" = some (.dbl T)) (hK0 : 0 < K) (hT0 : 0 < T) (hσ : 0 < i.sigma) (h1 : 0 < i.dim) (h2 : i.dim ≤ INT_MAX) (s : Sys E Q ℝ) :
    Converges μ (started env c i s) (geometricAsianCall i.S i.sigma i.r (i.coupon.getD 0) T K i.dim) ∧
    NormalErrors μ (started env c i s) (geometricAsianCall i.S i.sigma i.r (i.coupon.getD 0) T K i.dim)
      (Real.sqrt Var[fun z => Real.exp (-(i.r * T)) * max (i.S * Real.exp (meanDrift i.sigma i.r (i.coupon.getD 0) i.dim * T +
        meanSigma i.sigma i.dim * Real.sqrt T * z) - K) 0; gaussianReal 0 1]) := by
  have hest := C74_geometricAsianCall env he h hcls hfac hty hK hT hK0 hT0 hσ h1 h2 (N := 1) one_pos s
  obtain ⟨ho, hoT⟩ := geometric_option h hfac hK hT
  subst hoT
  have hS : 0 < (ModelObj.seen (stockOf i) i.r).price := accepted_price h
  obtain ⟨G, mG, -, e, ha⟩ := geometric_averages env he h hcls h1 h2 hT0 (f := fun x => max (x - K) 0) (by fun_prop)
    (fun x => by rw [ho, hty]; simp [Payoff.eval1]) s
  have hL : MemLp (fun x => max (G x - K) 0) 2 μ := ((memLp_of_map mG e).sub (memLp_const K)).pos_part
  obtain ⟨u1, u2⟩ := Estimator.unique hest (C70_estimator ha hL (N := 1) trivial one_pos)
  rw [Nat.cast_one, div_one, div_one] at u2
  have hv : 0 < Var[fun x => max (G x - K) 0; μ] := by
    rw [variance_of_map mG e (f := fun y => max (y - K) 0) (by fun_prop)]
    obtain ⟨z1, hz1⟩ := blackScholesPrice_surj (meanView (ModelObj.seen (stockOf i) i.r) i.dim) hS (meanSigma_pos hσ h1) hT0 (y := K + 1) (by linarith)
    obtain ⟨z2, hz2⟩ := blackScholesPrice_surj (meanView (ModelObj.seen (stockOf i) i.r) i.dim) hS (meanSigma_pos hσ h1) hT0 (y := K + 2) (by linarith)
    refine variance_pos_of_ne (x := z1) (y := z2) ?_ ((memLp_blackScholesPrice _ _).sub (memLp_const K)).pos_part ?_
    · unfold blackScholesPrice; fun_prop
    · rw [hz1, hz2]; norm_num
  rw [u1, u2]
  exact ⟨converges_of_averages ha (hL.integrable (by norm_num)), normalErrors_of_averages (Real.exp_pos _) ha hL hv⟩

/-- **C75.** Geometric Asian puts in the GBM model. -/
theorem C75_geometricPut (he : RandomEngine env.engine μ count) {i : Session ℝ} {c : Session.Choices} {o : OptObj ℝ} (h : AcceptedSession i c .gbm o)
    (hcls : i.cls = .geometricAsian) (hfac : i.factory = .geometricAsian) (hty : i.ty = .put) {K T : ℝ} (hK : lastSet i.params "K" = some (.dbl K))
    (hT : lastSet i.params "T" = some (.dbl T)) (hK0 : 0 < K) (hT0 : 0 < T) (hσ : 0 < i.sigma) (h1 : 0 < i.dim) (h2 : i.dim ≤ INT_MAX) (s : Sys E Q ℝ) :
    Converges μ (started env c i s) (geometricAsianPut i.S i.sigma i.r (i.coupon.getD 0) T K i.dim) ∧
    NormalErrors μ (started env c i s) (geometricAsianPut i.S i.sigma i.r (i.coupon.getD 0) T K i.dim)
      (Real.sqrt Var[fun z => Real.exp (-(i.r * T)) * max (K - i.S * Real.exp (meanDrift i.sigma i.r (i.coupon.getD 0) i.dim * T +
        meanSigma i.sigma i.dim * Real.sqrt T * z)) 0; gaussianReal 0 1]) := by
  have hest := (C74_geometricAsianPut env he h hcls hfac hty hK hT hK0 hT0 hσ h1 h2 (N := 1) one_pos s).1
  obtain ⟨ho, hoT⟩ := geometric_option h hfac hK hT
  subst hoT
  have hS : 0 < (ModelObj.seen (stockOf i) i.r).price := accepted_price h
  obtain ⟨G, mG, -, e, ha⟩ := geometric_averages env he h hcls h1 h2 hT0 (f := fun x => max (K - x) 0) (by fun_prop)
    (fun x => by rw [ho, hty]; simp [Payoff.eval1]) s
  have hL : MemLp (fun x => max (K - G x) 0) 2 μ := ((memLp_const K).sub (memLp_of_map mG e)).pos_part
  obtain ⟨u1, u2⟩ := Estimator.unique hest (C70_estimator ha hL (N := 1) trivial one_pos)
  rw [Nat.cast_one, div_one, div_one] at u2
  have hv : 0 < Var[fun x => max (K - G x) 0; μ] := by
    rw [variance_of_map mG e (f := fun y => max (K - y) 0) (by fun_prop)]
    obtain ⟨z1, hz1⟩ := blackScholesPrice_surj (meanView (ModelObj.seen (stockOf i) i.r) i.dim) hS (meanSigma_pos hσ h1) hT0 (y := K / 2) (by linarith)
    obtain ⟨z2, hz2⟩ := blackScholesPrice_surj (meanView (ModelObj.seen (stockOf i) i.r) i.dim) hS (meanSigma_pos hσ h1) hT0 (y := K) hK0
    refine variance_pos_of_ne (x := z1) (y := z2) ?_ ((memLp_const K).sub (memLp_blackScholesPrice _ _)).pos_part ?_
    · unfold blackScholesPrice; fun_prop
    · rw [hz1, hz2, sub_self, max_self, max_eq_left (by linarith)]; linarith
  rw [u1, u2]
  exact ⟨converges_of_averages ha (hL.integrable (by norm_num)), normalErrors_of_averages (Real.exp_pos _) ha hL hv⟩

end

/-! ## Examples -/

namespace LimitExample
open SessionExample
variable [FlInf ℝ]

example (s : Sys PerfectState Unit ℝ) : Converges perfectMeasure
    (started env (choices .geometricAsian) (session .geometricAsian .call .gbm .geometricAsian) s) (geometricAsianCall 100 (1/5) (1/20) 0 1 100 1000) :=
  (C75_geometricCall env randomEngine (ClosedFormExample.geometric (.inl rfl)) rfl rfl rfl (K := 100) (T := 1) rfl rfl (by norm_num) (by norm_num)
    (by simp [session]) (by simp [session]) (by simp [session, INT_MAX]) s).1

example (s : Sys PerfectState Unit ℝ) : ∃ sd, NormalErrors perfectMeasure
    (started env (choices .geometricAsian) (session .geometricAsian .put .gbm .geometricAsian) s) (geometricAsianPut 100 (1/5) (1/20) 0 1 100 1000) sd :=
  ⟨_, (C75_geometricPut env randomEngine (ClosedFormExample.geometric (.inr rfl)) rfl rfl rfl (K := 100) (T := 1) rfl rfl (by norm_num) (by norm_num)
    (by simp [session]) (by simp [session]) (by simp [session, INT_MAX]) s).2⟩

/-- An arithmetic Asian put in the Merton model. -/
example (s : Sys PerfectState Unit ℝ) : ∃ X : ℕ → PerfectState → ℝ, Converges perfectMeasure
    (started env (choices .arithmeticAsian) (session .arithmeticAsian .put (.merton (1/10) (-1/20) (1/5)) .arithmeticAsian) s)
    (Real.exp (-(1/20 * 1)) * ∫ x, max (100 - (∑ j ∈ Finset.range 1000, X j x) / (1000 : ℕ)) 0 ∂perfectMeasure) := by
  have h := accepted (f := .arithmeticAsian) (.inr rfl) (.merton (1/10) (-1/20) (1/5)) (cls := .arithmeticAsian) (n := 1000) (by simp [Family])
    ⟨100, rfl, by simp, rfl⟩ rfl
  obtain ⟨X, -, hX⟩ := C75_arithmeticPut env randomEngine h rfl (by simp [session, INT_MAX]) simulatable_merton (K := 100) rfl s
  exact ⟨X, hX⟩

theorem arithmetic {ty : PayoffType} (hty : ty = .call ∨ ty = .put) (k : ModelKind ℝ) (n : ℕ) :
    AcceptedSession (session .arithmeticAsian ty k .arithmeticAsian n) (choices .arithmeticAsian) k (option .arithmeticAsian ty none) :=
  accepted hty k (by simp [Family]) ⟨100, rfl, by simp, rfl⟩ rfl

example (n : ℕ) (hn : n ≤ INT_MAX) (s : Sys PerfectState Unit ℝ) : ∃ X : ℕ → PerfectState → ℝ, (∀ j < n, ∀ x, 0 < X j x) ∧ Converges perfectMeasure
    (started env (choices .arithmeticAsian) (session .arithmeticAsian .call .gbm .arithmeticAsian n) s)
    (Real.exp (-(1/20 * 1)) * ∫ x, max ((∑ j ∈ Finset.range n, X j x) / n - 100) 0 ∂perfectMeasure) := by
  obtain ⟨X, -, h4, h5⟩ := C73_path env randomEngine (arithmetic (.inl rfl) .gbm n) hn trivial
  exact ⟨X, h4, C75_arithmeticCall env randomEngine (arithmetic (.inl rfl) .gbm n) rfl hn rfl h5 s⟩

/-- An arithmetic Asian call with one date: the payoff has a positive finite variance, so that the errors are asymptotically
normal. -/
example (s : Sys PerfectState Unit ℝ) : ∃ mean sd, 0 < sd ∧
    NormalErrors perfectMeasure (started env (choices .arithmeticAsian) (session .arithmeticAsian .call .gbm .arithmeticAsian 1) s) mean sd := by
  have h := arithmetic (.inl rfl) .gbm 1
  obtain ⟨Z, hZ, hp⟩ := exists_draws (randomSource_engine randomEngine)
  obtain ⟨X, -, -, h5⟩ := C73_path env randomEngine h (by simp [session, INT_MAX]) trivial
  have hdim : (session .arithmeticAsian .call .gbm .arithmeticAsian 1).dim = 1 := rfl
  set v := ModelObj.seen (stockOf (session .arithmeticAsian .call .gbm .arithmeticAsian 1)) (session .arithmeticAsian .call .gbm .arithmeticAsian 1).r with hvdef
  have e0 : X 0 = gbmPrice v 1 1 Z 0 0 := eq_gbmPrice env h5 (hp _ _ _ (by simp [session, INT_MAX])) (by simp [session])
  have e1 : (fun x => max ((∑ j ∈ Finset.range 1, X j x) / (1 : ℕ) - 100) 0) = fun x => max (gbmPrice v 1 1 Z 0 0 x - 100) 0 := by
    funext x; simp [e0]
  have hm := map_gbmPrice_last hZ v (T := 1) zero_le_one one_pos 0
  have mG := measurable_gbmPrice hZ v 1 1 0 0
  have hL : MemLp (fun x => max (gbmPrice v 1 1 Z 0 0 x - 100) 0) 2 perfectMeasure := ((memLp_gbmPrice hZ v 1 1 0 0).sub (memLp_const 100)).pos_part
  have hv : 0 < Var[fun x => max (gbmPrice v 1 1 Z 0 0 x - 100) 0; perfectMeasure] := by
    rw [variance_of_map mG hm (f := fun y => max (y - 100) 0) (by fun_prop)]
    obtain ⟨z1, hz1⟩ := blackScholesPrice_surj v (by simp [hvdef, ModelObj.seen, stockOf, session]) (by simp [hvdef, ModelObj.seen, stockOf, session])
      (T := 1) one_pos (y := 101) (by norm_num)
    obtain ⟨z2, hz2⟩ := blackScholesPrice_surj v (by simp [hvdef, ModelObj.seen, stockOf, session]) (by simp [hvdef, ModelObj.seen, stockOf, session])
      (T := 1) one_pos (y := 102) (by norm_num)
    refine variance_pos_of_ne (x := z1) (y := z2) ?_ ((memLp_blackScholesPrice _ _).sub (memLp_const 100)).pos_part ?_
    · unfold blackScholesPrice; fun_prop
    · rw [hz1, hz2]; norm_num
  refine ⟨_, _, ?_, C75_arithmeticAsian_errors env randomEngine h rfl (by simp [session, INT_MAX]) trivial (f := fun x => max (x - 100) 0) (by fun_prop)
    (fun x => by simp [option, Payoff.eval1]) h5 ?_ ?_ s⟩
  · refine Real.sqrt_pos.mpr ?_
    rw [variance_const_mul]
    refine mul_pos (pow_pos (Real.exp_pos _) 2) ?_
    simp only [hdim]
    rw [e1]
    exact hv
  · simp only [hdim]
    rw [e1]
    exact hL
  · simp only [hdim]
    rw [e1]
    exact hv

end LimitExample
end Verif
