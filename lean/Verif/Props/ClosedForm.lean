import Verif.Lemmas.ClosedForm
import Verif.Props.Session

/-!
# Property C74: digital and geometric Asian options in the GBM model
-/

set_option linter.unusedSectionVars false

namespace Verif
open MeasureTheory ProbabilityTheory Spec

section
variable {E Q : Type} [MeasurableSpace E] {μ : Measure E} [IsProbabilityMeasure μ] {count : ℝ → Measure ℕ}

/-! ## Digital options -/

theorem integral_event {A : E → Prop} [DecidablePred A] (hA : MeasurableSet {x | A x}) : ∫ x, (if A x then (1 : ℝ) else 0) ∂μ = μ.real {x | A x} := by
  have e : (fun x => if A x then (1 : ℝ) else 0) = {x | A x}.indicator 1 := by
    funext x
    simp [Set.indicator_apply]
  rw [e, integral_indicator_one hA]

theorem estimator_event {run : ℕ → Eff E ℝ} {ok : Set ℕ} {d : ℝ} (hd : 0 < d) {A : E → Prop} [DecidablePred A] (hA : MeasurableSet {x | A x})
    (h : Averages μ run ok d fun x => if A x then 1 else 0) {N : ℕ} (hN : N ∈ ok) (h0 : 0 < N) {p : ℝ} (hp : μ.real {x | A x} = p) :
    Estimator μ (run N) (d * p) (d ^ 2 * (p * (1 - p)) / N) ∧ Deviates μ (run N) (d * p) fun ε => 2 * Real.exp (-(2 * N * ε ^ 2) / d ^ 2) := by
  have hm : Measurable fun x => if A x then (1 : ℝ) else 0 := Measurable.ite hA measurable_const measurable_const
  have hb : ∀ x, (0 : ℝ) ≤ (if A x then (1 : ℝ) else 0) ∧ (if A x then (1 : ℝ) else 0) ≤ 1 := fun x => by split <;> norm_num
  have hL : MemLp (fun x => if A x then (1 : ℝ) else 0) 2 μ :=
    MemLp.of_bound hm.aestronglyMeasurable 1 (.of_forall fun x => by rw [Real.norm_eq_abs, abs_of_nonneg (hb x).1]; exact (hb x).2)
  have hi : ∫ x, (if A x then (1 : ℝ) else 0) ∂μ = p := (integral_event hA).trans hp
  have hv : Var[fun x => d * if A x then (1 : ℝ) else 0; μ] = d ^ 2 * (p * (1 - p)) := by
    rw [variance_const_mul, variance_eq_sub hL]
    have e : (fun x => if A x then (1 : ℝ) else 0) ^ 2 = fun x => if A x then (1 : ℝ) else 0 := by
      funext x
      simp only [Pi.pow_apply]
      split <;> norm_num
    rw [e, hi]
    ring
  constructor
  · have := C70_estimator h hL hN h0
    rwa [hi, hv] at this
  · have := C70_hoeffding hd h zero_lt_one hb hN h0
    rw [hi] at this
    simpa using this

variable [FlInf ℝ] (env : Env E Q ℝ)

theorem digital_option {i : Session ℝ} {c : Session.Choices} {k : ModelKind ℝ} {o : OptObj ℝ} (h : AcceptedSession i c k o) (hf : i.factory = .digital) {K T : ℝ}
    (hK : lastSet i.params "K" = some (.dbl K)) (hT : lastSet i.params "T" = some (.dbl T)) : o.payoff = .digital i.ty K ∧ o.T = T := by
  obtain ⟨-, -, h3, -, h5, -⟩ := h.option
  rw [hf] at h5
  obtain ⟨K', h6, -, h7⟩ := h5
  rw [hK] at h6
  cases h6
  rw [hT] at h3
  cases h3
  exact ⟨h7, rfl⟩

/-- **C74.** A digital call in the GBM model: the session's price is an unbiased estimator of `exp(-rT) p` with `p` the
probability of ending above the strike; its variance is `exp(-2rT) p (1 - p) / N`, and large errors are exponentially
unlikely. -/
theorem C74_digitalCall (he : RandomEngine env.engine μ count) {i : Session ℝ} {c : Session.Choices} {o : OptObj ℝ} (h : AcceptedSession i c .gbm o)
    (hcls : i.cls = .singlePath) (hfac : i.factory = .digital) (hty : i.ty = .call) {K T : ℝ} (hK : lastSet i.params "K" = some (.dbl K))
    (hT : lastSet i.params "T" = some (.dbl T)) (hK0 : 0 < K) (hT0 : 0 < T) (hσ : 0 < i.sigma) (h1 : 0 < i.dim) (h2 : i.dim ≤ INT_MAX)
    {N : ℕ} (hN : 0 < N) (hN2 : N ≤ INT_MAX) (s : Sys E Q ℝ) :
    let p := exceedance i.S i.sigma i.r (i.coupon.getD 0) T K
    Estimator μ (started env c i s N) (Real.exp (-(i.r * T)) * p) (Real.exp (-(i.r * T)) ^ 2 * (p * (1 - p)) / N) ∧
    Deviates μ (started env c i s N) (Real.exp (-(i.r * T)) * p) fun ε => 2 * Real.exp (-(2 * N * ε ^ 2) / Real.exp (-(i.r * T)) ^ 2) := by
  intro p
  classical
  obtain ⟨Z, hZ, hp⟩ := exists_draws (randomSource_engine he)
  obtain ⟨ho, hoT⟩ := digital_option h hfac hK hT
  have hS := accepted_price h
  have ha := european_averages env he h hcls h1 h2 (f := fun x => if K < x then 1 else 0)
    (Measurable.ite measurableSet_Ioi measurable_const measurable_const) (fun x => by rw [ho, hty]; simp [Payoff.eval1]) hp s
  rw [hoT] at ha
  refine estimator_event (Real.exp_pos _) ?_ ha hN2 hN ?_
  · exact measurableSet_lt measurable_const (measurable_gbmPrice hZ _ _ _ _ _)
  · exact prob_exceeds hZ (ModelObj.seen (stockOf i) i.r) hS hσ hT0 hK0 h1

/-- **C74.** A digital put in the GBM model. -/
theorem C74_digitalPut (he : RandomEngine env.engine μ count) {i : Session ℝ} {c : Session.Choices} {o : OptObj ℝ} (h : AcceptedSession i c .gbm o)
    (hcls : i.cls = .singlePath) (hfac : i.factory = .digital) (hty : i.ty = .put) {K T : ℝ} (hK : lastSet i.params "K" = some (.dbl K))
    (hT : lastSet i.params "T" = some (.dbl T)) (hK0 : 0 < K) (hT0 : 0 < T) (hσ : 0 < i.sigma) (h1 : 0 < i.dim) (h2 : i.dim ≤ INT_MAX)
    {N : ℕ} (hN : 0 < N) (hN2 : N ≤ INT_MAX) (s : Sys E Q ℝ) :
    let p := 1 - exceedance i.S i.sigma i.r (i.coupon.getD 0) T K
    Estimator μ (started env c i s N) (Real.exp (-(i.r * T)) * p) (Real.exp (-(i.r * T)) ^ 2 * (p * (1 - p)) / N) ∧
    Deviates μ (started env c i s N) (Real.exp (-(i.r * T)) * p) fun ε => 2 * Real.exp (-(2 * N * ε ^ 2) / Real.exp (-(i.r * T)) ^ 2) := by
  intro p
  classical
  obtain ⟨Z, hZ, hp⟩ := exists_draws (randomSource_engine he)
  obtain ⟨ho, hoT⟩ := digital_option h hfac hK hT
  have hS := accepted_price h
  have ha := european_averages env he h hcls h1 h2 (f := fun x => if x < K then 1 else 0)
    (Measurable.ite measurableSet_Iio measurable_const measurable_const) (fun x => by rw [ho, hty]; simp [Payoff.eval1]) hp s
  rw [hoT] at ha
  have m := measurable_gbmPrice hZ (ModelObj.seen (stockOf i) i.r) T i.dim 0 (i.dim - 1)
  refine estimator_event (Real.exp_pos _) ?_ ha hN2 hN ?_
  · exact measurableSet_lt m measurable_const
  · have e1 := prob_exceeds hZ (ModelObj.seen (stockOf i) i.r) hS hσ hT0 hK0 h1
    have e2 := probReal_compl_eq_one_sub (μ := μ) (measurableSet_lt (measurable_const (a := K)) m)
    rw [e1] at e2
    refine Eq.trans ?_ e2
    refine measureReal_congr ?_
    have e3 := prob_eq hZ (ModelObj.seen (stockOf i) i.r) hS hσ hT0 (K := K) h1
    filter_upwards [measure_eq_zero_iff_ae_notMem.mp e3] with x hx
    refine propext ⟨fun (hlt : _ < K) => not_lt.mpr hlt.le, fun hle => lt_of_le_of_ne (not_lt.mp hle) hx⟩

/-- **C74.** A double digital option in the GBM model: `p` is the probability of ending between the strikes. -/
theorem C74_doubleDigital (he : RandomEngine env.engine μ count) {i : Session ℝ} {c : Session.Choices} {o : OptObj ℝ} (h : AcceptedSession i c .gbm o)
    (hcls : i.cls = .singlePath) (hfac : i.factory = .doubleDigital) {K₁ K₂ T : ℝ} (hK₁ : lastSet i.params "K1" = some (.dbl K₁))
    (hK₂ : lastSet i.params "K2" = some (.dbl K₂)) (hT : lastSet i.params "T" = some (.dbl T)) (hK0 : 0 < K₁) (hKK : K₁ ≤ K₂) (hT0 : 0 < T) (hσ : 0 < i.sigma)
    (h1 : 0 < i.dim) (h2 : i.dim ≤ INT_MAX) {N : ℕ} (hN : 0 < N) (hN2 : N ≤ INT_MAX) (s : Sys E Q ℝ) :
    let p := exceedance i.S i.sigma i.r (i.coupon.getD 0) T K₁ - exceedance i.S i.sigma i.r (i.coupon.getD 0) T K₂
    Estimator μ (started env c i s N) (Real.exp (-(i.r * T)) * p) (Real.exp (-(i.r * T)) ^ 2 * (p * (1 - p)) / N) ∧
    Deviates μ (started env c i s N) (Real.exp (-(i.r * T)) * p) fun ε => 2 * Real.exp (-(2 * N * ε ^ 2) / Real.exp (-(i.r * T)) ^ 2) := by
  intro p
  classical
  obtain ⟨Z, hZ, hp⟩ := exists_draws (randomSource_engine he)
  have ho : o.payoff = .doubleDigital K₁ K₂ ∧ o.T = T := by
    obtain ⟨-, -, h3, -, h5, -⟩ := h.option
    rw [hfac] at h5
    obtain ⟨a, b, h6, h6', -, -, h7⟩ := h5
    rw [hK₁] at h6
    rw [hK₂] at h6'
    cases h6
    cases h6'
    rw [hT] at h3
    cases h3
    exact ⟨h7, rfl⟩
  obtain ⟨ho, hoT⟩ := ho
  have hS := accepted_price h
  have ha := european_averages env he h hcls h1 h2 (f := fun x => if K₁ ≤ x ∧ x ≤ K₂ then 1 else 0)
    (Measurable.ite (measurableSet_Icc (a := K₁) (b := K₂)) measurable_const measurable_const) (fun x => by rw [ho]; simp [Payoff.eval1]) hp s
  rw [hoT] at ha
  have m := measurable_gbmPrice hZ (ModelObj.seen (stockOf i) i.r) T i.dim 0 (i.dim - 1)
  refine estimator_event (ok := Set.Iic INT_MAX) (Real.exp_pos _) ?_ ha hN2 hN ?_
  · exact m measurableSet_Icc
  · have e1 := prob_exceeds hZ (ModelObj.seen (stockOf i) i.r) hS hσ hT0 hK0 h1
    have e2 := prob_exceeds hZ (ModelObj.seen (stockOf i) i.r) hS hσ hT0 (hK0.trans_le hKK) h1
    have e3 := prob_eq hZ (ModelObj.seen (stockOf i) i.r) hS hσ hT0 (K := K₁) h1
    have e4 := measureReal_diff (μ := μ) (s₁ := {x | K₁ < gbmPrice (ModelObj.seen (stockOf i) i.r) T i.dim Z 0 (i.dim - 1) x})
      (s₂ := {x | K₂ < gbmPrice (ModelObj.seen (stockOf i) i.r) T i.dim Z 0 (i.dim - 1) x}) (fun x hx => lt_of_le_of_lt hKK hx) (measurableSet_lt measurable_const m)
    rw [e1, e2] at e4
    refine Eq.trans ?_ e4
    refine measureReal_congr ?_
    filter_upwards [measure_eq_zero_iff_ae_notMem.mp e3] with x hx
    exact propext ⟨fun hx' => ⟨lt_of_le_of_ne hx'.1 (Ne.symm hx), not_lt.mpr hx'.2⟩, fun hx' => ⟨le_of_lt hx'.1, not_lt.mp hx'.2⟩⟩

/-! ## Geometric Asian options -/

theorem geometric_option {i : Session ℝ} {c : Session.Choices} {k : ModelKind ℝ} {o : OptObj ℝ} (h : AcceptedSession i c k o) (hf : i.factory = .geometricAsian) {K T : ℝ}
    (hK : lastSet i.params "K" = some (.dbl K)) (hT : lastSet i.params "T" = some (.dbl T)) : o.payoff = .vanilla i.ty K ∧ o.T = T := by
  obtain ⟨-, -, h3, -, h5, -⟩ := h.option
  rw [hf] at h5
  obtain ⟨K', h6, -, h7⟩ := h5
  rw [hK] at h6
  cases h6
  rw [hT] at h3
  cases h3
  exact ⟨h7, rfl⟩

/-- Expectations of functions of the geometric mean. -/
theorem geometric_averages (he : RandomEngine env.engine μ count) {i : Session ℝ} {c : Session.Choices} {o : OptObj ℝ} (h : AcceptedSession i c .gbm o)
    (hcls : i.cls = .geometricAsian) (h1 : 0 < i.dim) (h2 : i.dim ≤ INT_MAX) (hT0 : 0 < o.T) {f : ℝ → ℝ} (hf : Measurable f)
    (hpay : ∀ x, o.payoff.eval1 x = .ok (f x)) (s : Sys E Q ℝ) : ∃ G : E → ℝ, Measurable G ∧ (∀ x, 0 < G x) ∧
      μ.map G = (gaussianReal 0 1).map (blackScholesPrice (meanView (ModelObj.seen (stockOf i) i.r) i.dim) o.T) ∧
      Averages μ (started env c i s) Set.univ (Real.exp (-(i.r * o.T))) fun x => f (G x) := by
  obtain ⟨Z, hZ, hp⟩ := exists_draws (randomSource_engine he)
  have hS : 0 < (ModelObj.seen (stockOf i) i.r).price := accepted_price h
  refine ⟨_, measurable_geometricMean hZ (ModelObj.seen (stockOf i) i.r) o.T i.dim, fun x => ?_, map_geometricMean hZ _ hS hT0.le h1, ?_⟩
  · exact Real.rpow_pos_of_pos (Finset.prod_pos fun j _ => mul_pos hS (Real.exp_pos _)) _
  · refine Averages.of_eq (C70_asian (randomSource_engine he) hS h2 (k := .gbm) trivial hf hpay (v := ModelObj.seen (stockOf i) i.r) (hp _ _ _ h2)).2 fun N x => ?_
    rw [started_eq env h s N x, hcls]
    rfl

theorem meanSigma_pos {σ : ℝ} (hσ : 0 < σ) {n : ℕ} (hn : 0 < n) : 0 < meanSigma σ n := by
  have : (0 : ℝ) < n := by exact_mod_cast hn
  unfold meanSigma
  positivity

theorem integral_of_map {G : E → ℝ} (hG : Measurable G) {v : View ℝ} {T : ℝ} (e : μ.map G = (gaussianReal 0 1).map (blackScholesPrice v T)) {f : ℝ → ℝ}
    (hf : Measurable f) : ∫ x, f (G x) ∂μ = ∫ z, f (blackScholesPrice v T z) ∂gaussianReal 0 1 := by
  have a1 := integral_map (μ := μ) hG.aemeasurable (f := f) hf.aestronglyMeasurable
  have a2 := integral_map (μ := gaussianReal 0 1) (measurable_blackScholesPrice v T).aemeasurable (f := f) hf.aestronglyMeasurable
  rw [e, a2] at a1
  exact a1.symm

theorem variance_of_map {G : E → ℝ} (hG : Measurable G) {v : View ℝ} {T : ℝ} (e : μ.map G = (gaussianReal 0 1).map (blackScholesPrice v T)) {f : ℝ → ℝ}
    (hf : Measurable f) : Var[fun x => f (G x); μ] = Var[fun z => f (blackScholesPrice v T z); gaussianReal 0 1] := by
  have a1 := variance_map (X := f) (μ := μ) (Y := G) hf.aemeasurable hG.aemeasurable
  have a2 := variance_map (X := f) (μ := gaussianReal 0 1) (Y := blackScholesPrice v T) hf.aemeasurable (measurable_blackScholesPrice v T).aemeasurable
  rw [e, a2] at a1
  exact a1.symm

theorem memLp_blackScholesPrice (v : View ℝ) (T : ℝ) : MemLp (blackScholesPrice v T) 2 (gaussianReal 0 1) := by
  refine (memLp_two_iff_integrable_sq (measurable_blackScholesPrice v T).aestronglyMeasurable).mpr ?_
  refine ((integrable_exp_mul_gaussianReal (μ := 0) (v := 1) (2 * (v.sigma * Real.sqrt T))).const_mul
    (v.price ^ 2 * Real.exp (2 * ((v.r - v.coupon.getD 0 - v.sigma ^ 2 / 2) * T)))).congr (.of_forall fun z => ?_)
  simp only [blackScholesPrice]
  rw [mul_pow, ← Real.exp_nat_mul, mul_assoc, ← Real.exp_add]
  congr 2
  push_cast
  ring

theorem memLp_of_map {G : E → ℝ} (hG : Measurable G) {v : View ℝ} {T : ℝ} (e : μ.map G = (gaussianReal 0 1).map (blackScholesPrice v T)) : MemLp G 2 μ := by
  have a1 : MemLp id 2 ((gaussianReal 0 1).map (blackScholesPrice v T)) :=
    (memLp_map_measure_iff aestronglyMeasurable_id (measurable_blackScholesPrice v T).aemeasurable).mpr (memLp_blackScholesPrice v T)
  rw [← e] at a1
  exact (memLp_map_measure_iff aestronglyMeasurable_id hG.aemeasurable).mp a1

/-- **C74.** A geometric Asian call in the GBM model: the session's price is an unbiased estimator of the closed formula for
the geometric mean at the simulated dates, with the variance of the discounted payoff over the number of paths. -/
theorem C74_geometricAsianCall (he : RandomEngine env.engine μ count) {i : Session ℝ} {c : Session.Choices} {o : OptObj ℝ} (h : AcceptedSession i c .gbm o)
    (hcls : i.cls = .geometricAsian) (hfac : i.factory = .geometricAsian) (hty : i.ty = .call) {K T : ℝ} (hK : lastSet i.params "K" = some (.dbl K))
    (hT : lastSet i.params "T" = some (.dbl T)) (hK0 : 0 < K) (hT0 : 0 < T) (hσ : 0 < i.sigma) (h1 : 0 < i.dim) (h2 : i.dim ≤ INT_MAX)
    {N : ℕ} (hN : 0 < N) (s : Sys E Q ℝ) :
    Estimator μ (started env c i s N) (geometricAsianCall i.S i.sigma i.r (i.coupon.getD 0) T K i.dim)
      (Var[fun z => Real.exp (-(i.r * T)) * max (i.S * Real.exp (meanDrift i.sigma i.r (i.coupon.getD 0) i.dim * T +
        meanSigma i.sigma i.dim * Real.sqrt T * z) - K) 0; gaussianReal 0 1] / N) := by
  obtain ⟨ho, hoT⟩ := geometric_option h hfac hK hT
  subst hoT
  have hS : 0 < (ModelObj.seen (stockOf i) i.r).price := accepted_price h
  obtain ⟨G, mG, -, e, ha⟩ := geometric_averages env he h hcls h1 h2 hT0 (f := fun x => max (x - K) 0) (by fun_prop)
    (fun x => by rw [ho, hty]; simp [Payoff.eval1]) s
  have hL : MemLp (fun x => max (G x - K) 0) 2 μ := ((memLp_of_map mG e).sub (memLp_const K)).pos_part
  have := C70_estimator ha hL (N := N) trivial hN
  rw [variance_of_map mG e (f := fun y => Real.exp (-(i.r * o.T)) * max (y - K) 0) (by fun_prop), integral_of_map mG e (f := fun y => max (y - K) 0) (by fun_prop),
    integral_call (meanView (ModelObj.seen (stockOf i) i.r) i.dim) hS hT0 (meanSigma_pos hσ h1) hK0] at this
  have e1 : ∀ z, blackScholesPrice (meanView (ModelObj.seen (stockOf i) i.r) i.dim) o.T z =
      i.S * Real.exp (meanDrift i.sigma i.r (i.coupon.getD 0) i.dim * o.T + meanSigma i.sigma i.dim * Real.sqrt o.T * z) := by
    intro z
    simp only [blackScholesPrice, meanView, ModelObj.seen, stockOf, Option.getD_none]
    congr 2
    ring
  simp only [e1] at this
  convert this using 1
  simp only [geometricAsianCall, meanView, ModelObj.seen, stockOf, Option.getD_none, sub_zero, add_sub_cancel_right]

/-- **C74.** A geometric Asian put in the GBM model: unbiased for the closed formula, with an exponential bound on errors. -/
theorem C74_geometricAsianPut (he : RandomEngine env.engine μ count) {i : Session ℝ} {c : Session.Choices} {o : OptObj ℝ} (h : AcceptedSession i c .gbm o)
    (hcls : i.cls = .geometricAsian) (hfac : i.factory = .geometricAsian) (hty : i.ty = .put) {K T : ℝ} (hK : lastSet i.params "K" = some (.dbl K))
    (hT : lastSet i.params "T" = some (.dbl T)) (hK0 : 0 < K) (hT0 : 0 < T) (hσ : 0 < i.sigma) (h1 : 0 < i.dim) (h2 : i.dim ≤ INT_MAX)
    {N : ℕ} (hN : 0 < N) (s : Sys E Q ℝ) :
    Estimator μ (started env c i s N) (geometricAsianPut i.S i.sigma i.r (i.coupon.getD 0) T K i.dim)
      (Var[fun z => Real.exp (-(i.r * T)) * max (K - i.S * Real.exp (meanDrift i.sigma i.r (i.coupon.getD 0) i.dim * T +
        meanSigma i.sigma i.dim * Real.sqrt T * z)) 0; gaussianReal 0 1] / N) ∧
    Deviates μ (started env c i s N) (geometricAsianPut i.S i.sigma i.r (i.coupon.getD 0) T K i.dim)
      fun ε => 2 * Real.exp (-(2 * N * ε ^ 2) / (Real.exp (-(i.r * T)) * K) ^ 2) := by
  obtain ⟨ho, hoT⟩ := geometric_option h hfac hK hT
  subst hoT
  have hS : 0 < (ModelObj.seen (stockOf i) i.r).price := accepted_price h
  obtain ⟨G, mG, hpos, e, ha⟩ := geometric_averages env he h hcls h1 h2 hT0 (f := fun x => max (K - x) 0) (by fun_prop)
    (fun x => by rw [ho, hty]; simp [Payoff.eval1]) s
  have hL : MemLp (fun x => max (K - G x) 0) 2 μ := ((memLp_const K).sub (memLp_of_map mG e)).pos_part
  have e1 : ∀ z, blackScholesPrice (meanView (ModelObj.seen (stockOf i) i.r) i.dim) o.T z =
      i.S * Real.exp (meanDrift i.sigma i.r (i.coupon.getD 0) i.dim * o.T + meanSigma i.sigma i.dim * Real.sqrt o.T * z) := by
    intro z
    simp only [blackScholesPrice, meanView, ModelObj.seen, stockOf, Option.getD_none]
    congr 2
    ring
  have hB := integral_blackScholesPrice (meanView (ModelObj.seen (stockOf i) i.r) i.dim) hT0.le
  have hmean : Real.exp (-(i.r * o.T)) * ∫ x, max (K - G x) 0 ∂μ = geometricAsianPut i.S i.sigma i.r (i.coupon.getD 0) o.T K i.dim := by
    rw [integral_of_map mG e (f := fun y => max (K - y) 0) (by fun_prop)]
    have hpar : ∀ z, max (K - blackScholesPrice (meanView (ModelObj.seen (stockOf i) i.r) i.dim) o.T z) 0 =
        max (blackScholesPrice (meanView (ModelObj.seen (stockOf i) i.r) i.dim) o.T z - K) 0 -
          (blackScholesPrice (meanView (ModelObj.seen (stockOf i) i.r) i.dim) o.T z - K) := by
      intro z
      rcases le_total K (blackScholesPrice (meanView (ModelObj.seen (stockOf i) i.r) i.dim) o.T z) with h | h
      · rw [max_eq_right (by linarith), max_eq_left (by linarith)]; ring
      · rw [max_eq_left (by linarith), max_eq_right (by linarith)]; ring
    simp only [hpar]
    have i1 : Integrable (fun z => blackScholesPrice (meanView (ModelObj.seen (stockOf i) i.r) i.dim) o.T z - K) (gaussianReal 0 1) :=
      hB.1.sub (integrable_const K)
    rw [integral_sub i1.pos_part i1, integral_call (meanView (ModelObj.seen (stockOf i) i.r) i.dim) hS hT0 (meanSigma_pos hσ h1) hK0,
      integral_sub hB.1 (integrable_const K), hB.2]
    simp only [geometricAsianPut, meanView, ModelObj.seen, stockOf, Option.getD_none, sub_zero, add_sub_cancel_right, integral_const, probReal_univ, one_smul]
    ring
  constructor
  · have := C70_estimator ha hL (N := N) trivial hN
    rw [variance_of_map mG e (f := fun y => Real.exp (-(i.r * o.T)) * max (K - y) 0) (by fun_prop), hmean] at this
    simp only [e1] at this
    exact this
  · have := C70_hoeffding (Real.exp_pos _) ha hK0 (fun x => ⟨le_max_right _ _, max_le (by linarith [hpos x]) hK0.le⟩) (N := N) trivial hN
    rw [hmean] at this
    simpa only [sub_zero] using this

end

/-! ## Examples -/

namespace ClosedFormExample
open SessionExample
variable [FlInf ℝ]

theorem digital {ty : PayoffType} (hty : ty = .call ∨ ty = .put) : AcceptedSession (session .digital ty .gbm .singlePath 1000) (choices .digital) .gbm
    ⟨.digital, "AAPL", .digital ty 100, 1, none⟩ :=
  ⟨by simp [session, Accepted], rfl, hty, ⟨rfl, rfl, rfl, by simp, ⟨100, rfl, by simp, rfl⟩, rfl⟩, rfl, by simp [session, Family], .refl _, List.reverse_perm _⟩

/-- A digital call with 100000 paths: an error of one percent of the nominal has probability at most `2 exp(-20)`. -/
example (s : Sys PerfectState Unit ℝ) : ∃ Y : PerfectState → ℝ,
    (∀ x, ∃ x', started env (choices .digital) (session .digital .call .gbm .singlePath) s 100000 x = (.ok (Y x), x')) ∧
    perfectMeasure.real {x | 1 / 100 ≤ |Y x - Real.exp (-(1/20 * 1)) * exceedance 100 (1/5) (1/20) 0 1 100|} ≤ 2 * Real.exp (-20) := by
  obtain ⟨Y, h1, h2⟩ := (C74_digitalCall env randomEngine (digital (.inl rfl)) rfl rfl rfl (K := 100) (T := 1) rfl rfl (by norm_num) (by norm_num)
    (by simp [session]) (by simp [session]) (by simp [session, INT_MAX]) (N := 100000) (by norm_num) (by simp [INT_MAX]) s).2
  refine ⟨Y, h1, (h2 (1 / 100) (by norm_num)).trans ?_⟩
  refine mul_le_mul_of_nonneg_left (Real.exp_le_exp.mpr ?_) (by norm_num)
  have e1 : Real.exp (-((session .digital .call .gbm .singlePath).r * 1)) ≤ 1 := Real.exp_le_one_iff.mpr (by simp [session])
  have e0 := Real.exp_pos (-((session .digital .call .gbm .singlePath).r * 1))
  rw [neg_div, neg_le_neg_iff, le_div_iff₀ (by positivity)]
  push_cast
  nlinarith

example (s : Sys PerfectState Unit ℝ) : ∃ var, Estimator perfectMeasure
    (started env (choices .digital) (session .digital .put .gbm .singlePath) s 100000) (Real.exp (-(1/20 * 1)) * (1 - exceedance 100 (1/5) (1/20) 0 1 100)) var :=
  ⟨_, (C74_digitalPut env randomEngine (digital (.inr rfl)) rfl rfl rfl (K := 100) (T := 1) rfl rfl (by norm_num) (by norm_num)
    (by simp [session]) (by simp [session]) (by simp [session, INT_MAX]) (N := 100000) (by norm_num) (by simp [INT_MAX]) s).1⟩

/-- A double digital option which pays between 90 and 110. -/
noncomputable def doubleSession : Session ℝ :=
  ⟨"X", 100, 1/5, some (1/100), 1/20, [("ticker", .str "X"), ("T", .dbl 2), ("K2", .dbl 110), ("K1", .dbl 90)], .doubleDigital, .call,
    fun _ => .ok .gbm, 12, .singlePath, ⟨fun _ => .ok [], fun _ _ => .ok []⟩, 100⟩

example (s : Sys PerfectState Unit ℝ) : ∃ var, Estimator perfectMeasure (started env (choices .doubleDigital) doubleSession s 1000)
    (Real.exp (-(1/20 * 2)) * (exceedance 100 (1/5) (1/20) (1/100) 2 90 - exceedance 100 (1/5) (1/20) (1/100) 2 110)) var := by
  have h : AcceptedSession doubleSession (choices .doubleDigital) .gbm ⟨.doubleDigital, "X", .doubleDigital 90 110, 2, none⟩ :=
    ⟨by simp [doubleSession, Accepted]; norm_num, rfl, .inl rfl, ⟨rfl, rfl, rfl, by simp, ⟨90, 110, rfl, rfl, by simp, by simp, rfl⟩, rfl⟩, rfl,
      by simp [doubleSession, Family], .refl _, List.reverse_perm _⟩
  exact ⟨_, (C74_doubleDigital env randomEngine h rfl rfl (K₁ := 90) (K₂ := 110) (T := 2) rfl rfl rfl (by norm_num) (by norm_num) (by norm_num)
    (by simp [doubleSession]) (by simp [doubleSession]) (by simp [doubleSession, INT_MAX]) (N := 1000) (by norm_num) (by simp [INT_MAX]) s).1⟩

theorem geometric {ty : PayoffType} (hty : ty = .call ∨ ty = .put) :
    AcceptedSession (session .geometricAsian ty .gbm .geometricAsian 1000) (choices .geometricAsian) .gbm (option .geometricAsian ty none) :=
  accepted hty .gbm (by simp [Family]) ⟨100, rfl, by simp, rfl⟩ rfl

example (s : Sys PerfectState Unit ℝ) : ∃ var, Estimator perfectMeasure
    (started env (choices .geometricAsian) (session .geometricAsian .call .gbm .geometricAsian) s 100000) (geometricAsianCall 100 (1/5) (1/20) 0 1 100 1000) var :=
  ⟨_, C74_geometricAsianCall env randomEngine (geometric (.inl rfl)) rfl rfl rfl (K := 100) (T := 1) rfl rfl (by norm_num) (by norm_num)
    (by simp [session]) (by simp [session]) (by simp [session, INT_MAX]) (N := 100000) (by norm_num) s⟩

example (s : Sys PerfectState Unit ℝ) : ∃ var, Estimator perfectMeasure
    (started env (choices .geometricAsian) (session .geometricAsian .put .gbm .geometricAsian) s 100000) (geometricAsianPut 100 (1/5) (1/20) 0 1 100 1000) var :=
  ⟨_, (C74_geometricAsianPut env randomEngine (geometric (.inr rfl)) rfl rfl rfl (K := 100) (T := 1) rfl rfl (by norm_num) (by norm_num)
    (by simp [session]) (by simp [session]) (by simp [session, INT_MAX]) (N := 100000) (by norm_num) s).1⟩

/-- With one date the geometric Asian call is the European call. -/
example (S σ r q T K : ℝ) (hT : 0 < T) : geometricAsianCall S σ r q T K 1 = blackScholesCall S σ r q T K := by
  have e1 : meanSigma σ 1 = σ := by norm_num [meanSigma]
  have e2 : meanDrift σ r q 1 = r - q - σ ^ 2 / 2 := by simp only [meanDrift, Nat.cast_one]; norm_num
  simp only [geometricAsianCall, blackScholesCall, e1, e2]
  have h1 : Real.log (S / K) + (r - q + σ ^ 2 / 2) * T = Real.log (S / K) + (r - q - σ ^ 2 / 2) * T + σ ^ 2 * T := by ring
  have hq : Real.exp (-(r * T)) * Real.exp ((r - q - σ ^ 2 / 2 + σ ^ 2 / 2) * T) = Real.exp (-(q * T)) := by
    rw [← Real.exp_add]; congr 1; ring
  rcases eq_or_ne σ 0 with rfl | hσ
  · simp only [zero_mul, div_zero, sub_zero, add_zero]
    rw [← hq]; ring_nf
  · have hst : Real.sqrt T ≠ 0 := (Real.sqrt_pos.mpr hT).ne'
    have hd : (Real.log (S / K) + (r - q - σ ^ 2 / 2) * T) / (σ * Real.sqrt T) + σ * Real.sqrt T =
        (Real.log (S / K) + (r - q + σ ^ 2 / 2) * T) / (σ * Real.sqrt T) := by
      rw [h1, add_div _ (σ ^ 2 * T)]
      congr 1
      rw [eq_div_iff (mul_ne_zero hσ hst), ← Real.mul_self_sqrt hT.le]
      ring_nf
      rw [Real.sq_sqrt (by positivity)]
    rw [hd, ← hd, add_sub_cancel_right, hd, ← hq]
    ring

end ClosedFormExample
end Verif
