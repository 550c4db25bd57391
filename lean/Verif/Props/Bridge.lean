import Verif.Lemmas.GaussianFamily
import Verif.Props.RiskNeutral
import Verif.Spec.LsmcSpec

/-!
# Property C39: the Brownian bridge has the law of the GBM
-/

set_option linter.unusedSectionVars false

namespace Verif
open MeasureTheory ProbabilityTheory Spec

variable {Ω : Type} [MeasurableSpace Ω] {P : Measure Ω} [IsProbabilityMeasure P] {Z : ℕ → Ω → ℝ}

/-- `S` has the law of the price of the stock at date `t` under the risk neutral GBM. -/
def Spec.GbmLaw (P : Measure Ω) (v : View ℝ) (t : ℝ) (S : Ω → ℝ) : Prop :=
  (∀ ω, 0 < S ω) ∧ P.map (fun ω => Real.log (S ω / v.price)) =
    gaussianReal ((v.r - v.coupon.getD 0 - v.sigma ^ 2 / 2) * t) (Real.toNNReal (v.sigma ^ 2 * t))

theorem bridge_log (v : View ℝ) (hS : 0 < v.price) (S t t' z : ℝ) :
    Real.log (Sim.bridgeUpdate v S t t' z / v.price) =
      t / t' * Real.log (S / v.price) + Real.sqrt (t * (t' - t) / t') * v.sigma * z := by
  simp only [Sim.bridgeUpdate, Fl.log_real, Fl.exp_real, Fl.sqrt_real]
  rw [mul_div_cancel_left₀ _ hS.ne', Real.log_exp]

theorem bridge_pos (v : View ℝ) (hS : 0 < v.price) (S t t' z : ℝ) : 0 < Sim.bridgeUpdate v S t t' z := by
  simp only [Sim.bridgeUpdate, Fl.exp_real]; positivity

theorem backward_script (f : ℕ → ℝ) (v : View ℝ) (S t t' : ℝ) (i : ℕ) :
    Sim.backward (scriptGen f) v S t t' .gbm i = (.ok (Sim.bridgeUpdate v S t t' (f i)), i + 1) := rfl

/-- **C39.** If the later price has the law of the GBM at `t'` and the draw is standard normal and
independent of it, then the price produced by `simulatePriceBackward` has the law of the GBM at `t`;
moreover the return from `t` to `t'` is independent of it and has the right law too, so that the pair of
prices has the joint law of the GBM at `(t, t')`. -/
theorem C39_law (v : View ℝ) (hS : 0 < v.price) {t t' : ℝ} (ht : 0 < t) (htt : t < t') {S' : Ω → ℝ}
    (hm : Measurable S') (hS' : GbmLaw P v t' S') {i : ℕ} (hZ : Measurable (Z i))
    (hlaw : P.map (Z i) = gaussianReal 0 1) (hind : IndepFun S' (Z i) P) :
    ∃ S : Ω → ℝ,
      (∀ ω, Sim.backward (scriptGen fun j => Z j ω) v (S' ω) t t' .gbm i = (.ok (S ω), i + 1)) ∧
      GbmLaw P v t S ∧
      IndepFun S (fun ω => S' ω / S ω) P ∧
      P.map (fun ω => Real.log (S' ω / S ω)) =
        gaussianReal ((v.r - v.coupon.getD 0 - v.sigma ^ 2 / 2) * (t' - t))
          (Real.toNNReal (v.sigma ^ 2 * (t' - t))) := by
  let μ := v.r - v.coupon.getD 0 - v.sigma ^ 2 / 2
  let S : Ω → ℝ := fun ω => Sim.bridgeUpdate v (S' ω) t t' (Z i ω)
  let X' : Ω → ℝ := fun ω => Real.log (S' ω / v.price)
  let a := t / t'
  let b := Real.sqrt (t * (t' - t) / t') * v.sigma
  have ht' : 0 < t' := ht.trans htt
  have hX'm : Measurable X' := Real.measurable_log.comp (hm.div_const _)
  have iXZ : IndepFun X' (Z i) P :=
    hind.comp (φ := fun x => Real.log (x / v.price)) (ψ := id)
      (Real.measurable_log.comp (measurable_id.div_const _)) measurable_id
  have hb2 : b ^ 2 = v.sigma ^ 2 * (t * (t' - t) / t') := by
    simp only [b, mul_pow]
    rw [Real.sq_sqrt (div_nonneg (mul_nonneg ht.le (by linarith)) ht'.le)]
    ring
  have lX : HasLaw X' (gaussianReal (μ * t') (Real.toNNReal (v.sigma ^ 2 * t'))) P :=
    ⟨hX'm.aemeasurable, hS'.2⟩
  have lZ : HasLaw (Z i) (gaussianReal 0 1) P := ⟨hZ.aemeasurable, hlaw⟩
  have key : ∀ p q : ℝ, P.map (fun ω => p * X' ω + q * Z i ω) =
      gaussianReal (p * (μ * t')) (Real.toNNReal (p ^ 2 * (v.sigma ^ 2 * t') + q ^ 2)) := by
    intro p q
    have h1 := gaussianReal_const_mul lX p
    have h2 := gaussianReal_const_mul lZ q
    have hi : IndepFun (fun ω => p * X' ω) (fun ω => q * Z i ω) P :=
      iXZ.comp (φ := fun x => p * x) (ψ := fun x => q * x) (by fun_prop) (by fun_prop)
    have := gaussianReal_add_gaussianReal_of_indepFun hi h1.map_eq h2.map_eq
    refine this.trans ?_
    congr 1
    · ring
    · ext
      simp only [NNReal.coe_add, NNReal.coe_mul, NNReal.coe_mk, NNReal.coe_one]
      rw [Real.coe_toNNReal _ (by positivity), Real.coe_toNNReal _ (by positivity)]
      ring
  have hlog : ∀ ω, Real.log (S ω / v.price) = a * X' ω + b * Z i ω := fun ω => bridge_log v hS _ _ _ _
  have hpos : ∀ ω, 0 < S ω := fun ω => bridge_pos v hS _ _ _ _
  have hlog' : ∀ ω, Real.log (S' ω / S ω) = (1 - a) * X' ω + (-b) * Z i ω := by
    intro ω
    have := hlog ω
    rw [Real.log_div (hpos ω).ne' hS.ne'] at this
    have h2 : X' ω = Real.log (S' ω) - Real.log v.price := Real.log_div (hS'.1 ω).ne' hS.ne'
    rw [Real.log_div (hS'.1 ω).ne' (hpos ω).ne']
    linear_combination -this - h2
  have hG : HasGaussianLaw (fun ω => (X' ω, Z i ω)) P :=
    IndepFun.hasGaussianLaw lX.hasGaussianLaw lZ.hasGaussianLaw iXZ
  have hG2 : HasGaussianLaw (fun ω => (a * X' ω + b * Z i ω, (1 - a) * X' ω + (-b) * Z i ω)) P := by
    let L : ℝ × ℝ →L[ℝ] ℝ × ℝ :=
      (a • ContinuousLinearMap.fst ℝ ℝ ℝ + b • ContinuousLinearMap.snd ℝ ℝ ℝ).prod
        ((1 - a) • ContinuousLinearMap.fst ℝ ℝ ℝ + (-b) • ContinuousLinearMap.snd ℝ ℝ ℝ)
    have := hG.map_fun L
    simpa [L] using this
  have mX : MemLp X' 2 P := lX.hasGaussianLaw.memLp_two
  have mZ : MemLp (Z i) 2 P := lZ.hasGaussianLaw.memLp_two
  have hvX : cov[X', X'; P] = v.sigma ^ 2 * t' := by
    rw [covariance_self hX'm.aemeasurable, lX.variance_eq, variance_id_gaussianReal,
      Real.coe_toNNReal _ (by positivity)]
  have hvZ : cov[Z i, Z i; P] = 1 := by
    rw [covariance_self hZ.aemeasurable, lZ.variance_eq, variance_id_gaussianReal]; simp
  have hc0 : cov[X', Z i; P] = 0 := iXZ.covariance_eq_zero mX mZ
  have hc0' : cov[Z i, X'; P] = 0 := by rw [covariance_comm]; exact hc0
  have hind2 : IndepFun (fun ω => a * X' ω + b * Z i ω) (fun ω => (1 - a) * X' ω + (-b) * Z i ω) P := by
    refine hG2.indepFun_of_covariance_eq_zero ?_
    have e1 : (fun ω => a * X' ω + b * Z i ω) = (fun ω => a * X' ω) + fun ω => b * Z i ω := rfl
    have e2 : (fun ω => (1 - a) * X' ω + (-b) * Z i ω) = (fun ω => (1 - a) * X' ω) + fun ω => (-b) * Z i ω := rfl
    rw [e1, e2, covariance_add_left (mX.const_mul _) (mZ.const_mul _)
      ((mX.const_mul _).add (mZ.const_mul _)),
      covariance_add_right (mX.const_mul _) (mX.const_mul _) (mZ.const_mul _),
      covariance_add_right (mZ.const_mul _) (mX.const_mul _) (mZ.const_mul _)]
    simp only [covariance_const_mul_left, covariance_const_mul_right, hvX, hvZ, hc0, hc0']
    have : b * b = v.sigma ^ 2 * (t * (t' - t) / t') := by rw [← sq]; exact hb2
    have : a * ((1 - a) * (v.sigma ^ 2 * t')) - b * b = 0 := by
      rw [this]
      simp only [a]
      field_simp
      ring
    linarith
  have hSe : S = fun ω => v.price * Real.exp (a * X' ω + b * Z i ω) := by
    funext ω
    rw [← hlog, Real.exp_log (div_pos (hpos ω) hS), mul_div_cancel₀ _ hS.ne']
  refine ⟨S, fun ω => rfl, ⟨hpos, ?_⟩, ?_, ?_⟩
  · simp only [hlog]
    rw [key a b, hb2]
    congr 1
    · simp only [a, μ]; field_simp
    · congr 1; simp only [a]; field_simp; ring
  · have h3 := hind2.comp (φ := fun x => v.price * Real.exp x) (ψ := fun x => Real.exp x)
      (by fun_prop) (by fun_prop)
    have e3 : (fun ω => S' ω / S ω) = (fun x => Real.exp x) ∘ fun ω => (1 - a) * X' ω + -b * Z i ω := by
      funext ω
      simp only [Function.comp]
      rw [← hlog', Real.exp_log (div_pos (hS'.1 ω) (hpos ω))]
    rw [e3, hSe]
    exact h3
  · simp only [hlog']
    rw [key (1 - a) (-b), neg_sq, hb2]
    congr 1
    · simp only [a, μ]; field_simp
    · congr 1; simp only [a]; field_simp; ring

/-- From the price at two years, simulated in one step, to the price after six months. -/
example : ∃ (Ω : Type) (_ : MeasurableSpace Ω) (P : Measure Ω) (Z : ℕ → Ω → ℝ) (S S' : Ω → ℝ),
    (∀ ω, Sim.maturity (scriptGen fun j => Z j ω) 1 exampleView 2 .gbm 0 = (.ok (S' ω), 1)) ∧
    (∀ ω, Sim.backward (scriptGen fun j => Z j ω) exampleView (S' ω) (1/2) 2 .gbm 1 = (.ok (S ω), 2)) ∧
    GbmLaw P exampleView (1/2) S := by
  obtain ⟨Ω, mΩ, P, Z, hP, h⟩ := exists_iidNormal
  have hp : 0 < exampleView.price := by norm_num [exampleView]
  have hi : IndepFun (gbmPrice exampleView 2 1 Z 0 0) (Z 1) P := by
    have := (h.indep.indepFun (show 0 ≠ 1 by norm_num)).comp (φ := fun x => exampleView.price * Real.exp
      ((exampleView.r - exampleView.coupon.getD 0 - exampleView.sigma ^ 2 / 2) * ((0 + 1) * (2 / 1)) +
        exampleView.sigma * Real.sqrt (2 / 1) * x)) (ψ := id) (by fun_prop) measurable_id
    convert this using 1
    · funext ω
      simp [gbmPrice, drawSum]
    · rfl
  have hl : GbmLaw P exampleView 2 (gbmPrice exampleView 2 1 Z 0 0) := by
    obtain ⟨X, h1, h2, -⟩ := C34_riskNeutral h exampleView hp.ne' (T := 2) (by norm_num) (steps := 1)
      (by decide) 0
    refine ⟨fun ω => by simp only [gbmPrice]; positivity, ?_⟩
    have e : gbmPrice exampleView 2 1 Z 0 0 = X 0 := by
      funext ω
      have := (prices_gbmPrice exampleView 2 (steps := 1) (by decide) Z 0 ω).symm.trans (h1 ω)
      simpa using this
    rw [e, h2 0]
    norm_num
  obtain ⟨S, h1, h2, -⟩ := C39_law exampleView hp (t := 1/2) (t' := 2) (by norm_num) (by norm_num)
    (measurable_gbmPrice h _ _ _ _ _) hl (h.measurable 1) (h.law 1) hi
  exact ⟨Ω, mΩ, P, Z, S, _, fun ω => maturity_gbmPrice exampleView 2 one_pos (by decide) Z 0 ω, h1, h2⟩

/-! ## Whole paths -/

/-- Log-return of path `i` over the period from date `j` to date `j + 1` (date `0` is today). -/
noncomputable def Spec.logReturn (v : View ℝ) (X : ℕ → ℕ → Ω → ℝ) (i j : ℕ) (ω : Ω) : ℝ :=
  Real.log (X i (j + 1) ω / if j = 0 then v.price else X i j ω)

/-- `X i j`, for `i < N` and `1 ≤ j ≤ steps`, are the prices at the dates `dt, 2 dt, ...` of `N`
independent paths of the risk neutral GBM: all log-returns are independent and normal. -/
structure Spec.GbmPaths (P : Measure Ω) (v : View ℝ) (dt : ℝ) (N steps : ℕ) (X : ℕ → ℕ → Ω → ℝ) : Prop where
  pos : ∀ i < N, ∀ j, 1 ≤ j → j ≤ steps → ∀ ω, 0 < X i j ω
  law : ∀ i < N, ∀ j < steps, P.map (logReturn v X i j) =
    gaussianReal ((v.r - v.coupon.getD 0 - v.sigma ^ 2 / 2) * dt) (Real.toNNReal (v.sigma ^ 2 * dt))
  indep : iIndepFun (fun a : Fin N × Fin steps => logReturn v X a.1 a.2) P

/-- Log-returns that are combinations of the draws with orthogonal coefficients of length `sqrt dt`. -/
theorem gbmPaths_of_lin (h : IidNormal P Z) (v : View ℝ) {dt : ℝ} (hdt : 0 ≤ dt) {N steps : ℕ}
    {X : ℕ → ℕ → Ω → ℝ} (hpos : ∀ i < N, ∀ j, 1 ≤ j → j ≤ steps → ∀ ω, 0 < X i j ω) (M : ℕ)
    (c : ℕ → ℕ → ℕ → ℝ)
    (hl : ∀ i < N, ∀ j < steps, ∀ ω, logReturn v X i j ω =
      (v.r - v.coupon.getD 0 - v.sigma ^ 2 / 2) * dt + v.sigma * lin Z M (c i j) ω)
    (hc : ∀ i < N, ∀ j < steps, ∀ i' < N, ∀ j' < steps,
      ip M (c i j) (c i' j') = if i = i' ∧ j = j' then dt else 0) :
    GbmPaths P v dt N steps X := by
  refine ⟨hpos, fun i hi j hj => ?_, ?_⟩
  · have e : logReturn v X i j = fun ω => (v.r - v.coupon.getD 0 - v.sigma ^ 2 / 2) * dt +
        v.sigma * lin Z M (c i j) ω := funext (hl i hi j hj)
    have h1 : HasLaw (lin Z M (c i j)) (gaussianReal 0 (Real.toNNReal dt)) P := by
      refine ⟨(h.measurable_lin _ _).aemeasurable, ?_⟩
      rw [h.map_lin, hc i hi j hj i hi j hj]
      simp
    rw [e, (gaussianReal_const_add (gaussianReal_const_mul h1 v.sigma) _).map_eq]
    congr 1
    · ring
    · ext
      simp only [NNReal.coe_mul, NNReal.coe_mk]
      rw [Real.coe_toNNReal _ hdt, Real.coe_toNNReal _ (by positivity)]
  · have h1 := h.indep_lin M (fun a : Fin N × Fin steps => c a.1 a.2) (by
      rintro ⟨i, j⟩ ⟨i', j'⟩ hne
      rw [hc i i.2 j j.2 i' i'.2 j' j'.2, if_neg]
      rintro ⟨e1, e2⟩
      exact hne (Prod.ext (Fin.ext e1) (Fin.ext e2)))
    have h2 := h1.comp (fun _ x => (v.r - v.coupon.getD 0 - v.sigma ^ 2 / 2) * dt + v.sigma * x)
      (fun _ => by fun_prop)
    convert h2 using 1
    funext a ω
    exact hl a.1 a.1.2 a.2 a.2.2 ω

/-- The prices of path `i` of the Brownian bridge, `m` dates before maturity, when the draws start at
`s`. -/
noncomputable def bridgePrice (v : View ℝ) (T : ℝ) (steps N : ℕ) (Z : ℕ → Ω → ℝ) (s i : ℕ) : ℕ → Ω → ℝ
  | 0, ω => gbmPrice v T steps Z (s + i * steps) (steps - 1) ω
  | m + 1, ω => Sim.bridgeUpdate v (bridgePrice v T steps N Z s i m ω)
      ((steps - (m + 1) : ℕ) * (T / steps)) (((steps - (m + 1) + 1 : ℕ) : ℝ) * (T / steps))
      (Z (s + N * steps + m * N + i) ω)

/-- The coefficients of the draws in the log-price. -/
noncomputable def bridgeCoef (dt : ℝ) (steps N s i : ℕ) : ℕ → ℕ → ℝ
  | 0 => fun p => Real.sqrt dt * if s + i * steps ≤ p ∧ p < s + i * steps + steps then 1 else 0
  | m + 1 => fun p => ((steps - (m + 1) : ℕ) : ℝ) / ((steps - (m + 1) + 1 : ℕ) : ℝ) *
      bridgeCoef dt steps N s i m p +
      Real.sqrt ((steps - (m + 1) : ℕ) * dt / ((steps - (m + 1) + 1 : ℕ) : ℝ)) *
        unit (s + N * steps + m * N + i) p

section
variable (dt : ℝ) (steps N s : ℕ)

theorem bridge_idx_ne {m k i i' : ℕ} (hi : i < N) (hi' : i' < N) (hne : m ≠ k ∨ i ≠ i') :
    s + N * steps + m * N + i ≠ s + N * steps + k * N + i' := by
  intro h
  have h1 : m * N + i = k * N + i' := by omega
  have h2 : m = k := by
    have := congrArg (· / N) h1
    simp only [Nat.mul_comm _ N] at this
    rw [Nat.mul_add_div (by omega), Nat.mul_add_div (by omega), Nat.div_eq_of_lt hi,
      Nat.div_eq_of_lt hi'] at this
    simpa using this
  subst h2
  omega

theorem bridgeCoef_idx {i i' m k : ℕ} (hi : i < N) (hi' : i' < N) (hne : m ≤ k ∨ i ≠ i') :
    bridgeCoef dt steps N s i m (s + N * steps + k * N + i') = 0 := by
  induction m with
  | zero =>
    simp only [bridgeCoef]
    rw [if_neg, mul_zero]
    rintro ⟨-, h2⟩
    have : (i + 1) * steps ≤ N * steps := Nat.mul_le_mul_right _ hi
    have h3 : (i + 1) * steps = i * steps + steps := by ring
    omega
  | succ m ih =>
    simp only [bridgeCoef]
    rw [ih (by omega), unit, if_neg]
    · simp
    · exact (bridge_idx_ne steps N s hi hi' (by omega)).symm

theorem bridgeCoef_succ_ip {M m i : ℕ} (h : s + N * steps + m * N + i < M) (e : ℕ → ℝ) :
    ip M (bridgeCoef dt steps N s i (m + 1)) e =
      ((steps - (m + 1) : ℕ) : ℝ) / ((steps - (m + 1) + 1 : ℕ) : ℝ) * ip M (bridgeCoef dt steps N s i m) e +
      Real.sqrt ((steps - (m + 1) : ℕ) * dt / ((steps - (m + 1) + 1 : ℕ) : ℝ)) *
        e (s + N * steps + m * N + i) := by
  rw [bridgeCoef, ip_lin_left, ip_unit_left h]

theorem bridgeCoef_ip_ne {i i' : ℕ} (hi : i < N) (hi' : i' < N) (hne : i ≠ i') {M : ℕ}
    (hM : s + N * steps + steps * N ≤ M) {m m' : ℕ} (hm : m ≤ steps) (hm' : m' ≤ steps) :
    ip M (bridgeCoef dt steps N s i m) (bridgeCoef dt steps N s i' m') = 0 := by
  have hidx : ∀ k i, k < steps → i < N → s + N * steps + k * N + i < M := by
    intro k i hk hi
    have : (k + 1) * N ≤ steps * N := Nat.mul_le_mul_right _ hk
    have h3 : (k + 1) * N = k * N + N := by ring
    omega
  induction m with
  | succ m ih =>
    rw [bridgeCoef_succ_ip dt steps N s (hidx m i hm hi), ih (by omega),
      bridgeCoef_idx dt steps N s hi' hi (Or.inr hne.symm)]
    simp
  | zero =>
    induction m' with
    | succ m ih =>
      rw [ip_comm, bridgeCoef_succ_ip dt steps N s (hidx m i' hm' hi'),
        ip_comm M _ (bridgeCoef dt steps N s i 0), ih (by omega), bridgeCoef_idx dt steps N s hi hi' (Or.inr hne)]
      simp
    | zero =>
      refine Finset.sum_eq_zero fun p _ => ?_
      simp only [bridgeCoef]
      by_cases h1 : s + i * steps ≤ p ∧ p < s + i * steps + steps
      · rw [if_neg (c := s + i' * steps ≤ p ∧ _)]
        · simp
        · rintro ⟨h2, h3⟩
          rcases lt_or_gt_of_ne hne with h | h
          · have : (i + 1) * steps ≤ i' * steps := Nat.mul_le_mul_right _ h
            have h3 : (i + 1) * steps = i * steps + steps := by ring
            omega
          · have : (i' + 1) * steps ≤ i * steps := Nat.mul_le_mul_right _ h
            have h3 : (i' + 1) * steps = i' * steps + steps := by ring
            omega
      · rw [if_neg h1]; simp

theorem bridgeCoef_ip (hdt : 0 ≤ dt) {i : ℕ} (hi : i < N) {M : ℕ}
    (hM : s + N * steps + steps * N ≤ M) {m m' : ℕ} (hm : m ≤ m') (hm' : m' < steps) :
    ip M (bridgeCoef dt steps N s i m') (bridgeCoef dt steps N s i m) = ((steps - m' : ℕ) : ℝ) * dt := by
  have hidx : ∀ k i, k < steps → i < N → s + N * steps + k * N + i < M := by
    intro k i hk hi
    have : (k + 1) * N ≤ steps * N := Nat.mul_le_mul_right _ hk
    have h3 : (k + 1) * N = k * N + N := by ring
    omega
  induction m' generalizing m with
  | zero =>
    obtain rfl : m = 0 := by omega
    have hsub : (Finset.range M).filter (fun p => s + i * steps ≤ p ∧ p < s + i * steps + steps) =
        Finset.Ico (s + i * steps) (s + i * steps + steps) := by
      ext p
      simp only [Finset.mem_filter, Finset.mem_range, Finset.mem_Ico]
      have : (i + 1) * steps ≤ N * steps := Nat.mul_le_mul_right _ hi
      have h3 : (i + 1) * steps = i * steps + steps := by ring
      omega
    simp only [ip, bridgeCoef]
    have e : ∀ p, (Real.sqrt dt * if s + i * steps ≤ p ∧ p < s + i * steps + steps then (1 : ℝ) else 0) *
        (Real.sqrt dt * if s + i * steps ≤ p ∧ p < s + i * steps + steps then (1 : ℝ) else 0) =
        if s + i * steps ≤ p ∧ p < s + i * steps + steps then dt else 0 := by
      intro p
      split_ifs
      · rw [mul_one, Real.mul_self_sqrt hdt]
      · simp
    rw [Finset.sum_congr rfl fun p _ => e p, ← Finset.sum_filter, hsub, Finset.sum_const, Nat.card_Ico,
      nsmul_eq_mul]
    congr 2
    omega
  | succ k ih =>
    have hn : (((steps - (k + 1) + 1 : ℕ) : ℝ)) = ((steps - k : ℕ) : ℝ) := by
      congr 1; omega
    have hp : (0 : ℝ) < ((steps - k : ℕ) : ℝ) := by
      have : 0 < steps - k := by omega
      exact_mod_cast this
    rw [bridgeCoef_succ_ip dt steps N s (hidx k i (by omega) hi), hn]
    rcases Nat.lt_or_ge m (k + 1) with h | h
    · rw [ih (by omega) (by omega), bridgeCoef_idx dt steps N s hi hi (Or.inl (by omega))]
      field_simp
      ring
    · obtain rfl : m = k + 1 := by omega
      have h1 : bridgeCoef dt steps N s i (k + 1) (s + N * steps + k * N + i) =
          Real.sqrt (((steps - (k + 1) : ℕ) : ℝ) * dt / ((steps - k : ℕ) : ℝ)) := by
        simp only [bridgeCoef, hn]
        rw [bridgeCoef_idx dt steps N s hi hi (Or.inl le_rfl)]
        simp [unit]
      have h2 : ip M (bridgeCoef dt steps N s i k) (bridgeCoef dt steps N s i (k + 1)) =
          ((steps - (k + 1) : ℕ) : ℝ) * dt := by
        rw [ip_comm, bridgeCoef_succ_ip dt steps N s (hidx k i (by omega) hi), hn, ih le_rfl (by omega),
          bridgeCoef_idx dt steps N s hi hi (Or.inl le_rfl)]
        field_simp
        ring
      have hsq := Real.mul_self_sqrt (show (0 : ℝ) ≤ ((steps - (k + 1) : ℕ) : ℝ) * dt / ((steps - k : ℕ) : ℝ) by positivity)
      rw [h1, h2, hsq]
      have hk : ((steps - k : ℕ) : ℝ) = ((steps - (k + 1) : ℕ) : ℝ) + 1 := by rw [← hn]; push_cast; ring
      field_simp
      rw [hk]
      ring

end

theorem bridgePrice_pos (v : View ℝ) (hS : 0 < v.price) (T : ℝ) (steps N s i m : ℕ) (ω : Ω) :
    0 < bridgePrice v T steps N Z s i m ω := by
  cases m with
  | zero => simp only [bridgePrice, gbmPrice]; positivity
  | succ m => exact bridge_pos v hS _ _ _ _

theorem bridgePrice_log (v : View ℝ) (hS : 0 < v.price) {T : ℝ} (hT : 0 < T) (steps N s i : ℕ)
    (hs : 0 < steps) (hi : i < N) {M : ℕ} (hM : s + N * steps + steps * N ≤ M) (ω : Ω) :
    ∀ m < steps, Real.log (bridgePrice v T steps N Z s i m ω / v.price) =
      (v.r - v.coupon.getD 0 - v.sigma ^ 2 / 2) * (((steps - m : ℕ) : ℝ) * (T / steps)) +
        v.sigma * lin Z M (bridgeCoef (T / steps) steps N s i m) ω := by
  have hs' : (0 : ℝ) < steps := by exact_mod_cast hs
  intro m
  induction m with
  | zero =>
    intro _
    simp only [bridgePrice, gbmPrice, bridgeCoef]
    have hn : ((steps - 1 : ℕ) : ℝ) + 1 = steps := by
      rw [Nat.cast_sub hs]; push_cast; ring
    have e : drawSum Z (s + i * steps) steps ω =
        lin Z M (fun p => if s + i * steps ≤ p ∧ p < s + i * steps + steps then 1 else 0) ω := by
      simp only [lin, drawSum, ite_mul, one_mul, zero_mul]
      rw [← Finset.sum_filter]
      congr 1
      ext p
      simp only [Finset.mem_filter, Finset.mem_range, Finset.mem_Ico]
      have : (i + 1) * steps ≤ N * steps := Nat.mul_le_mul_right _ hi
      have h3 : (i + 1) * steps = i * steps + steps := by ring
      omega
    rw [mul_div_cancel_left₀ _ hS.ne', Real.log_exp, lin_const_mul, hn, Nat.sub_zero,
      Nat.sub_add_cancel hs, e]
    ring
  | succ m ih =>
    intro hm
    have hidx : s + N * steps + m * N + i < M := by
      have : (m + 1) * N ≤ steps * N := Nat.mul_le_mul_right _ hm.le
      have h3 : (m + 1) * N = m * N + N := by ring
      omega
    have hdt : 0 < T / steps := by positivity
    have hn : (((steps - (m + 1) + 1 : ℕ) : ℝ)) = ((steps - m : ℕ) : ℝ) := by
      congr 1; omega
    have hp : (0 : ℝ) < ((steps - m : ℕ) : ℝ) := by
      have : 0 < steps - m := by omega
      exact_mod_cast this
    have hk : ((steps - m : ℕ) : ℝ) = ((steps - (m + 1) : ℕ) : ℝ) + 1 := by rw [← hn]; push_cast; ring
    rw [bridgePrice, bridge_log v hS, ih (by omega), bridgeCoef, lin_lin, lin_unit hidx, hn]
    have e1 : ((steps - (m + 1) : ℕ) : ℝ) * (T / steps) / (((steps - m : ℕ) : ℝ) * (T / steps)) =
        ((steps - (m + 1) : ℕ) : ℝ) / ((steps - m : ℕ) : ℝ) := by
      rw [mul_div_mul_right _ _ hdt.ne']
    have e2 : ((steps - (m + 1) : ℕ) : ℝ) * (T / steps) * (((steps - m : ℕ) : ℝ) * (T / steps) -
        ((steps - (m + 1) : ℕ) : ℝ) * (T / steps)) / (((steps - m : ℕ) : ℝ) * (T / steps)) =
        ((steps - (m + 1) : ℕ) : ℝ) * (T / steps) / ((steps - m : ℕ) : ℝ) := by
      rw [hk]
      rw [hk] at hp
      field_simp
      ring
    rw [e1, e2]
    field_simp
    ring


/-- The prices the Brownian bridge method simulates are `N` independent GBM paths. -/
theorem gbmPaths_bridge (h : IidNormal P Z) (v : View ℝ) (hS : 0 < v.price) {T : ℝ} (hT : 0 < T)
    (steps N s : ℕ) (hs : 0 < steps) :
    GbmPaths P v (T / steps) N steps fun i j => bridgePrice v T steps N Z s i (steps - j) := by
  have hs' : (0 : ℝ) < steps := by exact_mod_cast hs
  have hdt : 0 ≤ T / steps := by positivity
  let M := s + N * steps + steps * N
  let C : ℕ → ℕ → ℕ → ℝ := fun i j => if j = 0 then 0 else bridgeCoef (T / steps) steps N s i (steps - j)
  have hg : ∀ i < N, ∀ j ≤ steps, ∀ k ≤ steps, ip M (C i j) (C i k) = (min j k : ℕ) * (T / steps) := by
    intro i hi j hj k hk
    simp only [C]
    rcases Nat.eq_zero_or_pos j with rfl | hj0
    · simp [ip]
    rcases Nat.eq_zero_or_pos k with rfl | hk0
    · simp [ip]
    rw [if_neg (by omega), if_neg (by omega)]
    rcases le_total j k with h1 | h1
    · rw [bridgeCoef_ip _ _ _ _ hdt hi le_rfl (by omega) (by omega), min_eq_left h1,
        Nat.sub_sub_self hj]
    · rw [ip_comm, bridgeCoef_ip _ _ _ _ hdt hi le_rfl (by omega) (by omega), min_eq_right h1,
        Nat.sub_sub_self hk]
  have hz : ∀ i < N, ∀ i' < N, i ≠ i' → ∀ j ≤ steps, ∀ k ≤ steps, ip M (C i j) (C i' k) = 0 := by
    intro i hi i' hi' hne j hj k hk
    simp only [C]
    rcases Nat.eq_zero_or_pos j with rfl | hj0
    · simp [ip]
    rcases Nat.eq_zero_or_pos k with rfl | hk0
    · simp [ip]
    rw [if_neg (by omega), if_neg (by omega)]
    exact bridgeCoef_ip_ne _ _ _ _ hi hi' hne le_rfl (by omega) (by omega)
  refine gbmPaths_of_lin h v hdt (fun i _ j _ _ ω => bridgePrice_pos v hS T steps N s i _ ω) M
    (fun i j => C i (j + 1) - C i j) ?_ ?_
  · intro i hi j hj ω
    have hl := fun m hm => bridgePrice_log v hS hT steps N s i hs hi (le_refl M) ω (Z := Z) m hm
    rw [lin_sub]
    simp only [logReturn, C, if_neg (Nat.succ_ne_zero j)]
    have h1 := hl (steps - (j + 1)) (by omega)
    rw [Nat.sub_sub_self (by omega)] at h1
    rcases Nat.eq_zero_or_pos j with rfl | hj0
    · rw [if_pos rfl, if_pos rfl, h1, lin_zero]
      push_cast
      ring
    · have h2 := hl (steps - j) (by omega)
      rw [Nat.sub_sub_self (by omega)] at h2
      rw [if_neg (by omega), if_neg (by omega)]
      have p1 := bridgePrice_pos v hS T steps N s i (steps - (j + 1)) (Z := Z) ω
      have p2 := bridgePrice_pos v hS T steps N s i (steps - j) (Z := Z) ω
      rw [Real.log_div p1.ne' hS.ne'] at h1
      rw [Real.log_div p2.ne' hS.ne'] at h2
      rw [Real.log_div p1.ne' p2.ne']
      push_cast at h1
      linear_combination h1 - h2
  · intro i hi j hj i' hi' j' hj'
    rw [ip_sub_left, ip_sub_right, ip_sub_right]
    by_cases hii : i = i'
    · subst hii
      rw [hg i hi _ (by omega) _ (by omega), hg i hi _ (by omega) _ (by omega),
        hg i hi _ (by omega) _ (by omega), hg i hi _ (by omega) _ (by omega)]
      by_cases hjj : j = j'
      · subst hjj
        rw [if_pos ⟨rfl, rfl⟩, min_self, min_self, min_eq_right (Nat.le_succ j), min_eq_left (Nat.le_succ j)]
        push_cast
        ring
      · rw [if_neg (fun h => hjj h.2)]
        rcases lt_or_gt_of_ne hjj with hlt | hlt
        · rw [min_eq_left (by omega), min_eq_left (by omega), min_eq_left (by omega), min_eq_left (by omega)]
          ring
        · rw [min_eq_right (by omega), min_eq_right (by omega), min_eq_right (by omega), min_eq_right (by omega)]
          ring
    · rw [if_neg (fun h => hii h.1), hz i hi i' hi' hii _ (by omega) _ (by omega),
        hz i hi i' hi' hii _ (by omega) _ (by omega), hz i hi i' hi' hii _ (by omega) _ (by omega),
        hz i hi i' hi' hii _ (by omega) _ (by omega)]
      simp

/-- So are those of the standard method. -/
theorem gbmPaths_forward (h : IidNormal P Z) (v : View ℝ) (hS : 0 < v.price) {T : ℝ} (hT : 0 < T)
    (steps N s : ℕ) (hs : 0 < steps) :
    GbmPaths P v (T / steps) N steps fun i j => gbmPrice v T steps Z (s + i * steps) (j - 1) := by
  have hs' : (0 : ℝ) < steps := by exact_mod_cast hs
  have hdt : 0 ≤ T / steps := by positivity
  have hpos : ∀ i j ω, 0 < gbmPrice v T steps Z i j ω := by
    intro i j ω; simp only [gbmPrice]; positivity
  have hlt : ∀ i j, i < N → j < steps → s + i * steps + j < s + N * steps := by
    intro i j hi hj
    have : (i + 1) * steps ≤ N * steps := Nat.mul_le_mul_right _ hi
    have h3 : (i + 1) * steps = i * steps + steps := by ring
    omega
  refine gbmPaths_of_lin h v hdt (fun i _ j _ _ ω => hpos _ _ ω) (s + N * steps)
    (fun i j p => Real.sqrt (T / steps) * unit (s + i * steps + j) p) ?_ ?_
  · intro i hi j hj ω
    rw [lin_const_mul, lin_unit (hlt i j hi hj)]
    simp only [logReturn, Nat.add_sub_cancel]
    rcases Nat.eq_zero_or_pos j with rfl | hj0
    · rw [if_pos rfl, gbmPrice, mul_div_cancel_left₀ _ hS.ne', Real.log_exp, drawSum_succ, drawSum_zero]
      push_cast
      ring
    · rw [if_neg (by omega), Real.log_div (hpos _ _ _).ne' (hpos _ _ _).ne']
      simp only [gbmPrice]
      rw [Real.log_mul hS.ne' (Real.exp_ne_zero _), Real.log_mul hS.ne' (Real.exp_ne_zero _),
        Real.log_exp, Real.log_exp, Nat.sub_add_cancel hj0, drawSum_succ, Nat.cast_sub hj0]
      push_cast
      ring
  · intro i hi j hj i' hi' j' hj'
    have e : ∀ (k : ℕ), (fun p => Real.sqrt (T / steps) * unit k p) = fun p => Real.sqrt (T / steps) * unit k p + 0 * (0 : ℕ → ℝ) p := by
      intro k; funext p; simp
    rw [e, ip_lin_left, ip_unit_left (hlt i j hi hj)]
    simp only [unit, zero_mul, add_zero]
    by_cases hij : i = i' ∧ j = j'
    · obtain ⟨rfl, rfl⟩ := hij
      rw [if_pos rfl, if_pos ⟨rfl, rfl⟩, mul_one, Real.mul_self_sqrt hdt]
    · rw [if_neg hij, if_neg, mul_zero, mul_zero]
      intro he
      apply hij
      have h1 : i * steps + j = i' * steps + j' := by omega
      have h2 : i = i' := by
        have := congrArg (· / steps) h1
        simp only [Nat.mul_comm _ steps] at this
        rw [Nat.mul_add_div hs, Nat.mul_add_div hs, Nat.div_eq_of_lt hj, Nat.div_eq_of_lt hj'] at this
        simpa using this
      subst h2
      exact ⟨rfl, by omega⟩

/-- **C39.** The paths the American pricer works on, with the Brownian bridge as with the standard
method, are `N` independent paths of the risk neutral GBM at the exercise dates. -/
theorem C39_paths (h : IidNormal P Z) (v : View ℝ) (hS : 0 < v.price) {T : ℝ} (hT : 0 < T)
    {steps : ℕ} (hs : 0 < steps) (hm : steps ≤ INT_MAX) (N s : ℕ) (bridge : Bool) :
    ∃ X : ℕ → ℕ → Ω → ℝ,
      (∀ ω, Simulated bridge (modelSource (scriptGen fun j => Z j ω) steps v .gbm) T N
        (fun i j => X i j ω) s (s + N * steps + if bridge then (steps - 1) * N else 0)) ∧
      GbmPaths P v (T / steps) N steps X := by
  cases bridge with
  | true =>
    refine ⟨fun i j => bridgePrice v T steps N Z s i (steps - j), fun ω => ?_, gbmPaths_bridge h v hS hT steps N s hs⟩
    simp only [Simulated, if_true]
    refine ⟨fun j => s + N * steps + (steps - j) * N, ?_, rfl, ?_⟩
    · have := maturity_draws v T hs hm Z ω N s
      simpa [modelSource, bridgePrice] using this
    · intro j h1 h2
      have h2' : j < steps := h2
      have key : ∀ (n a i0 : ℕ), a = s + N * steps + (steps - (j + 1)) * N + i0 → Chained
          (fun x => Sim.backward (scriptGen fun j => Z j ω) v x ((j : ℝ) * (T / steps))
            (((j + 1 : ℕ) : ℝ) * (T / steps)) .gbm) a
          ((List.range n).map fun i => bridgePrice v T steps N Z s (i0 + i) (steps - (j + 1)) ω)
          ((List.range n).map fun i => bridgePrice v T steps N Z s (i0 + i) (steps - j) ω) (a + n) := by
        intro n
        induction n with
        | zero => intro a i0 _; exact .nil a
        | succ n ih =>
          intro a i0 ha
          rw [List.range_succ_eq_map, List.map_cons, List.map_cons, List.map_map, List.map_map]
          refine .cons (s₁ := a + 1) ?_ ?_
          · rw [backward_script]
            have e : steps - j = steps - (j + 1) + 1 := by omega
            have e2 : steps - (steps - (j + 1) + 1) = j := by omega
            rw [e, bridgePrice, e2, ha]
            rfl
          · have := ih (a + 1) (i0 + 1) (by omega)
            rw [show a + (n + 1) = a + 1 + n by omega]
            convert this using 2
            · funext i; simp only [Function.comp]; congr 1; omega
            · funext i; simp only [Function.comp]; congr 1; omega
      have := key N (s + N * steps + (steps - (j + 1)) * N) 0 rfl
      have e3 : s + N * steps + (steps - (j + 1)) * N + N = s + N * steps + (steps - j) * N := by
        have : steps - j = steps - (j + 1) + 1 := by omega
        rw [this]; ring
      rw [e3] at this
      simpa [modelSource] using this
  | false =>
    let paths : Ω → List (List ℝ) := fun ω => (List.range N).map fun i =>
      (List.range steps).map fun k => gbmPrice v T steps Z (s + i * steps) k ω
    refine ⟨fun i j ω => priceAt (paths ω) i j, fun ω => ?_, ?_⟩
    · simp only [Simulated, if_false, Bool.false_eq_true]
      refine ⟨paths ω, ?_, by simp [paths], by simp [paths, modelSource], rfl⟩
      have key : ∀ (n a : ℕ), Draws (Sim.prices (scriptGen fun j => Z j ω) steps v T .gbm) a
          ((List.range n).map fun i => (List.range steps).map fun k =>
            gbmPrice v T steps Z (a + i * steps) k ω) (a + n * steps) := by
        intro n
        induction n with
        | zero => intro a; simpa using Draws.nil a
        | succ n ih =>
          intro a
          rw [List.range_succ_eq_map, List.map_cons, List.map_map]
          refine .cons (s₁ := a + steps) (by simpa using prices_gbmPrice v T hm Z a ω) ?_
          have := ih (a + steps)
          rw [show a + (n + 1) * steps = a + steps + n * steps by ring]
          convert this using 2
          funext i
          simp only [Function.comp, Nat.succ_eq_add_one]
          refine List.map_congr_left fun k _ => ?_
          congr 1
          ring
      exact key N s
    · have h1 := gbmPaths_forward h v hS hT steps N s hs
      have e : ∀ i < N, ∀ j, 1 ≤ j → j ≤ steps → ∀ ω, priceAt (paths ω) i j =
          gbmPrice v T steps Z (s + i * steps) (j - 1) ω := by
        intro i hi j hj hj' ω
        have hj2 : j - 1 < steps := by omega
        simp [priceAt, paths, List.getD, hi, hj2]
      have e2 : ∀ i < N, ∀ j < steps, logReturn v (fun i j ω => priceAt (paths ω) i j) i j =
          logReturn v (fun i j => gbmPrice v T steps Z (s + i * steps) (j - 1)) i j := by
        intro i hi j hj
        funext ω
        simp only [logReturn]
        rw [e i hi (j + 1) (by omega) (by omega)]
        split_ifs with h0
        · rfl
        · rw [e i hi j (by omega) (by omega)]
      refine ⟨fun i hi j hj hj' ω => ?_, fun i hi j hj => ?_, ?_⟩
      · rw [e i hi j hj hj']; exact h1.pos i hi j hj hj' ω
      · rw [e2 i hi j hj]; exact h1.law i hi j hj
      · have : (fun a : Fin N × Fin steps => logReturn v (fun i j ω => priceAt (paths ω) i j) a.1 a.2) =
            fun a : Fin N × Fin steps => logReturn v (fun i j => gbmPrice v T steps Z (s + i * steps) (j - 1)) a.1 a.2 := by
          funext a
          exact e2 a.1 a.1.2 a.2 a.2.2
        rw [this]
        exact h1.indep

/-- A path is determined by its log-returns. -/
theorem GbmPaths.price_eq {v : View ℝ} (hS : 0 < v.price) {dt : ℝ} {N steps : ℕ} {X : ℕ → ℕ → Ω → ℝ}
    (h : GbmPaths P v dt N steps X) {i : ℕ} (hi : i < N) (ω : Ω) : ∀ j < steps,
    X i (j + 1) ω = v.price * Real.exp (∑ k ∈ Finset.range (j + 1), logReturn v X i k ω) := by
  intro j
  induction j with
  | zero =>
    intro hj
    have := h.pos i hi 1 le_rfl (by omega) ω
    rw [Finset.sum_range_one, logReturn, if_pos rfl, Real.exp_log (div_pos this hS),
      mul_div_cancel₀ _ hS.ne']
  | succ j ih =>
    intro hj
    have p1 := h.pos i hi (j + 1) (by omega) (by omega) ω
    have p2 := h.pos i hi (j + 2) (by omega) (by omega) ω
    rw [Finset.sum_range_succ, Real.exp_add, ← mul_assoc, ← ih (by omega), logReturn,
      if_neg (Nat.succ_ne_zero j), Real.exp_log (div_pos p2 p1), mul_div_cancel₀ _ p1.ne']

/-- **C39.** `GbmPaths` determines the joint law of all prices: the matrix of prices the American pricer
works on has the same law with the Brownian bridge as with the standard method. -/
theorem C39_sameLaw {Ω' : Type} [MeasurableSpace Ω'] {P' : Measure Ω'} [IsProbabilityMeasure P']
    {v : View ℝ} (hS : 0 < v.price) {dt : ℝ} {N steps : ℕ} {X : ℕ → ℕ → Ω → ℝ} {Y : ℕ → ℕ → Ω' → ℝ}
    (hX : GbmPaths P v dt N steps X) (hY : GbmPaths P' v dt N steps Y) :
    P.map (fun ω (a : Fin N × Fin steps) => X a.1 (a.2 + 1) ω) =
      P'.map (fun ω (a : Fin N × Fin steps) => Y a.1 (a.2 + 1) ω) := by
  let f : (Fin N × Fin steps → ℝ) → Fin N × Fin steps → ℝ := fun l a =>
    v.price * Real.exp (∑ k : Fin (a.2 + 1), l (a.1, ⟨k, by omega⟩))
  have hf : Measurable f := by
    refine measurable_pi_lambda _ fun a => ?_
    fun_prop
  have key : ∀ {Ω : Type} [MeasurableSpace Ω] {P : Measure Ω} [IsProbabilityMeasure P]
      {X : ℕ → ℕ → Ω → ℝ}, GbmPaths P v dt N steps X →
      P.map (fun ω (a : Fin N × Fin steps) => X a.1 (a.2 + 1) ω) =
        (Measure.pi fun _ : Fin N × Fin steps => gaussianReal
          ((v.r - v.coupon.getD 0 - v.sigma ^ 2 / 2) * dt) (Real.toNNReal (v.sigma ^ 2 * dt))).map f := by
    intro Ω _ P _ X h
    have hm : ∀ a : Fin N × Fin steps, AEMeasurable (logReturn v X a.1 a.2) P := by
      intro a
      by_contra hn
      have h1 := h.law a.1 a.1.2 a.2 a.2.2
      rw [Measure.map_of_not_aemeasurable hn] at h1
      exact (IsProbabilityMeasure.ne_zero (gaussianReal
          ((v.r - v.coupon.getD 0 - v.sigma ^ 2 / 2) * dt) (Real.toNNReal (v.sigma ^ 2 * dt)))) h1.symm
    have e : (fun ω (a : Fin N × Fin steps) => X a.1 (a.2 + 1) ω) =
        f ∘ fun ω (a : Fin N × Fin steps) => logReturn v X a.1 a.2 ω := by
      funext ω a
      simp only [f, Function.comp]
      rw [GbmPaths.price_eq hS h a.1.2 ω a.2 a.2.2, Finset.sum_range]
    have h2 := (iIndepFun_iff_map_fun_eq_pi_map hm).mp h.indep
    rw [e, ← AEMeasurable.map_map_of_aemeasurable hf.aemeasurable (aemeasurable_pi_lambda _ hm), h2]
    congr 2
    funext a
    exact h.law a.1 a.1.2 a.2 a.2.2
  rw [key hX, key hY]

/-- Ten paths with four exercise dates: the prices of the Brownian bridge and of the standard method
have the same law. -/
example : ∃ (Ω : Type) (_ : MeasurableSpace Ω) (P : Measure Ω) (Z : ℕ → Ω → ℝ) (X Y : ℕ → ℕ → Ω → ℝ),
    (∀ ω, SimulatedBackward (modelSource (scriptGen fun j => Z j ω) 4 exampleView .gbm) 1 10
      (fun i j => X i j ω) 0 70) ∧
    (∀ ω, SimulatedForward (modelSource (scriptGen fun j => Z j ω) 4 exampleView .gbm) 1 10
      (fun i j => Y i j ω) 0 40) ∧
    P.map (fun ω (a : Fin 10 × Fin 4) => X a.1 (a.2 + 1) ω) =
      P.map (fun ω (a : Fin 10 × Fin 4) => Y a.1 (a.2 + 1) ω) := by
  obtain ⟨Ω, mΩ, P, Z, hP, h⟩ := exists_iidNormal
  obtain ⟨X, h1, h2⟩ := C39_paths h exampleView (by norm_num [exampleView]) (T := 1) one_pos
    (steps := 4) (by norm_num) (by decide) 10 0 true
  obtain ⟨Y, h3, h4⟩ := C39_paths h exampleView (by norm_num [exampleView]) (T := 1) one_pos
    (steps := 4) (by norm_num) (by decide) 10 0 false
  exact ⟨Ω, mΩ, P, Z, X, Y, h1, h3, C39_sameLaw (by norm_num [exampleView]) h2 h4⟩

end Verif
