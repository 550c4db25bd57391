import Verif.Lemmas.Normal
import Verif.Props.StockModels
import Verif.Props.MonteCarlo
import Mathlib.Probability.ConditionalExpectation
import Mathlib.Probability.CDF
import Mathlib.Probability.HasLawExists
import Mathlib.Probability.Moments.Variance
import Mathlib.MeasureTheory.Function.ConditionalExpectation.PullOut

/-!
# Property C34: the simulated GBM is risk neutral
-/

set_option linter.unusedSectionVars false

namespace Verif
open MeasureTheory ProbabilityTheory Spec

variable {Ω : Type} [MeasurableSpace Ω] {P : Measure Ω} [IsProbabilityMeasure P] {Z : ℕ → Ω → ℝ}

/-- Price number `k` of the path simulated from the draws `Z i, Z (i+1), ...`. -/
noncomputable def gbmPrice (v : View ℝ) (T : ℝ) (steps : ℕ) (Z : ℕ → Ω → ℝ) (i k : ℕ) (ω : Ω) : ℝ :=
  v.price * Real.exp ((v.r - v.coupon.getD 0 - v.sigma ^ 2 / 2) * ((k + 1) * (T / steps)) +
    v.sigma * Real.sqrt (T / steps) * drawSum Z i (k + 1) ω)

theorem prices_gbmPrice (v : View ℝ) (T : ℝ) {steps : ℕ} (hm : steps ≤ INT_MAX) (Z : ℕ → Ω → ℝ) (i : ℕ)
    (ω : Ω) :
    Sim.prices (scriptGen fun j => Z j ω) steps v T .gbm i =
      (.ok ((List.range steps).map fun k => gbmPrice v T steps Z i k ω), i + steps) := by
  refine (C33_closedForm _ steps v T i (i + steps) _).mpr ⟨hm, _,
    scriptGen_draws (fun j => Z j ω) .stdNormal steps i, by simp, ?_⟩
  refine List.map_congr_left fun k hk => ?_
  rw [sum_take_range (fun j => Z j ω) i (by have := List.mem_range.mp hk; omega)]
  rfl

theorem integrable_gbmPrice (h : IidNormal P Z) (v : View ℝ) (T : ℝ) (steps i k : ℕ) :
    Integrable (gbmPrice v T steps Z i k) P := by
  have := ((h.integrable_exp i (k + 1) (v.sigma * Real.sqrt (T / steps))).const_mul
    (v.price * Real.exp ((v.r - v.coupon.getD 0 - v.sigma ^ 2 / 2) * ((k + 1) * (T / steps)))))
  refine this.congr (.of_forall fun ω => ?_)
  simp only [gbmPrice, Real.exp_add, mul_assoc]

theorem integral_gbmPrice (h : IidNormal P Z) (v : View ℝ) {T : ℝ} (hT : 0 ≤ T) (steps i k : ℕ) :
    ∫ ω, gbmPrice v T steps Z i k ω ∂P =
      v.price * Real.exp ((v.r - v.coupon.getD 0) * ((k + 1) * (T / steps))) := by
  have e : ∀ ω, gbmPrice v T steps Z i k ω = v.price * Real.exp ((v.r - v.coupon.getD 0 -
      v.sigma ^ 2 / 2) * ((k + 1) * (T / steps))) *
      Real.exp (v.sigma * Real.sqrt (T / steps) * drawSum Z i (k + 1) ω) := by
    intro ω; simp only [gbmPrice, Real.exp_add, mul_assoc]
  simp only [e]
  rw [integral_const_mul, h.integral_exp, mul_assoc, ← Real.exp_add]
  congr 2
  rw [mul_pow, Real.sq_sqrt (by positivity)]
  push_cast
  ring

/-- The discounted price, dividends reinvested, after `n` steps. -/
noncomputable def discountedGbm (v : View ℝ) (T : ℝ) (steps : ℕ) (Z : ℕ → Ω → ℝ) (i : ℕ) : ℕ → Ω → ℝ
  | 0, _ => v.price
  | n + 1, ω => Real.exp (-((v.r - v.coupon.getD 0) * ((n + 1) * (T / steps)))) *
      gbmPrice v T steps Z i n ω

theorem discountedGbm_eq (v : View ℝ) (T : ℝ) (steps : ℕ) (Z : ℕ → Ω → ℝ) (i n : ℕ) (ω : Ω) :
    discountedGbm v T steps Z i n ω = v.price * Real.exp (-(v.sigma ^ 2 / 2) * (n * (T / steps)) +
      v.sigma * Real.sqrt (T / steps) * drawSum Z i n ω) := by
  cases n with
  | zero => simp [discountedGbm, drawSum_zero]
  | succ n =>
    simp only [discountedGbm, gbmPrice]
    rw [mul_left_comm, ← Real.exp_add]
    congr 2
    push_cast
    ring

theorem measurable_drawSum_information (h : IidNormal P Z) (i n : ℕ) :
    Measurable[information Z h.measurable i n] (drawSum Z i n) := by
  refine Finset.measurable_sum _ fun j hj => ?_
  have : MeasurableSpace.comap (Z j) inferInstance ≤ information Z h.measurable i n :=
    le_iSup₂_of_le j (by simpa using hj) le_rfl
  exact (comap_measurable (Z j)).mono this le_rfl

theorem martingale_discountedGbm (h : IidNormal P Z) (v : View ℝ) {T : ℝ} (hT : 0 ≤ T) (steps i : ℕ) :
    Martingale (discountedGbm v T steps Z i) (information Z h.measurable i) P := by
  have hM : ∀ n, StronglyMeasurable[information Z h.measurable i n] (discountedGbm v T steps Z i n) := by
    intro n
    have hm := measurable_drawSum_information h i n
    have : discountedGbm v T steps Z i n = fun ω => v.price * Real.exp (-(v.sigma ^ 2 / 2) *
        (n * (T / steps)) + v.sigma * Real.sqrt (T / steps) * drawSum Z i n ω) :=
      funext (discountedGbm_eq v T steps Z i n)
    rw [this]
    refine Measurable.stronglyMeasurable ?_
    exact ((hm.const_mul _).const_add _).exp.const_mul _
  have hI : ∀ n, Integrable (discountedGbm v T steps Z i n) P := by
    intro n
    cases n with
    | zero => exact integrable_const _
    | succ n => exact (integrable_gbmPrice h v T steps i n).const_mul _
  refine martingale_nat hM hI fun n => ?_
  let Y : Ω → ℝ := fun ω => Real.exp (-(v.sigma ^ 2 / 2) * (T / steps) +
    v.sigma * Real.sqrt (T / steps) * Z (i + n) ω)
  have hY : discountedGbm v T steps Z i (n + 1) = discountedGbm v T steps Z i n * Y := by
    funext ω
    simp only [Pi.mul_apply, discountedGbm_eq, Y, drawSum_succ]
    rw [mul_assoc v.price, ← Real.exp_add]
    congr 2
    push_cast
    ring
  have e1 : drawSum Z (i + n) 1 = Z (i + n) := by
    funext ω; simp [drawSum]
  have hYi : Integrable Y P := by
    have := (h.integrable_exp (i + n) 1 (v.sigma * Real.sqrt (T / steps))).const_mul
      (Real.exp (-(v.sigma ^ 2 / 2) * (T / steps)))
    refine this.congr (.of_forall fun ω => ?_)
    simp only [Y, Real.exp_add, e1]
  have hYe : ∫ ω, Y ω ∂P = 1 := by
    have e : ∀ ω, Y ω = Real.exp (-(v.sigma ^ 2 / 2) * (T / steps)) *
        Real.exp (v.sigma * Real.sqrt (T / steps) * drawSum Z (i + n) 1 ω) := by
      intro ω; simp only [Y, Real.exp_add, e1]
    simp only [e]
    rw [integral_const_mul, h.integral_exp, ← Real.exp_add, mul_pow, Real.sq_sqrt (by positivity)]
    rw [Real.exp_eq_one_iff]
    push_cast
    ring
  rw [hY]
  have hc := condExp_mul_of_stronglyMeasurable_left (hM n) (hY ▸ hI (n + 1)) hYi
  have hind : P[Y | information Z h.measurable i n] =ᵐ[P] fun _ => ∫ ω, Y ω ∂P := by
    refine condExp_indep_eq (m₁ := MeasurableSpace.comap (Z (i + n)) inferInstance)
      (h.measurable _).comap_le ((information Z h.measurable i).le n) ?_ ?_
    · refine Measurable.stronglyMeasurable ?_
      exact (((comap_measurable (Z (i + n))).const_mul _).const_add _).exp
    · have := indep_iSup_of_disjoint (fun k => (h.measurable k).comap_le) h.indep
        (S := {i + n}) (T := Set.Ico i (i + n)) (by simp)
      rw [iSup_singleton] at this
      exact this
  filter_upwards [hc, hind] with ω h1 h2
  rw [h1, Pi.mul_apply, h2, hYe, mul_one]

/-- **C34.** With independent standard normal draws: what `simulatePrices` returns in the state `i`
(the number of draws so far) are random variables `X 0, ..., X (steps - 1)` such that
* the log-return up to date `t = (k+1) T/steps` is normal with mean `(r - c - sigma²/2) t` and variance
  `sigma² t`;
* the expected price is `S0 exp((r - c) t)`;
* the discounted price with reinvested dividends is a martingale from `S0` on. -/
theorem C34_riskNeutral (h : IidNormal P Z) (v : View ℝ) (hS : v.price ≠ 0) {T : ℝ} (hT : 0 ≤ T)
    {steps : ℕ} (hm : steps ≤ INT_MAX) (i : ℕ) :
    ∃ X : ℕ → Ω → ℝ,
      (∀ ω, Sim.prices (scriptGen fun j => Z j ω) steps v T .gbm i =
        (.ok ((List.range steps).map fun k => X k ω), i + steps)) ∧
      (∀ k, P.map (fun ω => Real.log (X k ω / v.price)) =
        gaussianReal ((v.r - v.coupon.getD 0 - v.sigma ^ 2 / 2) * ((k + 1) * (T / steps)))
          (Real.toNNReal (v.sigma ^ 2 * ((k + 1) * (T / steps))))) ∧
      (∀ k, Integrable (X k) P ∧
        ∫ ω, X k ω ∂P = v.price * Real.exp ((v.r - v.coupon.getD 0) * ((k + 1) * (T / steps)))) ∧
      ∃ M : ℕ → Ω → ℝ, (∀ ω, M 0 ω = v.price) ∧
        (∀ k ω, M (k + 1) ω = Real.exp (v.coupon.getD 0 * ((k + 1) * (T / steps))) *
          (Real.exp (-(v.r * ((k + 1) * (T / steps)))) * X k ω)) ∧
        Martingale M (information Z h.measurable i) P := by
  refine ⟨gbmPrice v T steps Z i, prices_gbmPrice v T hm Z i, fun k => ?_,
    fun k => ⟨integrable_gbmPrice h v T steps i k, integral_gbmPrice h v hT steps i k⟩,
    discountedGbm v T steps Z i, fun ω => rfl, fun k ω => ?_, martingale_discountedGbm h v hT steps i⟩
  · have e : (fun ω => Real.log (gbmPrice v T steps Z i k ω / v.price)) = fun ω =>
        (v.r - v.coupon.getD 0 - v.sigma ^ 2 / 2) * ((k + 1) * (T / steps)) +
          v.sigma * Real.sqrt (T / steps) * drawSum Z i (k + 1) ω := by
      funext ω
      rw [gbmPrice, mul_div_cancel_left₀ _ hS, Real.log_exp]
    have h1 : HasLaw (drawSum Z i (k + 1)) (gaussianReal 0 ((k + 1 : ℕ) : NNReal)) P :=
      ⟨(h.measurable_drawSum i (k + 1)).aemeasurable, h.map_drawSum i (k + 1)⟩
    have h2 := gaussianReal_const_add (gaussianReal_const_mul h1 (v.sigma * Real.sqrt (T / steps)))
      ((v.r - v.coupon.getD 0 - v.sigma ^ 2 / 2) * ((k + 1) * (T / steps)))
    rw [e, h2.map_eq]
    congr 1
    · ring
    · ext
      simp only [NNReal.coe_mul, NNReal.coe_mk]
      rw [Real.coe_toNNReal _ (by positivity), mul_pow, Real.sq_sqrt (by positivity)]
      push_cast
      ring
  · simp only [discountedGbm]
    rw [← mul_assoc (Real.exp _) (Real.exp _), ← Real.exp_add]
    congr 2
    ring

/-- Such draws exist. -/
theorem exists_iidNormal : ∃ (Ω : Type) (_ : MeasurableSpace Ω) (P : Measure Ω) (Z : ℕ → Ω → ℝ),
    IsProbabilityMeasure P ∧ IidNormal P Z := by
  obtain ⟨Ω, mΩ, P, X, h1, h2, h3, h4⟩ := exists_iid ℕ (gaussianReal 0 1)
  exact ⟨Ω, mΩ, P, X, h4, h1, fun i => (h2 i).map_eq, h3⟩

/-- A market: price 100, rate 5%, volatility 20%, coupon 1%. -/
noncomputable def exampleView : View ℝ := { price := 100, sigma := 1/5, r := 1/20, coupon := some (1/100) }

/-- Twelve steps over two years: the expected price after the sixth step is `100 exp(0.04 · 1)`. -/
example : ∃ (Ω : Type) (_ : MeasurableSpace Ω) (P : Measure Ω) (Z : ℕ → Ω → ℝ) (X : ℕ → Ω → ℝ),
    (∀ ω, Sim.prices (scriptGen fun j => Z j ω) 12 exampleView 2 .gbm 7 =
        (.ok ((List.range 12).map fun k => X k ω), 19)) ∧
      ∫ ω, X 5 ω ∂P = 100 * Real.exp (1/25) := by
  obtain ⟨Ω, mΩ, P, Z, hP, h⟩ := exists_iidNormal
  obtain ⟨X, h1, -, h3, -⟩ := C34_riskNeutral h exampleView (by norm_num [exampleView]) (T := 2)
    (by norm_num) (steps := 12) (by decide) 7
  refine ⟨Ω, mΩ, P, Z, X, h1, (h3 5).2.trans ?_⟩
  norm_num [exampleView]

/-! ## The Monte Carlo estimator -/

/-- The price source of a model with its generator, market data fixed. -/
noncomputable def modelSource {G : Type} (g : Gen G ℝ) (steps : ℕ) (v : View ℝ) (k : ModelKind ℝ) : PathSource G ℝ where
  steps := steps
  simulatePrices T := Sim.prices g steps v T k
  simulatePriceAtMaturity T := Sim.maturity g steps v T k
  simulatePriceBackward S t t' := Sim.backward g v S t t' k

theorem maturity_gbmPrice (v : View ℝ) (T : ℝ) {steps : ℕ} (hs : 0 < steps) (hm : steps ≤ INT_MAX)
    (Z : ℕ → Ω → ℝ) (i : ℕ) (ω : Ω) :
    Sim.maturity (scriptGen fun j => Z j ω) steps v T .gbm i =
      (.ok (gbmPrice v T steps Z i (steps - 1) ω), i + steps) := by
  obtain ⟨h, e⟩ := (C32_maturity (scriptGen fun j => Z j ω) steps hs v T .gbm i).1 _ _
    (prices_gbmPrice v T hm Z i ω)
  rw [e]
  congr 2
  rw [List.getLast_eq_getElem]
  simp

theorem maturity_draws (v : View ℝ) (T : ℝ) {steps : ℕ} (hs : 0 < steps) (hm : steps ≤ INT_MAX)
    (Z : ℕ → Ω → ℝ) (ω : Ω) : ∀ (N i : ℕ),
    Draws (Sim.maturity (scriptGen fun j => Z j ω) steps v T .gbm) i
      ((List.range N).map fun n => gbmPrice v T steps Z (i + n * steps) (steps - 1) ω) (i + N * steps)
  | 0, i => by simpa using Draws.nil i
  | N + 1, i => by
    rw [List.range_succ_eq_map, List.map_cons, List.map_map]
    refine .cons (s₁ := i + steps) (by simpa using maturity_gbmPrice v T hs hm Z i ω) ?_
    have := maturity_draws v T hs hm Z ω N (i + steps)
    rw [show i + (N + 1) * steps = i + steps + N * steps by ring]
    convert this using 2
    funext n
    simp only [Function.comp, Nat.succ_eq_add_one]
    congr 1
    ring

/-- The price at maturity in the Black-Scholes model as a function of a standard normal number. -/
noncomputable def blackScholesPrice (v : View ℝ) (T z : ℝ) : ℝ :=
  v.price * Real.exp ((v.r - v.coupon.getD 0 - v.sigma ^ 2 / 2) * T + v.sigma * Real.sqrt T * z)

theorem measurable_blackScholesPrice (v : View ℝ) (T : ℝ) : Measurable (blackScholesPrice v T) := by
  unfold blackScholesPrice; fun_prop

theorem measurable_gbmPrice (h : IidNormal P Z) (v : View ℝ) (T : ℝ) (steps i k : ℕ) :
    Measurable (gbmPrice v T steps Z i k) := by
  have := h.measurable_drawSum i (k + 1)
  unfold gbmPrice
  fun_prop

/-- The law of the simulated price at maturity does not depend on the number of steps. -/
theorem map_gbmPrice_last (h : IidNormal P Z) (v : View ℝ) {T : ℝ} (hT : 0 ≤ T) {steps : ℕ}
    (hs : 0 < steps) (i : ℕ) :
    P.map (gbmPrice v T steps Z i (steps - 1)) = (gaussianReal 0 1).map (blackScholesPrice v T) := by
  have hn : ((steps - 1 : ℕ) : ℝ) + 1 = steps := by
    rw [Nat.cast_sub hs]; push_cast; ring
  have hs' : (0 : ℝ) < steps := by exact_mod_cast hs
  let q : ℝ → ℝ := fun x => v.price * Real.exp ((v.r - v.coupon.getD 0 - v.sigma ^ 2 / 2) * T + v.sigma * x)
  have hq : Measurable q := by unfold q; fun_prop
  have h1 : HasLaw (drawSum Z i steps) (gaussianReal 0 (steps : NNReal)) P :=
    ⟨(h.measurable_drawSum i steps).aemeasurable, h.map_drawSum i steps⟩
  have h2 := gaussianReal_const_mul h1 (Real.sqrt (T / steps))
  have h3 : HasLaw id (gaussianReal 0 1) (gaussianReal 0 1) := .id
  have h4 := gaussianReal_const_mul h3 (Real.sqrt T)
  have e1 : gbmPrice v T steps Z i (steps - 1) = q ∘ fun ω => Real.sqrt (T / steps) * drawSum Z i steps ω := by
    funext ω
    simp only [gbmPrice, q, Function.comp, hn]
    rw [Nat.sub_add_cancel hs, mul_div_cancel₀ _ hs'.ne', mul_assoc]
  have e2 : blackScholesPrice v T = q ∘ fun z => Real.sqrt T * id z := by
    funext z
    simp only [blackScholesPrice, q, Function.comp, id, mul_assoc]
  rw [e1, e2, ← Measure.map_map hq ((h.measurable_drawSum i steps).const_mul _),
    ← Measure.map_map hq (measurable_id.const_mul _), h2.map_eq, h4.map_eq]
  congr 2
  · simp
  · ext
    simp only [NNReal.coe_mul, NNReal.coe_mk, NNReal.coe_natCast, NNReal.coe_one]
    rw [Real.sq_sqrt (by positivity), Real.sq_sqrt hT]
    field_simp

/-- The random variable the single path pricer returns. -/
noncomputable def mcEstimate (f : ℝ → ℝ) (v : View ℝ) (T : ℝ) (steps : ℕ) (Z : ℕ → Ω → ℝ) (N i : ℕ)
    (ω : Ω) : ℝ :=
  Real.exp (-(v.r * T)) *
    ((∑ n ∈ Finset.range N, f (gbmPrice v T steps Z (i + n * steps) (steps - 1) ω)) / N)

theorem singlePath_mcEstimate (v : View ℝ) (T : ℝ) {steps : ℕ} (hs : 0 < steps) (hm : steps ≤ INT_MAX)
    {f : ℝ → ℝ} {pay : ℝ → Res ℝ} (hpay : ∀ x, pay x = .ok (f x)) {N : ℕ} (hN : N ≤ INT_MAX) (i : ℕ)
    (ω : Ω) :
    MC.singlePath (modelSource (scriptGen fun j => Z j ω) steps v .gbm) (Eff.lift (.ok v.r)) pay T N i =
      (.ok (mcEstimate f v T steps Z N i ω), i + N * steps) := by
  have hd := maturity_draws v T hs hm Z ω N i
  have hv : Pays pay ((List.range N).map fun n => gbmPrice v T steps Z (i + n * steps) (steps - 1) ω)
      ((List.range N).map fun n => f (gbmPrice v T steps Z (i + n * steps) (steps - 1) ω)) := by
    unfold Pays
    rw [List.forall₂_map_left_iff, List.forall₂_map_right_iff]
    exact List.forall₂_same.mpr fun n _ => hpay _
  have := C23_singlePath_mean (modelSource (scriptGen fun j => Z j ω) steps v .gbm)
    (Eff.lift (.ok v.r)) pay (T := T) (r := v.r) (s := i) rfl hd (by simpa using hN) hv
  rw [List.length_map, List.length_range] at this
  rw [this, discountedMean, mcEstimate, List.length_map, List.length_range,
    ← List.sum_toFinset _ List.nodup_range, List.toFinset_range]

theorem integrable_payoff (h : IidNormal P Z) (v : View ℝ) {T : ℝ} (hT : 0 ≤ T) {steps : ℕ}
    (hs : 0 < steps) {f : ℝ → ℝ} (hf : Measurable f)
    (hi : Integrable (fun z => f (blackScholesPrice v T z)) (gaussianReal 0 1)) (i : ℕ) :
    Integrable (fun ω => f (gbmPrice v T steps Z i (steps - 1) ω)) P ∧
    ∫ ω, f (gbmPrice v T steps Z i (steps - 1) ω) ∂P =
      ∫ z, f (blackScholesPrice v T z) ∂gaussianReal 0 1 := by
  have e := map_gbmPrice_last h v hT hs i
  have m1 := measurable_gbmPrice h v T steps i (steps - 1)
  have m2 := measurable_blackScholesPrice v T
  constructor
  · have := (integrable_map_measure (hf.aestronglyMeasurable) m2.aemeasurable).mpr hi
    rw [← e] at this
    exact (integrable_map_measure hf.aestronglyMeasurable m1.aemeasurable).mp this
  · rw [← integral_map (f := f) m1.aemeasurable hf.aestronglyMeasurable, e,
      integral_map m2.aemeasurable hf.aestronglyMeasurable]

/-- **C34.** The Monte Carlo estimator is unbiased, for every payoff with finite expectation, every
number of paths and of steps: the expected value of what the single path pricer returns is the
discounted expectation of the payoff under the Black-Scholes law of the price at maturity. -/
theorem C34_unbiased (h : IidNormal P Z) (v : View ℝ) {T : ℝ} (hT : 0 ≤ T) {steps : ℕ} (hs : 0 < steps)
    (hm : steps ≤ INT_MAX) {f : ℝ → ℝ} (hf : Measurable f)
    (hi : Integrable (fun z => f (v.price * Real.exp ((v.r - v.coupon.getD 0 - v.sigma ^ 2 / 2) * T +
      v.sigma * Real.sqrt T * z))) (gaussianReal 0 1))
    {pay : ℝ → Res ℝ} (hpay : ∀ x, pay x = .ok (f x)) {N : ℕ} (hN0 : 0 < N) (hN : N ≤ INT_MAX) (i : ℕ) :
    ∃ Y : Ω → ℝ,
      (∀ ω, MC.singlePath (modelSource (scriptGen fun j => Z j ω) steps v .gbm) (Eff.lift (.ok v.r))
        pay T N i = (.ok (Y ω), i + N * steps)) ∧
      Integrable Y P ∧
      ∫ ω, Y ω ∂P = Real.exp (-(v.r * T)) * ∫ z, f (v.price * Real.exp
        ((v.r - v.coupon.getD 0 - v.sigma ^ 2 / 2) * T + v.sigma * Real.sqrt T * z)) ∂gaussianReal 0 1 := by
  refine ⟨mcEstimate f v T steps Z N i, singlePath_mcEstimate v T hs hm hpay hN i, ?_, ?_⟩
  · exact ((integrable_finsetSum _ fun n _ =>
      (integrable_payoff h v hT hs hf hi (i + n * steps)).1).div_const _).const_mul _
  · simp only [mcEstimate]
    rw [integral_const_mul, integral_div, integral_finsetSum _ fun n _ =>
      (integrable_payoff h v hT hs hf hi (i + n * steps)).1]
    rw [Finset.sum_congr rfl fun n _ => (integrable_payoff h v hT hs hf hi (i + n * steps)).2]
    have : (N : ℝ) ≠ 0 := by exact_mod_cast hN0.ne'
    simp only [Finset.sum_const, Finset.card_range, nsmul_eq_mul]
    rw [mul_div_cancel_left₀ _ this]
    rfl

theorem integral_exp_mul_std (b : ℝ) :
    Integrable (fun z => Real.exp (b * z)) (gaussianReal 0 1) ∧
    ∫ z, Real.exp (b * z) ∂gaussianReal 0 1 = Real.exp (b ^ 2 / 2) := by
  refine ⟨integrable_exp_mul_gaussianReal b, ?_⟩
  have := congrFun (mgf_id_gaussianReal (μ := 0) (v := 1)) b
  simpa [mgf] using this

theorem blackScholesPrice_eq (v : View ℝ) (T z : ℝ) : blackScholesPrice v T z =
    v.price * Real.exp ((v.r - v.coupon.getD 0 - v.sigma ^ 2 / 2) * T) *
      Real.exp (v.sigma * Real.sqrt T * z) := by
  rw [blackScholesPrice, Real.exp_add, ← mul_assoc]

theorem integral_blackScholesPrice (v : View ℝ) {T : ℝ} (hT : 0 ≤ T) :
    Integrable (blackScholesPrice v T) (gaussianReal 0 1) ∧
    ∫ z, blackScholesPrice v T z ∂gaussianReal 0 1 =
      v.price * Real.exp ((v.r - v.coupon.getD 0) * T) := by
  have h := integral_exp_mul_std (v.sigma * Real.sqrt T)
  constructor
  · refine (h.1.const_mul (v.price * Real.exp ((v.r - v.coupon.getD 0 - v.sigma ^ 2 / 2) * T))).congr
      (.of_forall fun z => (blackScholesPrice_eq v T z).symm)
  · simp only [blackScholesPrice_eq]
    rw [integral_const_mul, h.2, mul_assoc, ← Real.exp_add, mul_pow, Real.sq_sqrt hT]
    congr 2
    ring

/-- **C34.** The Monte Carlo forward is unbiased: a call with strike 0 has expected price
`S0 exp(-c T)`. -/
theorem C34_forward (h : IidNormal P Z) (v : View ℝ) (hS : 0 < v.price) {T : ℝ} (hT : 0 ≤ T)
    {steps : ℕ} (hs : 0 < steps) (hm : steps ≤ INT_MAX) {N : ℕ} (hN0 : 0 < N) (hN : N ≤ INT_MAX) (i : ℕ) :
    ∃ Y : Ω → ℝ,
      (∀ ω, MC.singlePath (modelSource (scriptGen fun j => Z j ω) steps v .gbm) (Eff.lift (.ok v.r))
        (Payoff.vanilla .call (0 : ℝ)).eval1 T N i = (.ok (Y ω), i + N * steps)) ∧
      ∫ ω, Y ω ∂P = v.price * Real.exp (-(v.coupon.getD 0 * T)) := by
  have hp : ∀ x, (Payoff.vanilla .call (0 : ℝ)).eval1 x = .ok (max x 0) := by
    intro x; simp [Payoff.eval1]
  have hb := integral_blackScholesPrice v hT
  have hpos : ∀ z, max (blackScholesPrice v T z) 0 = blackScholesPrice v T z := fun z =>
    max_eq_left (by unfold blackScholesPrice; positivity)
  obtain ⟨Y, h1, -, h3⟩ := C34_unbiased h v hT hs hm (f := fun x => max x 0) (by fun_prop)
    (hb.1.congr (.of_forall fun z => (hpos z).symm)) hp hN0 hN i
  refine ⟨Y, h1, h3.trans ?_⟩
  have e : ∫ z, max (v.price * Real.exp ((v.r - v.coupon.getD 0 - v.sigma ^ 2 / 2) * T +
      v.sigma * Real.sqrt T * z)) 0 ∂gaussianReal 0 1 =
      v.price * Real.exp ((v.r - v.coupon.getD 0) * T) := by
    rw [← hb.2]
    exact integral_congr_ae (.of_forall hpos)
  rw [e, mul_left_comm, ← Real.exp_add]
  congr 2
  ring

/-! ## The Black-Scholes formula -/

theorem gaussianPDFReal_tilt (b z : ℝ) :
    gaussianPDFReal 0 1 z * Real.exp (b * z) = Real.exp (b ^ 2 / 2) * gaussianPDFReal b 1 z := by
  simp only [gaussianPDFReal]
  rw [mul_assoc, ← Real.exp_add, mul_left_comm, ← Real.exp_add]
  congr 2
  simp
  ring

theorem setIntegral_exp (b : ℝ) {s : Set ℝ} (hs : MeasurableSet s) :
    ∫ z in s, Real.exp (b * z) ∂gaussianReal 0 1 = Real.exp (b ^ 2 / 2) * (gaussianReal b 1).real s := by
  rw [← integral_indicator hs, integral_gaussianReal_eq_integral_smul one_ne_zero,
    ← integral_indicator_one hs, integral_gaussianReal_eq_integral_smul one_ne_zero,
    ← integral_const_mul]
  refine integral_congr_ae (.of_forall fun z => ?_)
  by_cases hz : z ∈ s
  · simp only [Set.indicator_of_mem hz, smul_eq_mul, Pi.one_apply, mul_one]
    exact gaussianPDFReal_tilt b z
  · simp [Set.indicator_of_notMem hz]

/-- The probability that a normal number with mean `b` exceeds `-x`. -/
theorem gaussianReal_Ioi (b x : ℝ) :
    (gaussianReal b 1).real (Set.Ioi (-x)) = cdf (gaussianReal 0 1) (x + b) := by
  have h1 : gaussianReal b 1 = ((gaussianReal 0 1).map (fun z => -z)).map (fun z => z + b) := by
    rw [gaussianReal_map_neg, gaussianReal_map_add_const]; simp
  rw [cdf_eq_real, h1, Measure.map_map (by fun_prop) (by fun_prop), map_measureReal_apply (by fun_prop)
    measurableSet_Ioi]
  have : ((fun z => z + b) ∘ fun z : ℝ => -z) ⁻¹' Set.Ioi (-x) = Set.Iio (x + b) := by
    ext z
    simp only [Set.mem_preimage, Function.comp, Set.mem_Ioi, Set.mem_Iio]
    constructor <;> intro h <;> linarith
  rw [this]
  haveI := nullSingletonClass_gaussianReal (μ := 0) (v := 1) one_ne_zero
  exact measureReal_congr Iio_ae_eq_Iic

/-- The expectation of the call payoff. -/
theorem integral_call (v : View ℝ) (hS : 0 < v.price) {T : ℝ} (hT : 0 < T) (hσ : 0 < v.sigma) {K : ℝ}
    (hK : 0 < K) :
    let d2 := (Real.log (v.price / K) + (v.r - v.coupon.getD 0 - v.sigma ^ 2 / 2) * T) /
      (v.sigma * Real.sqrt T)
    let d1 := d2 + v.sigma * Real.sqrt T
    ∫ z, max (blackScholesPrice v T z - K) 0 ∂gaussianReal 0 1 =
      v.price * Real.exp ((v.r - v.coupon.getD 0) * T) * cdf (gaussianReal 0 1) d1 -
        K * cdf (gaussianReal 0 1) d2 := by
  intro d2 d1
  have hb : 0 < v.sigma * Real.sqrt T := by positivity
  set b := v.sigma * Real.sqrt T with hbdef
  set a := (v.r - v.coupon.getD 0 - v.sigma ^ 2 / 2) * T with hadef
  have hB := integral_blackScholesPrice v hT.le
  have key : ∀ z, max (blackScholesPrice v T z - K) 0 =
      (Set.Ioi (-d2)).indicator (fun z => blackScholesPrice v T z - K) z := by
    intro z
    have hiff : K < blackScholesPrice v T z ↔ -d2 < z := by
      have e1 : blackScholesPrice v T z = Real.exp (Real.log v.price + (a + b * z)) := by
        rw [Real.exp_add, Real.exp_log hS]; rfl
      have e2 : d2 * b = Real.log v.price - Real.log K + a := by
        simp only [d2]
        rw [div_mul_cancel₀ _ hb.ne', Real.log_div hS.ne' hK.ne']
      rw [e1, ← Real.log_lt_iff_lt_exp hK]
      constructor
      · intro h
        have : 0 < b * (z + d2) := by nlinarith
        linarith [(mul_pos_iff_of_pos_left hb).mp this]
      · intro h
        have : 0 < b * (z + d2) := mul_pos hb (by linarith)
        nlinarith
    by_cases hz : -d2 < z
    · rw [Set.indicator_of_mem (by exact hz), max_eq_left (by linarith [hiff.mpr hz])]
    · rw [Set.indicator_of_notMem (by exact hz), max_eq_right (by linarith [not_lt.mp (mt hiff.mp hz)])]
  simp only [key]
  rw [integral_indicator measurableSet_Ioi, integral_sub hB.1.integrableOn (integrable_const K).integrableOn,
    setIntegral_const]
  have e2 : ∫ z in Set.Ioi (-d2), blackScholesPrice v T z ∂gaussianReal 0 1 =
      v.price * Real.exp ((v.r - v.coupon.getD 0) * T) * cdf (gaussianReal 0 1) d1 := by
    simp only [blackScholesPrice_eq]
    rw [integral_const_mul, setIntegral_exp _ measurableSet_Ioi, gaussianReal_Ioi, ← mul_assoc, mul_assoc v.price,
      ← Real.exp_add]
    congr 3
    rw [mul_pow, Real.sq_sqrt hT.le]
    ring
  rw [e2, gaussianReal_Ioi, add_zero, smul_eq_mul, mul_comm K]

/-- **C34.** The Monte Carlo price of a call or put on a GBM has as expected value exactly the
Black-Scholes price, for every number of paths and of steps. -/
theorem C34_blackScholes (h : IidNormal P Z) (v : View ℝ) (hS : 0 < v.price) (hσ : 0 < v.sigma)
    {T : ℝ} (hT : 0 < T) {K : ℝ} (hK : 0 < K) {steps : ℕ} (hs : 0 < steps) (hm : steps ≤ INT_MAX)
    {N : ℕ} (hN0 : 0 < N) (hN : N ≤ INT_MAX) (i : ℕ) :
    let c := v.coupon.getD 0
    let d1 := (Real.log (v.price / K) + (v.r - c + v.sigma ^ 2 / 2) * T) / (v.sigma * Real.sqrt T)
    let d2 := d1 - v.sigma * Real.sqrt T
    let Φ := cdf (gaussianReal 0 1)
    ∃ C Q : Ω → ℝ,
      (∀ ω, MC.singlePath (modelSource (scriptGen fun j => Z j ω) steps v .gbm) (Eff.lift (.ok v.r))
        (Payoff.vanilla .call K).eval1 T N i = (.ok (C ω), i + N * steps)) ∧
      (∀ ω, MC.singlePath (modelSource (scriptGen fun j => Z j ω) steps v .gbm) (Eff.lift (.ok v.r))
        (Payoff.vanilla .put K).eval1 T N i = (.ok (Q ω), i + N * steps)) ∧
      ∫ ω, C ω ∂P = v.price * Real.exp (-(c * T)) * Φ d1 - K * Real.exp (-(v.r * T)) * Φ d2 ∧
      ∫ ω, Q ω ∂P = K * Real.exp (-(v.r * T)) * (1 - Φ d2) - v.price * Real.exp (-(c * T)) * (1 - Φ d1) := by
  intro c d1 d2 Φ
  have hb : 0 < v.sigma * Real.sqrt T := by positivity
  have hd2 : (Real.log (v.price / K) + (v.r - v.coupon.getD 0 - v.sigma ^ 2 / 2) * T) /
      (v.sigma * Real.sqrt T) = d2 := by
    simp only [d2, d1, c]
    rw [eq_sub_iff_add_eq, div_add' _ _ _ hb.ne', div_left_inj' hb.ne']
    have : v.sigma * Real.sqrt T * (v.sigma * Real.sqrt T) = v.sigma ^ 2 * T := by
      rw [← sq, mul_pow, Real.sq_sqrt hT.le]
    rw [this]
    ring
  have hcall := integral_call v hS hT hσ hK
  simp only [hd2] at hcall
  rw [show d2 + v.sigma * Real.sqrt T = d1 by simp only [d2]; ring] at hcall
  have hB := integral_blackScholesPrice v hT.le
  have icall : Integrable (fun z => max (blackScholesPrice v T z - K) 0) (gaussianReal 0 1) :=
    (hB.1.sub (integrable_const K)).pos_part
  have iput : Integrable (fun z => max (K - blackScholesPrice v T z) 0) (gaussianReal 0 1) :=
    ((integrable_const K).sub hB.1).pos_part
  have hput : ∫ z, max (K - blackScholesPrice v T z) 0 ∂gaussianReal 0 1 =
      K * (1 - Φ d2) - v.price * Real.exp ((v.r - v.coupon.getD 0) * T) * (1 - Φ d1) := by
    have e : ∀ z, max (K - blackScholesPrice v T z) 0 =
        max (blackScholesPrice v T z - K) 0 + (K - blackScholesPrice v T z) := by
      intro z
      rcases le_total (blackScholesPrice v T z) K with h | h
      · rw [max_eq_left (by linarith), max_eq_right (by linarith)]; ring
      · rw [max_eq_right (by linarith), max_eq_left (by linarith)]; ring
    simp only [e]
    have i1 : Integrable (fun z => K - blackScholesPrice v T z) (gaussianReal 0 1) :=
      (integrable_const K).sub hB.1
    rw [integral_add icall i1, integral_sub (integrable_const K) hB.1, hcall, hB.2]
    simp only [integral_const, probReal_univ, one_smul, Φ]
    ring
  have ecall : ∀ x, (Payoff.vanilla .call K).eval1 x = .ok (max (x - K) 0) := by
    intro x; simp [Payoff.eval1]
  have eput : ∀ x, (Payoff.vanilla .put K).eval1 x = .ok (max (K - x) 0) := by
    intro x; simp [Payoff.eval1]
  obtain ⟨C, c1, -, c3⟩ := C34_unbiased h v hT.le hs hm (f := fun x => max (x - K) 0) (by fun_prop)
    icall ecall hN0 hN i
  obtain ⟨Q, q1, -, q3⟩ := C34_unbiased h v hT.le hs hm (f := fun x => max (K - x) 0) (by fun_prop)
    iput eput hN0 hN i
  have ex : Real.exp (-(v.r * T)) * Real.exp ((v.r - v.coupon.getD 0) * T) = Real.exp (-(c * T)) := by
    rw [← Real.exp_add]; congr 1; simp only [c]; ring
  refine ⟨C, Q, c1, q1, c3.trans ?_, q3.trans ?_⟩
  · change Real.exp (-(v.r * T)) * ∫ z, max (blackScholesPrice v T z - K) 0 ∂gaussianReal 0 1 = _
    rw [hcall, ← ex]
    ring
  · change Real.exp (-(v.r * T)) * ∫ z, max (K - blackScholesPrice v T z) 0 ∂gaussianReal 0 1 = _
    rw [hput, ← ex]
    ring

/-! ## The error of the estimator -/

theorem indep_drawSum (h : IidNormal P Z) {a b : ℕ} {n : ℕ} (hab : a + n ≤ b) :
    IndepFun (drawSum Z a n) (drawSum Z b n) P := by
  have hd : Disjoint (Finset.Ico a (a + n)) (Finset.Ico b (b + n)) := by
    rw [Finset.disjoint_left]
    intro x hx hx'
    simp only [Finset.mem_Ico] at hx hx'
    omega
  have hi := h.indep.indepFun_finset _ _ hd h.measurable
  have := hi.comp (φ := fun x => ∑ j, x j) (ψ := fun x => ∑ j, x j) (by fun_prop) (by fun_prop)
  convert this using 1
  · funext ω
    simp only [drawSum, Function.comp]
    exact (Finset.sum_coe_sort _ fun j => Z j ω).symm
  · funext ω
    simp only [drawSum, Function.comp]
    exact (Finset.sum_coe_sort _ fun j => Z j ω).symm

/-- **C34.** The variance of the Monte Carlo price is that of the discounted payoff divided by the number
of paths, and so (Chebyshev) the price is within `ε` of the discounted expected payoff but for a
probability of at most `variance / (N ε²)`. -/
theorem C34_error (h : IidNormal P Z) (v : View ℝ) {T : ℝ} (hT : 0 ≤ T) {steps : ℕ} (hs : 0 < steps)
    (hm : steps ≤ INT_MAX) {f : ℝ → ℝ} (hf : Measurable f)
    (hi : MemLp (fun z => f (v.price * Real.exp ((v.r - v.coupon.getD 0 - v.sigma ^ 2 / 2) * T +
      v.sigma * Real.sqrt T * z))) 2 (gaussianReal 0 1))
    {pay : ℝ → Res ℝ} (hpay : ∀ x, pay x = .ok (f x)) {N : ℕ} (hN0 : 0 < N) (hN : N ≤ INT_MAX) (i : ℕ) :
    let payoff := fun z => Real.exp (-(v.r * T)) * f (v.price * Real.exp
      ((v.r - v.coupon.getD 0 - v.sigma ^ 2 / 2) * T + v.sigma * Real.sqrt T * z))
    ∃ Y : Ω → ℝ,
      (∀ ω, MC.singlePath (modelSource (scriptGen fun j => Z j ω) steps v .gbm) (Eff.lift (.ok v.r))
        pay T N i = (.ok (Y ω), i + N * steps)) ∧
      Var[Y; P] = Var[payoff; gaussianReal 0 1] / N ∧
      ∀ ε > 0, P {ω | ε ≤ |Y ω - ∫ z, payoff z ∂gaussianReal 0 1|} ≤
        ENNReal.ofReal (Var[payoff; gaussianReal 0 1] / (N * ε ^ 2)) := by
  intro payoff
  have e := fun i => map_gbmPrice_last h v hT hs i
  have m1 := fun i => measurable_gbmPrice h v T steps i (steps - 1)
  have m2 := measurable_blackScholesPrice v T
  let X : ℕ → Ω → ℝ := fun n ω => f (gbmPrice v T steps Z (i + n * steps) (steps - 1) ω)
  have hX : ∀ n, MemLp (X n) 2 P := by
    intro n
    have : MemLp f 2 ((gaussianReal 0 1).map (blackScholesPrice v T)) :=
      (memLp_map_measure_iff hf.aestronglyMeasurable m2.aemeasurable).mpr hi
    rw [← e (i + n * steps)] at this
    exact (memLp_map_measure_iff hf.aestronglyMeasurable (m1 _).aemeasurable).mp this
  have hV : ∀ n, Var[X n; P] = Var[fun z => f (blackScholesPrice v T z); gaussianReal 0 1] := by
    intro n
    have a1 := variance_map (X := f) (μ := P) (Y := gbmPrice v T steps Z (i + n * steps) (steps - 1))
      hf.aemeasurable (m1 _).aemeasurable
    have a2 := variance_map (X := f) (μ := gaussianReal 0 1) (Y := blackScholesPrice v T)
      hf.aemeasurable m2.aemeasurable
    rw [e] at a1
    exact a1.symm.trans a2
  have hind : Set.Pairwise (Finset.range N : Set ℕ) fun a b => IndepFun (X a) (X b) P := by
    have key : ∀ a b, a < b → IndepFun (X a) (X b) P := by
      intro a b hab
      have := indep_drawSum h (Z := Z) (a := i + a * steps) (b := i + b * steps) (n := steps - 1 + 1) (by
        have : (a + 1) * steps ≤ b * steps := Nat.mul_le_mul_right _ hab
        rw [Nat.sub_add_cancel hs]
        nlinarith)
      have hq : Measurable fun x : ℝ => f (v.price * Real.exp ((v.r - v.coupon.getD 0 - v.sigma ^ 2 / 2) *
          (((steps - 1 : ℕ) + 1) * (T / steps)) + v.sigma * Real.sqrt (T / steps) * x)) :=
        hf.comp (by fun_prop)
      exact this.comp hq hq
    intro a _ b _ hab
    rcases lt_or_gt_of_ne hab with hlt | hlt
    · exact key a b hlt
    · exact (key b a hlt).symm
  have hNr : (0 : ℝ) < N := by exact_mod_cast hN0
  have hY : mcEstimate f v T steps Z N i = fun ω => (Real.exp (-(v.r * T)) / N) *
      (∑ n ∈ Finset.range N, X n) ω := by
    funext ω
    simp only [mcEstimate, Finset.sum_apply, X]
    ring
  have hvar : Var[mcEstimate f v T steps Z N i; P] = Var[payoff; gaussianReal 0 1] / N := by
    rw [hY, variance_const_mul, IndepFun.variance_sum (fun n _ => hX n) hind,
      Finset.sum_congr rfl fun n _ => hV n, Finset.sum_const, Finset.card_range, nsmul_eq_mul]
    have : Var[payoff; gaussianReal 0 1] = Real.exp (-(v.r * T)) ^ 2 *
        Var[fun z => f (blackScholesPrice v T z); gaussianReal 0 1] := variance_const_mul _ _ _
    rw [this]
    field_simp
  have hint : Integrable (fun z => f (blackScholesPrice v T z)) (gaussianReal 0 1) :=
    hi.integrable (by norm_num)
  have hmean : ∫ ω, mcEstimate f v T steps Z N i ω ∂P = ∫ z, payoff z ∂gaussianReal 0 1 := by
    obtain ⟨Y, h1, -, h3⟩ := C34_unbiased h v hT hs hm hf hint hpay hN0 hN i
    have : Y = mcEstimate f v T steps Z N i := by
      funext ω
      have := (h1 ω).symm.trans (singlePath_mcEstimate v T hs hm hpay hN i ω)
      simpa using this
    rw [← this, h3, ← integral_const_mul]
  refine ⟨mcEstimate f v T steps Z N i, singlePath_mcEstimate v T hs hm hpay hN i, hvar, fun ε hε => ?_⟩
  have hL : MemLp (mcEstimate f v T steps Z N i) 2 P := by
    rw [hY]
    exact (memLp_finsetSum' _ fun n _ => hX n).const_mul _
  have := meas_ge_le_variance_div_sq hL hε
  rw [hmean, hvar, div_div] at this
  exact this

/-- The hypotheses of the theorems on the estimator, for a call at the money over one year with 50 steps
and 1000 paths; the payoff is square integrable because it is dominated by the price. -/
example : ∃ (Ω : Type) (_ : MeasurableSpace Ω) (P : Measure Ω) (Z : ℕ → Ω → ℝ) (C : Ω → ℝ),
    (∀ ω, MC.singlePath (modelSource (scriptGen fun j => Z j ω) 50 exampleView .gbm)
      (Eff.lift (.ok exampleView.r)) (Payoff.vanilla .call 100).eval1 1 1000 0 = (.ok (C ω), 50000)) ∧
    ∫ ω, C ω ∂P = 100 * Real.exp (-(1/100)) * cdf (gaussianReal 0 1) (3/10) -
      100 * Real.exp (-(1/20)) * cdf (gaussianReal 0 1) (1/10) := by
  obtain ⟨Ω, mΩ, P, Z, hP, h⟩ := exists_iidNormal
  obtain ⟨C, Q, h1, -, h3, -⟩ := C34_blackScholes h exampleView (by norm_num [exampleView])
    (by norm_num [exampleView]) (T := 1) one_pos (K := 100) (by norm_num) (steps := 50) (by norm_num)
    (by decide) (N := 1000) (by norm_num) (by decide) 0
  refine ⟨Ω, mΩ, P, Z, C, h1, h3.trans ?_⟩
  norm_num [exampleView]

example : ∃ (Ω : Type) (_ : MeasurableSpace Ω) (P : Measure Ω) (Z : ℕ → Ω → ℝ) (C : Ω → ℝ),
    (∀ ω, MC.singlePath (modelSource (scriptGen fun j => Z j ω) 50 exampleView .gbm)
      (Eff.lift (.ok exampleView.r)) (Payoff.vanilla .call 100).eval1 1 1000 0 = (.ok (C ω), 50000)) ∧
    Var[C; P] = Var[fun z => Real.exp (-(1/20)) * max (100 * Real.exp (1/50 + 1/5 * z) - 100) 0;
      gaussianReal 0 1] / 1000 := by
  obtain ⟨Ω, mΩ, P, Z, hP, h⟩ := exists_iidNormal
  have hb : MemLp (fun z => 100 * Real.exp (1/50 + 1/5 * z)) 2 (gaussianReal 0 1) := by
    refine (memLp_two_iff_integrable_sq (by fun_prop)).mpr ?_
    refine ((integrable_exp_mul_gaussianReal (μ := 0) (v := 1) (2/5)).const_mul
      (10000 * Real.exp (1/25))).congr (.of_forall fun z => ?_)
    simp only [mul_pow, ← Real.exp_nat_mul, mul_assoc, ← Real.exp_add]
    norm_num
    ring
  have hi : MemLp (fun z => max (exampleView.price * Real.exp ((exampleView.r - exampleView.coupon.getD 0 -
      exampleView.sigma ^ 2 / 2) * 1 + exampleView.sigma * Real.sqrt 1 * z) - 100) 0) 2 (gaussianReal 0 1) := by
    refine hb.mono (by fun_prop) (.of_forall fun z => ?_)
    have := Real.exp_pos (1/50 + 1/5 * z)
    norm_num [exampleView] at this ⊢
    rw [abs_of_nonneg (by positivity)]
    exact max_le (by linarith) (by linarith)
  obtain ⟨C, h1, h2, -⟩ := C34_error h exampleView (T := 1) zero_le_one (steps := 50) (by norm_num)
    (by decide) (f := fun x => max (x - 100) 0) (by fun_prop) hi
    (pay := (Payoff.vanilla .call 100).eval1) (fun x => by simp [Payoff.eval1]) (N := 1000) (by norm_num)
    (by decide) 0
  refine ⟨Ω, mΩ, P, Z, C, h1, h2.trans ?_⟩
  norm_num [exampleView]

end Verif
