import Verif.Lemmas.Heat
import Verif.Lemmas.OptionValue
import Verif.Spec.FdmPriceSpec

/-!
# Option values with smooth payoffs solve the Black-Scholes equation
-/

namespace Verif
open Spec MeasureTheory ProbabilityTheory Filter Topology Set

/-- A payoff with four derivatives that vanish, like the payoff itself, outside `[-R, R]`; the `k`-th derivative is bounded by `Bₖ`. -/
structure SmoothPayoff (g : ℝ → ℝ) (R B0 B1 B2 B3 B4 : ℝ) where
  g1 : ℝ → ℝ
  g2 : ℝ → ℝ
  g3 : ℝ → ℝ
  g4 : ℝ → ℝ
  h1 : ∀ y, HasDerivAt g (g1 y) y
  h2 : ∀ y, HasDerivAt g1 (g2 y) y
  h3 : ∀ y, HasDerivAt g2 (g3 y) y
  h4 : ∀ y, HasDerivAt g3 (g4 y) y
  c4 : Continuous g4
  b0 : ∀ y, |g y| ≤ B0
  b1 : ∀ y, |g1 y| ≤ B1
  b2 : ∀ y, |g2 y| ≤ B2
  b3 : ∀ y, |g3 y| ≤ B3
  b4 : ∀ y, |g4 y| ≤ B4
  s1 : ∀ y, R ≤ |y| → g1 y = 0
  s2 : ∀ y, R ≤ |y| → g2 y = 0
  s3 : ∀ y, R ≤ |y| → g3 y = 0
  s4 : ∀ y, R ≤ |y| → g4 y = 0

/-- The Black-Scholes operator applied to a function with derivatives `h1` and `h2`. -/
noncomputable def generator (σ r c : ℝ) (h h1 h2 : ℝ → ℝ) (y : ℝ) : ℝ :=
  σ ^ 2 / 2 * (y ^ 2 * h2 y) + (r - c) * (y * h1 y) - r * h y

variable {σ r c : ℝ}

/-- The expectation of `Y^k h(xY)`, discounted, where `Y` is the terminal price for the price 1 today. -/
noncomputable def moment (σ r c : ℝ) (k : ℕ) (h : ℝ → ℝ) (t x : ℝ) : ℝ :=
  Real.exp (-r * t) * ∫ z, terminalPrice σ r c t 1 z ^ k * h (x * terminalPrice σ r c t 1 z) ∂gaussianReal 0 1

theorem terminalPrice_mul (t x z : ℝ) : terminalPrice σ r c t x z = x * terminalPrice σ r c t 1 z := by
  simp [terminalPrice]

theorem optionValue_eq_moment (h : ℝ → ℝ) (t x : ℝ) : optionValue h σ r c t x = moment σ r c 0 h t x := by
  unfold optionValue moment
  congr 1
  exact integral_congr_ae (ae_of_all _ fun z => by dsimp only; rw [terminalPrice_mul t x z, pow_zero, one_mul])

theorem terminalPrice_pos (t z : ℝ) : 0 < terminalPrice σ r c t 1 z := by
  unfold terminalPrice
  positivity

theorem terminalPrice_pow (t z : ℝ) (k : ℕ) : terminalPrice σ r c t 1 z ^ k =
    Real.exp (k * ((r - c - σ ^ 2 / 2) * t)) * Real.exp (k * (σ * Real.sqrt t) * z) := by
  rw [terminalPrice, one_mul, ← Real.exp_nat_mul, ← Real.exp_add]
  congr 1
  ring

theorem integrable_power (t : ℝ) (k : ℕ) : Integrable (fun z => terminalPrice σ r c t 1 z ^ k) (gaussianReal 0 1) := by
  simp only [terminalPrice_pow]
  exact (integrable_exp_mul_gaussianReal _).const_mul _

theorem integral_power {t : ℝ} (ht : 0 ≤ t) (k : ℕ) : ∫ z, terminalPrice σ r c t 1 z ^ k ∂gaussianReal 0 1 =
    Real.exp ((k * (r - c) + k * (k - 1) * (σ ^ 2 / 2)) * t) := by
  simp only [terminalPrice_pow]
  have h2 : ∫ z, Real.exp (k * (σ * Real.sqrt t) * z) ∂gaussianReal 0 1 = Real.exp ((k * (σ * Real.sqrt t)) ^ 2 / 2) := by
    have := congrFun (mgf_id_gaussianReal (μ := 0) (v := 1)) (k * (σ * Real.sqrt t))
    simpa [mgf] using this
  rw [integral_const_mul, h2, ← Real.exp_add, mul_pow, mul_pow, Real.sq_sqrt ht]
  congr 1
  ring

theorem continuous_terminalPrice_one (t : ℝ) : Continuous (terminalPrice σ r c t 1) := continuous_terminalPrice 1

theorem integrable_moment {h : ℝ → ℝ} {B : ℝ} (hc : Continuous h) (hb : ∀ y, |h y| ≤ B) (k : ℕ) (t x : ℝ) :
    Integrable (fun z => terminalPrice σ r c t 1 z ^ k * h (x * terminalPrice σ r c t 1 z)) (gaussianReal 0 1) := by
  refine Integrable.mono' ((integrable_power (σ := σ) (r := r) (c := c) t k).mul_const B) ?_ (ae_of_all _ fun z => ?_)
  · exact (((continuous_terminalPrice_one t).pow k).mul (hc.comp (continuous_const.mul (continuous_terminalPrice_one t)))).aestronglyMeasurable
  · rw [Real.norm_eq_abs, abs_mul, abs_of_nonneg (pow_nonneg (terminalPrice_pos t z).le k)]
    exact mul_le_mul_of_nonneg_left (hb _) (pow_nonneg (terminalPrice_pos t z).le k)

/-- Derivatives with respect to the price. -/
theorem moment_hasDerivAt {h h1 : ℝ → ℝ} {B B1 : ℝ} (hd : ∀ y, HasDerivAt h (h1 y) y) (hc : Continuous h1) (hb : ∀ y, |h y| ≤ B)
    (hb1 : ∀ y, |h1 y| ≤ B1) (k : ℕ) (t x : ℝ) : HasDerivAt (moment σ r c k h t) (moment σ r c (k + 1) h1 t x) x := by
  have c0 : Continuous h := continuous_iff_continuousAt.mpr fun z => (hd z).continuousAt
  have key := hasDerivAt_integral_of_dominated_loc_of_deriv_le (μ := gaussianReal 0 1) (x₀ := x) (s := univ)
    (F := fun x z => terminalPrice σ r c t 1 z ^ k * h (x * terminalPrice σ r c t 1 z))
    (F' := fun x z => terminalPrice σ r c t 1 z ^ (k + 1) * h1 (x * terminalPrice σ r c t 1 z))
    (bound := fun z => terminalPrice σ r c t 1 z ^ (k + 1) * B1) univ_mem
    (Eventually.of_forall fun x => (integrable_moment c0 hb k t x).aestronglyMeasurable)
    (integrable_moment c0 hb k t x) (integrable_moment hc hb1 (k + 1) t x).aestronglyMeasurable
    (ae_of_all _ fun z x _ => ?_) ((integrable_power (σ := σ) (r := r) (c := c) t (k + 1)).mul_const B1) (ae_of_all _ fun z x _ => ?_)
  · exact key.2.const_mul _
  · rw [Real.norm_eq_abs, abs_mul, abs_of_nonneg (pow_nonneg (terminalPrice_pos t z).le _)]
    exact mul_le_mul_of_nonneg_left (hb1 _) (pow_nonneg (terminalPrice_pos t z).le _)
  · have := ((hd (x * terminalPrice σ r c t 1 z)).comp x ((hasDerivAt_id x).mul_const (terminalPrice σ r c t 1 z))).const_mul
      (terminalPrice σ r c t 1 z ^ k)
    refine this.congr_deriv ?_
    rw [pow_succ]
    ring

theorem abs_moment_le {h : ℝ → ℝ} {B T : ℝ} (hb : ∀ y, |h y| ≤ B) (hr : 0 ≤ r) (k : ℕ) {t : ℝ} (h0 : 0 ≤ t) (hT : t ≤ T) (x : ℝ) :
    |moment σ r c k h t x| ≤ B * Real.exp ((k * |r - c| + k * (k - 1) * (σ ^ 2 / 2)) * T) := by
  have hB : 0 ≤ B := (abs_nonneg _).trans (hb 0)
  unfold moment
  rw [abs_mul, abs_of_pos (Real.exp_pos _)]
  have e1 : Real.exp (-r * t) ≤ 1 := Real.exp_le_one_iff.mpr (by nlinarith)
  have e2 : |∫ z, terminalPrice σ r c t 1 z ^ k * h (x * terminalPrice σ r c t 1 z) ∂gaussianReal 0 1| ≤
      B * Real.exp ((k * |r - c| + k * (k - 1) * (σ ^ 2 / 2)) * T) := by
    refine (abs_integral_le_integral_abs).trans ?_
    have : ∫ z, |terminalPrice σ r c t 1 z ^ k * h (x * terminalPrice σ r c t 1 z)| ∂gaussianReal 0 1 ≤
        ∫ z, B * terminalPrice σ r c t 1 z ^ k ∂gaussianReal 0 1 := by
      refine integral_mono_of_nonneg (ae_of_all _ fun z => abs_nonneg _) ((integrable_power (σ := σ) (r := r) (c := c) t k).const_mul B) (ae_of_all _ fun z => ?_)
      dsimp only
      rw [abs_mul, abs_of_nonneg (pow_nonneg (terminalPrice_pos t z).le k), mul_comm]
      exact mul_le_mul_of_nonneg_right (hb _) (pow_nonneg (terminalPrice_pos t z).le k)
    refine this.trans ?_
    rw [integral_const_mul, integral_power h0]
    refine mul_le_mul_of_nonneg_left (Real.exp_le_exp.mpr ?_) hB
    have hk : (0 : ℝ) ≤ k * (k - 1) := by
      rcases Nat.eq_zero_or_pos k with rfl | hk
      · simp
      · have : (1 : ℝ) ≤ k := by exact_mod_cast hk
        exact mul_nonneg (by linarith) (by linarith)
    have q1 : (k : ℝ) * (r - c) ≤ k * |r - c| := mul_le_mul_of_nonneg_left (le_abs_self _) (Nat.cast_nonneg k)
    have q2 : 0 ≤ (k : ℝ) * |r - c| + k * (k - 1) * (σ ^ 2 / 2) := by positivity
    calc _ ≤ ((k : ℝ) * |r - c| + k * (k - 1) * (σ ^ 2 / 2)) * t := mul_le_mul_of_nonneg_right (by linarith) h0
      _ ≤ _ := mul_le_mul_of_nonneg_left hT q2
  calc _ ≤ 1 * _ := mul_le_mul e1 e2 (abs_nonneg _) zero_le_one
    _ = _ := one_mul _

/-- Values of bounded payoffs are bounded. -/
theorem abs_optionValue_le {h : ℝ → ℝ} {B : ℝ} (hb : ∀ y, |h y| ≤ B) (hr : 0 ≤ r) {t : ℝ} (h0 : 0 ≤ t) (x : ℝ) : |optionValue h σ r c t x| ≤ B := by
  have := abs_moment_le (σ := σ) (c := c) hb hr 0 h0 le_rfl x
  rw [optionValue_eq_moment]
  simpa using this

/-- The derivative with respect to time, from time 0 on. -/
theorem optionValue_hasDerivWithinAt {h h1 h2 : ℝ → ℝ} {B B1 B2 : ℝ} (hd1 : ∀ y, HasDerivAt h (h1 y) y) (hd2 : ∀ y, HasDerivAt h1 (h2 y) y)
    (hc : Continuous h2) (b0 : ∀ y, |h y| ≤ B) (b1 : ∀ y, |y * h1 y| ≤ B1) (b2 : ∀ y, |y ^ 2 * h2 y| ≤ B2) (x : ℝ) {t : ℝ} (ht : 0 ≤ t) :
    HasDerivWithinAt (fun t => optionValue h σ r c t x) (optionValue (generator σ r c h h1 h2) σ r c t x) (Ici 0) t := by
  have c0 : Continuous h := continuous_iff_continuousAt.mpr fun z => (hd1 z).continuousAt
  have c1 : Continuous h1 := continuous_iff_continuousAt.mpr fun z => (hd2 z).continuousAt
  have hx : ∀ w, HasDerivAt (fun w => x * Real.exp w) (x * Real.exp w) w := fun w => (Real.hasDerivAt_exp w).const_mul x
  have key := Heat.mean_hasDerivWithinAt (a := r - c - σ ^ 2 / 2) (s := σ) (p := fun w => h (x * Real.exp w)) (B := B)
    (p1 := fun w => x * Real.exp w * h1 (x * Real.exp w))
    (p2 := fun w => x * Real.exp w * h1 (x * Real.exp w) + (x * Real.exp w) ^ 2 * h2 (x * Real.exp w)) (B1 := B1) (B2 := B1 + B2)
    (fun w => (((hd1 _).comp w (hx w)).congr_deriv (by ring)))
    (fun w => (((hx w).mul ((hd2 _).comp w (hx w))).congr_deriv (by rw [Function.comp_apply]; ring)))
    (by fun_prop) (fun w => b0 _) (fun w => b1 _) (fun w => (abs_add_le _ _).trans (add_le_add (b1 _) (b2 _))) ht
  have ed : HasDerivWithinAt (fun t : ℝ => Real.exp (-r * t)) (Real.exp (-r * t) * (-r)) (Ici 0) t := by
    have := ((hasDerivAt_id t).const_mul (-r)).exp
    simp only [mul_one, id] at this
    exact this.hasDerivWithinAt
  refine (ed.mul key).congr_deriv ?_
  unfold optionValue
  have i0 : Integrable (fun z => h (x * Real.exp ((r - c - σ ^ 2 / 2) * t + σ * Real.sqrt t * z))) (gaussianReal 0 1) :=
    Integrable.of_bound (c0.comp (by fun_prop)).aestronglyMeasurable B (ae_of_all _ fun z => by simpa using b0 _)
  have i1 : Integrable (fun z => (r - c - σ ^ 2 / 2) * (x * Real.exp ((r - c - σ ^ 2 / 2) * t + σ * Real.sqrt t * z) *
      h1 (x * Real.exp ((r - c - σ ^ 2 / 2) * t + σ * Real.sqrt t * z))) + σ ^ 2 / 2 *
      (x * Real.exp ((r - c - σ ^ 2 / 2) * t + σ * Real.sqrt t * z) * h1 (x * Real.exp ((r - c - σ ^ 2 / 2) * t + σ * Real.sqrt t * z)) +
      (x * Real.exp ((r - c - σ ^ 2 / 2) * t + σ * Real.sqrt t * z)) ^ 2 * h2 (x * Real.exp ((r - c - σ ^ 2 / 2) * t + σ * Real.sqrt t * z))))
      (gaussianReal 0 1) := by
    refine Integrable.of_bound (Continuous.aestronglyMeasurable (by fun_prop)) (|r - c - σ ^ 2 / 2| * B1 + |σ ^ 2 / 2| * (B1 + B2))
      (ae_of_all _ fun z => ?_)
    rw [Real.norm_eq_abs]
    refine (abs_add_le _ _).trans (add_le_add ?_ ?_) <;> rw [abs_mul]
    · exact mul_le_mul_of_nonneg_left (b1 _) (abs_nonneg _)
    · exact mul_le_mul_of_nonneg_left ((abs_add_le _ _).trans (add_le_add (b1 _) (b2 _))) (abs_nonneg _)
  have e : ∫ z, generator σ r c h h1 h2 (terminalPrice σ r c t x z) ∂gaussianReal 0 1 =
      Heat.mean (r - c - σ ^ 2 / 2) σ (fun w => (r - c - σ ^ 2 / 2) * (x * Real.exp w * h1 (x * Real.exp w)) +
        σ ^ 2 / 2 * (x * Real.exp w * h1 (x * Real.exp w) + (x * Real.exp w) ^ 2 * h2 (x * Real.exp w))) t -
      r * Heat.mean (r - c - σ ^ 2 / 2) σ (fun w => h (x * Real.exp w)) t := by
    unfold Heat.mean
    rw [← integral_const_mul, ← integral_sub i1 (i0.const_mul r)]
    refine integral_congr_ae (ae_of_all _ fun z => ?_)
    unfold generator terminalPrice
    dsimp only
    ring
  rw [e]
  ring

namespace SmoothPayoff
variable {g : ℝ → ℝ} {R B0 B1 B2 B3 B4 : ℝ} (P : SmoothPayoff g R B0 B1 B2 B3 B4)
include P

theorem nonneg : 0 ≤ B0 ∧ 0 ≤ B1 ∧ 0 ≤ B2 ∧ 0 ≤ B3 ∧ 0 ≤ B4 :=
  ⟨(abs_nonneg _).trans (P.b0 0), (abs_nonneg _).trans (P.b1 0), (abs_nonneg _).trans (P.b2 0), (abs_nonneg _).trans (P.b3 0),
    (abs_nonneg _).trans (P.b4 0)⟩

omit P in
/-- Weighted bounds. -/
theorem weighted {f : ℝ → ℝ} {B : ℝ} (hb : ∀ y, |f y| ≤ B) (hs : ∀ y, R ≤ |y| → f y = 0) (hR : 0 ≤ R) (k : ℕ) (y : ℝ) :
    |y ^ k * f y| ≤ R ^ k * B := by
  have hB : 0 ≤ B := (abs_nonneg _).trans (hb 0)
  rcases le_total R |y| with h | h
  · rw [hs y h, mul_zero, abs_zero]
    positivity
  · rw [abs_mul, abs_pow]
    exact mul_le_mul (pow_le_pow_left₀ (abs_nonneg y) h k) (hb y) (abs_nonneg _) (by positivity)

theorem continuous : Continuous g ∧ Continuous P.g1 ∧ Continuous P.g2 ∧ Continuous P.g3 :=
  ⟨continuous_iff_continuousAt.mpr fun z => (P.h1 z).continuousAt, continuous_iff_continuousAt.mpr fun z => (P.h2 z).continuousAt,
    continuous_iff_continuousAt.mpr fun z => (P.h3 z).continuousAt, continuous_iff_continuousAt.mpr fun z => (P.h4 z).continuousAt⟩

/-- The Black-Scholes operator applied to the payoff, and its derivatives. -/
noncomputable def gen (σ r c : ℝ) : ℝ → ℝ := generator σ r c g P.g1 P.g2
/-- Its first derivative. -/
noncomputable def gen1 (σ r c y : ℝ) : ℝ :=
  σ ^ 2 / 2 * (2 * y * P.g2 y + y ^ 2 * P.g3 y) + (r - c) * (P.g1 y + y * P.g2 y) - r * P.g1 y
/-- Its second derivative. -/
noncomputable def gen2 (σ r c y : ℝ) : ℝ :=
  σ ^ 2 / 2 * (2 * P.g2 y + 4 * y * P.g3 y + y ^ 2 * P.g4 y) + (r - c) * (2 * P.g2 y + y * P.g3 y) - r * P.g2 y

theorem gen_hasDerivAt (y : ℝ) : HasDerivAt (P.gen σ r c) (P.gen1 σ r c y) y := by
  have q : HasDerivAt (fun y : ℝ => y ^ 2) (2 * y) y := by simpa using hasDerivAt_pow 2 y
  have := (((q.mul (P.h3 y)).const_mul (σ ^ 2 / 2)).add (((hasDerivAt_id y).mul (P.h2 y)).const_mul (r - c))).sub ((P.h1 y).const_mul r)
  refine this.congr_deriv ?_
  simp [gen1]

theorem gen1_hasDerivAt (y : ℝ) : HasDerivAt (P.gen1 σ r c) (P.gen2 σ r c y) y := by
  have q : HasDerivAt (fun y : ℝ => y ^ 2) (2 * y) y := by simpa using hasDerivAt_pow 2 y
  have q1 : HasDerivAt (fun y : ℝ => 2 * y) 2 y := by simpa using (hasDerivAt_id y).const_mul 2
  have := ((((q1.mul (P.h3 y)).add (q.mul (P.h4 y))).const_mul (σ ^ 2 / 2)).add
    (((P.h2 y).add ((hasDerivAt_id y).mul (P.h3 y))).const_mul (r - c))).sub ((P.h2 y).const_mul r)
  refine this.congr_deriv ?_
  simp [gen2]
  ring

theorem gen_gen_le (hR : 0 ≤ R) (hr : 0 ≤ r) (y : ℝ) :
    |generator σ r c (P.gen σ r c) (P.gen1 σ r c) (P.gen2 σ r c) y| ≤ timeBound σ r c R B0 B1 B2 B3 B4 := by
  have e : generator σ r c (P.gen σ r c) (P.gen1 σ r c) (P.gen2 σ r c) y =
      σ ^ 4 / 4 * (y ^ 4 * P.g4 y) + σ ^ 2 * (σ ^ 2 + (r - c)) * (y ^ 3 * P.g3 y) +
      (σ ^ 4 / 2 + 2 * (r - c) * σ ^ 2 + (r - c) ^ 2 - r * σ ^ 2) * (y ^ 2 * P.g2 y) +
      ((r - c) ^ 2 - 2 * (r - c) * r) * (y ^ 1 * P.g1 y) + r ^ 2 * g y := by
    unfold gen gen1 gen2 generator
    ring
  rw [e, timeBound]
  have ab : ∀ {a A b B : ℝ}, |a| ≤ A → |b| ≤ B → |a * b| ≤ A * B := fun h1 h2 => by
    rw [abs_mul]; exact mul_le_mul h1 h2 (abs_nonneg _) ((abs_nonneg _).trans h1)
  have w1 := weighted P.b1 P.s1 hR 1 y
  rw [pow_one R] at w1
  have hb := abs_nonneg (r - c)
  refine (abs_add_le _ _).trans (add_le_add ((abs_add_le _ _).trans (add_le_add ((abs_add_le _ _).trans (add_le_add
    ((abs_add_le _ _).trans (add_le_add ?_ ?_)) ?_)) ?_)) ?_)
  · exact ab (le_of_eq (abs_of_nonneg (by positivity))) (weighted P.b4 P.s4 hR 4 y)
  · refine ab ?_ (weighted P.b3 P.s3 hR 3 y)
    rw [abs_mul, abs_of_nonneg (sq_nonneg σ)]
    refine mul_le_mul_of_nonneg_left ((abs_add_le _ _).trans ?_) (sq_nonneg σ)
    rw [abs_of_nonneg (sq_nonneg σ)]
  · refine ab ?_ (weighted P.b2 P.s2 hR 2 y)
    refine (abs_sub _ _).trans (add_le_add ((abs_add_le _ _).trans (add_le_add ((abs_add_le _ _).trans (add_le_add ?_ ?_)) ?_)) ?_)
    · exact le_of_eq (abs_of_nonneg (by positivity))
    · rw [abs_mul, abs_mul, abs_of_nonneg (sq_nonneg σ), abs_two]
    · exact le_of_eq (abs_of_nonneg (sq_nonneg _))
    · exact le_of_eq (abs_of_nonneg (by positivity))
  · refine ab ?_ w1
    refine (abs_sub _ _).trans (add_le_add (le_of_eq (abs_of_nonneg (sq_nonneg _))) ?_)
    rw [abs_mul, abs_mul, abs_two, abs_of_nonneg hr]
  · exact ab (le_of_eq (abs_of_nonneg (sq_nonneg _))) (P.b0 y)

theorem gen_bounded (hR : 0 ≤ R) : ∃ A A1 A2, (∀ y, |P.gen σ r c y| ≤ A) ∧ (∀ y, |y * P.gen1 σ r c y| ≤ A1) ∧ ∀ y, |y ^ 2 * P.gen2 σ r c y| ≤ A2 := by
  have ab : ∀ {a b B : ℝ}, |b| ≤ B → |a * b| ≤ |a| * B := fun h2 => by
    rw [abs_mul]; exact mul_le_mul_of_nonneg_left h2 (abs_nonneg _)
  have w11 := weighted P.b1 P.s1 hR 1
  have w22 := weighted P.b2 P.s2 hR 2
  have w33 := weighted P.b3 P.s3 hR 3
  have w44 := weighted P.b4 P.s4 hR 4
  refine ⟨|σ ^ 2 / 2| * (R ^ 2 * B2) + |r - c| * (R ^ 1 * B1) + |r| * B0,
    |σ ^ 2 / 2 * 2 + (r - c)| * (R ^ 2 * B2) + |σ ^ 2 / 2| * (R ^ 3 * B3) + |r - c - r| * (R ^ 1 * B1),
    |σ ^ 2 / 2 * 2 + (r - c) * 2 - r| * (R ^ 2 * B2) + |σ ^ 2 / 2 * 4 + (r - c)| * (R ^ 3 * B3) + |σ ^ 2 / 2| * (R ^ 4 * B4),
    fun y => ?_, fun y => ?_, fun y => ?_⟩
  · have e : P.gen σ r c y = σ ^ 2 / 2 * (y ^ 2 * P.g2 y) + (r - c) * (y ^ 1 * P.g1 y) - r * g y := by
      unfold gen generator; ring
    rw [e]
    exact (abs_sub _ _).trans (add_le_add ((abs_add_le _ _).trans (add_le_add (ab (w22 y)) (ab (w11 y)))) (ab (P.b0 y)))
  · have e : y * P.gen1 σ r c y = (σ ^ 2 / 2 * 2 + (r - c)) * (y ^ 2 * P.g2 y) + σ ^ 2 / 2 * (y ^ 3 * P.g3 y) + (r - c - r) * (y ^ 1 * P.g1 y) := by
      unfold gen1; ring
    rw [e]
    exact (abs_add_le _ _).trans (add_le_add ((abs_add_le _ _).trans (add_le_add (ab (w22 y)) (ab (w33 y)))) (ab (w11 y)))
  · have e : y ^ 2 * P.gen2 σ r c y = (σ ^ 2 / 2 * 2 + (r - c) * 2 - r) * (y ^ 2 * P.g2 y) + (σ ^ 2 / 2 * 4 + (r - c)) * (y ^ 3 * P.g3 y) +
        σ ^ 2 / 2 * (y ^ 4 * P.g4 y) := by
      unfold gen2; ring
    rw [e]
    exact (abs_add_le _ _).trans (add_le_add ((abs_add_le _ _).trans (add_le_add (ab (w22 y)) (ab (w33 y)))) (ab (w44 y)))

/-- The first time derivative. -/
theorem hasT (hR : 0 ≤ R) (x : ℝ) {t : ℝ} (ht : 0 ≤ t) :
    HasDerivWithinAt (fun t => optionValue g σ r c t x) (optionValue (P.gen σ r c) σ r c t x) (Ici 0) t := by
  have w1 := weighted P.b1 P.s1 hR 1
  simp only [pow_one] at w1
  exact optionValue_hasDerivWithinAt P.h1 P.h2 P.continuous.2.2.1 P.b0 w1 (weighted P.b2 P.s2 hR 2) x ht

/-- The second time derivative. -/
theorem hasTT (hR : 0 ≤ R) (x : ℝ) {t : ℝ} (ht : 0 ≤ t) :
    HasDerivWithinAt (fun t => optionValue (P.gen σ r c) σ r c t x)
      (optionValue (generator σ r c (P.gen σ r c) (P.gen1 σ r c) (P.gen2 σ r c)) σ r c t x) (Ici 0) t := by
  obtain ⟨A, A1, A2, h0, h1, h2⟩ := P.gen_bounded (σ := σ) (r := r) (c := c) hR
  refine optionValue_hasDerivWithinAt P.gen_hasDerivAt P.gen1_hasDerivAt ?_ h0 h1 h2 x ht
  have k2 := P.continuous.2.2.1
  have k3 := P.continuous.2.2.2
  have k4 := P.c4
  unfold gen2
  exact (((((continuous_const.mul k2).add ((continuous_const.mul continuous_id).mul k3)).add ((continuous_pow 2).mul k4)).const_mul _).add
    (((continuous_const.mul k2).add (continuous_id.mul k3)).const_mul _)).sub (k2.const_mul r)

theorem equation (t x : ℝ) : optionValue (P.gen σ r c) σ r c t x =
    σ ^ 2 / 2 * x ^ 2 * moment σ r c 2 P.g2 t x + (r - c) * x * moment σ r c 1 P.g1 t x - r * optionValue g σ r c t x := by
  have i0 := integrable_moment (σ := σ) (r := r) (c := c) P.continuous.1 P.b0 0 t x
  have i1 := integrable_moment (σ := σ) (r := r) (c := c) P.continuous.2.1 P.b1 1 t x
  have i2 := integrable_moment (σ := σ) (r := r) (c := c) P.continuous.2.2.1 P.b2 2 t x
  have e : ∫ z, P.gen σ r c (terminalPrice σ r c t x z) ∂gaussianReal 0 1 =
      (σ ^ 2 / 2 * x ^ 2) * ∫ z, terminalPrice σ r c t 1 z ^ 2 * P.g2 (x * terminalPrice σ r c t 1 z) ∂gaussianReal 0 1 +
      (r - c) * x * ∫ z, terminalPrice σ r c t 1 z ^ 1 * P.g1 (x * terminalPrice σ r c t 1 z) ∂gaussianReal 0 1 -
      r * ∫ z, terminalPrice σ r c t 1 z ^ 0 * g (x * terminalPrice σ r c t 1 z) ∂gaussianReal 0 1 := by
    have i3 : Integrable (fun z => σ ^ 2 / 2 * x ^ 2 * (terminalPrice σ r c t 1 z ^ 2 * P.g2 (x * terminalPrice σ r c t 1 z)) +
        (r - c) * x * (terminalPrice σ r c t 1 z ^ 1 * P.g1 (x * terminalPrice σ r c t 1 z))) (gaussianReal 0 1) :=
      (i2.const_mul _).add (i1.const_mul _)
    rw [← integral_const_mul, ← integral_const_mul, ← integral_const_mul, ← integral_add (i2.const_mul _) (i1.const_mul _),
      ← integral_sub i3 (i0.const_mul _)]
    refine integral_congr_ae (ae_of_all _ fun z => ?_)
    dsimp only
    rw [terminalPrice_mul t x z]
    unfold gen generator
    ring
  rw [optionValue_eq_moment g]
  unfold moment
  rw [optionValue, e]
  ring

end SmoothPayoff
end Verif
