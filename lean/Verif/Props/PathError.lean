import Verif.Lemmas.ForwardError
import Verif.Spec.PathErrorSpec
import Verif.Props.RoundingError
import Verif.Lemmas.MonteCarlo
import Verif.Props.LookbackSession

/-!
# Property C81: rounding errors along simulated GBM paths
-/

set_option exponentiation.threshold 3000

namespace Verif
open Spec

theorem binary64_doubleAccurate : DoubleAccurate .binary64 where
  round x hx := binary64_accurate x (hx.trans (zpow_le_zpow_right₀ (by norm_num) (by norm_num)))
  int n hn := Binary64.rnd_natCast hn
  exp x hx := by
    obtain ⟨h1, h2⟩ := abs_le.mp hx
    have a : Real.exp x ≤ 2 ^ (1000 : ℤ) := by
      refine (Real.exp_le_exp.mpr h2).trans ?_
      have : Real.exp 650 = Real.exp 1 ^ 650 := by rw [← Real.exp_nat_mul]; norm_num
      rw [this]
      calc Real.exp 1 ^ 650 ≤ (2.7182818286 : ℝ) ^ 650 := pow_le_pow_left₀ (Real.exp_pos _).le Real.exp_one_lt_d9.le _
        _ ≤ 2 ^ (1000 : ℤ) := by norm_num
    have b : (2 : ℝ) ^ (-1000 : ℤ) ≤ Real.exp x := by
      refine le_trans ?_ (Real.exp_le_exp.mpr h1)
      rw [Real.exp_neg, zpow_neg]
      refine inv_anti₀ (Real.exp_pos _) ?_
      have : Real.exp 650 = Real.exp 1 ^ 650 := by rw [← Real.exp_nat_mul]; norm_num
      rw [this]
      calc Real.exp 1 ^ 650 ≤ (2.7182818286 : ℝ) ^ 650 := pow_le_pow_left₀ (Real.exp_pos _).le Real.exp_one_lt_d9.le _
        _ ≤ 2 ^ (1000 : ℤ) := by norm_num
    obtain ⟨y, e, h⟩ := binary64_accurate (Real.exp x) (by rw [abs_of_pos (Real.exp_pos x)]; exact a.trans (zpow_le_zpow_right₀ (by norm_num) (by norm_num)))
    refine ⟨y, e, h.trans ?_⟩
    rw [abs_of_pos (Real.exp_pos x)]
    have c : (2 : ℝ) ^ (-1075 : ℤ) ≤ 2 ^ (-53 : ℤ) * 2 ^ (-1000 : ℤ) := by norm_num
    have d : (2 : ℝ) ^ (-52 : ℤ) = 2 ^ (-53 : ℤ) + 2 ^ (-53 : ℤ) := by norm_num
    rw [d]
    have : (2 : ℝ) ^ (-53 : ℤ) * 2 ^ (-1000 : ℤ) ≤ 2 ^ (-53 : ℤ) * Real.exp x := mul_le_mul_of_nonneg_left b (by positivity)
    linarith

section
variable {R : Rounding} (hR : DoubleAccurate R)
include hR

/-- Time step, drift per unit of time and diffusion of one step. -/
theorem exponent_parts {sigma r q T z : ℝ} {n : ℕ} (hn : n ≤ 2 ^ 53) (hs : |sigma| ≤ 2 ^ 100) (hr : |r| ≤ 2 ^ 100) (hq : |q| ≤ 2 ^ 100)
    (hd : 2 ^ (-200 : ℤ) ≤ T / n) (hd2 : T / n ≤ 2 ^ 100) (hz : |z| ≤ 2 ^ 100) :
    Near R (2 ^ (-53 : ℤ)) 1 (2 ^ (-1075 : ℤ)) (T / n) (Sim.dt (.num T) n) (T / n) ∧
    Near R (2 ^ (-53 : ℤ)) 4 (2 ^ (-850 : ℤ)) (|r| + |q| + 1 / 2 * |sigma| * |sigma|)
      (.num r - .num q - lit (1 / 2) * .num sigma * .num sigma) (r - q - 1 / 2 * sigma * sigma) ∧
    Near R (2 ^ (-53 : ℤ)) 4 (2 ^ (-700 : ℤ)) (|sigma| * Real.sqrt (T / n) * |z|) (.num sigma * Fl.sqrt (Sim.dt (.num T) n) * .num z)
      (sigma * Real.sqrt (T / n) * z) := by
  have A := hR.round
  have hu : (0 : ℝ) ≤ 2 ^ (-53 : ℤ) := by positivity
  have hd0 : 0 < T / n := lt_of_lt_of_le (by positivity) hd
  have hn0 : (n : ℝ) ≠ 0 := by
    rintro h
    rw [h, div_zero] at hd0
    exact lt_irrefl _ hd0
  have k0 : ((1 : ℝ) + 2 ^ (-53 : ℤ)) ^ 0 ≤ 2 := by norm_num
  have k1 : ((1 : ℝ) + 2 ^ (-53 : ℤ)) ^ 1 ≤ 2 := by norm_num
  have k2 : ((1 : ℝ) + 2 ^ (-53 : ℤ)) ^ 2 ≤ 2 := by norm_num
  have k3 : ((1 : ℝ) + 2 ^ (-53 : ℤ)) ^ 3 ≤ 2 := by norm_num
  -- the time step
  have dt1 : Near R (2 ^ (-53 : ℤ)) 1 (2 ^ (-1075 : ℤ)) (T / n) (Sim.dt (.num T) n) (T / n) := by
    have e : Sim.dt (.num (T : EReal)) n = (.num (R.rnd (T / n)) : Dbl R) := by
      unfold Sim.dt
      rw [Dbl.lit_def]
      push_cast
      rw [hR.int n hn, Dbl.div_coe _ hn0]
    rw [e]
    refine near_rnd A hu (k := 0) (t := 0) (abs_of_pos hd0).le (by simp) ?_ (by norm_num)
    rw [abs_of_pos hd0]
    exact hd2.trans (by norm_num)
  -- half the variance
  have half : Near R (2 ^ (-53 : ℤ)) 1 (2 ^ (-1075 : ℤ)) (1 / 2) (lit (1 / 2)) (1 / 2) := by
    rw [Dbl.lit_def]
    push_cast
    exact near_rnd A hu (k := 0) (t := 0) (by rw [abs_of_pos] <;> norm_num) (by simp) (by rw [abs_of_pos] <;> norm_num) (by norm_num)
  have s1 : Near R (2 ^ (-53 : ℤ)) 2 (2 ^ (-970 : ℤ)) (1 / 2 * |sigma|) (lit (1 / 2) * .num sigma) (1 / 2 * sigma) := by
    refine half.mul A hu k1 k0 (Near.exact sigma) (by positivity) le_rfl ?_ ?_
    · calc (2 * (1 / 2) + (2 : ℝ) ^ (-1075 : ℤ)) * (2 * |sigma| + 0) ≤ (2 * (1 / 2) + (2 : ℝ) ^ (-1075 : ℤ)) * (2 * 2 ^ 100 + 0) := by gcongr
        _ ≤ 2 ^ (1000 : ℤ) := by norm_num
    · calc (1 + (2 : ℝ) ^ (-53 : ℤ)) * (2 * (2 ^ (-1075 : ℤ) * |sigma| + 1 / 2 * 0) + 2 ^ (-1075 : ℤ) * 0) + 2 ^ (-1075 : ℤ)
          ≤ (1 + (2 : ℝ) ^ (-53 : ℤ)) * (2 * (2 ^ (-1075 : ℤ) * 2 ^ 100 + 1 / 2 * 0) + 2 ^ (-1075 : ℤ) * 0) + 2 ^ (-1075 : ℤ) := by gcongr
        _ ≤ 2 ^ (-970 : ℤ) := by norm_num
  have s2 : Near R (2 ^ (-53 : ℤ)) 3 (2 ^ (-860 : ℤ)) (1 / 2 * |sigma| * |sigma|) (lit (1 / 2) * .num sigma * .num sigma) (1 / 2 * sigma * sigma) := by
    refine s1.mul A hu k2 k0 (Near.exact sigma) (by positivity) le_rfl ?_ ?_
    · calc (2 * (1 / 2 * |sigma|) + (2 : ℝ) ^ (-970 : ℤ)) * (2 * |sigma| + 0) ≤ (2 * (1 / 2 * 2 ^ 100) + (2 : ℝ) ^ (-970 : ℤ)) * (2 * 2 ^ 100 + 0) := by gcongr
        _ ≤ 2 ^ (1000 : ℤ) := by norm_num
    · calc (1 + (2 : ℝ) ^ (-53 : ℤ)) * (2 * (2 ^ (-970 : ℤ) * |sigma| + 1 / 2 * |sigma| * 0) + 2 ^ (-970 : ℤ) * 0) + 2 ^ (-1075 : ℤ)
          ≤ (1 + (2 : ℝ) ^ (-53 : ℤ)) * (2 * (2 ^ (-970 : ℤ) * 2 ^ 100 + 1 / 2 * 2 ^ 100 * 0) + 2 ^ (-970 : ℤ) * 0) + 2 ^ (-1075 : ℤ) := by gcongr
        _ ≤ 2 ^ (-860 : ℤ) := by norm_num
  -- the drift
  have rq : Near R (2 ^ (-53 : ℤ)) 1 (2 ^ (-1075 : ℤ)) (|r| + |q|) (.num r - .num q) (r - q) := by
    refine (Near.exact r).sub A hu k0 (Near.exact q) ?_ (by norm_num)
    calc 2 * (|r| + |q|) + ((0 : ℝ) + 0) ≤ 2 * (2 ^ 100 + 2 ^ 100) + ((0 : ℝ) + 0) := by gcongr
      _ ≤ 2 ^ (1000 : ℤ) := by norm_num
  have d1 : Near R (2 ^ (-53 : ℤ)) 4 (2 ^ (-850 : ℤ)) (|r| + |q| + 1 / 2 * |sigma| * |sigma|)
      (.num r - .num q - lit (1 / 2) * .num sigma * .num sigma) (r - q - 1 / 2 * sigma * sigma) := by
    refine (rq.weaken hu (by norm_num : 1 ≤ 3) le_rfl).sub A hu k3 s2 ?_ (by norm_num)
    calc 2 * (|r| + |q| + 1 / 2 * |sigma| * |sigma|) + ((2 : ℝ) ^ (-1075 : ℤ) + 2 ^ (-860 : ℤ))
        ≤ 2 * (2 ^ 100 + 2 ^ 100 + 1 / 2 * 2 ^ 100 * 2 ^ 100) + ((2 : ℝ) ^ (-1075 : ℤ) + 2 ^ (-860 : ℤ)) := by gcongr
      _ ≤ 2 ^ (1000 : ℤ) := by norm_num
  -- the diffusion
  have hq1 : (2 : ℝ) ^ (-100 : ℤ) ≤ Real.sqrt (T / n) := by
    refine Real.le_sqrt_of_sq_le (le_trans ?_ hd)
    norm_num
  have hq2 : Real.sqrt (T / n) ≤ 2 ^ 100 := by
    rw [Real.sqrt_le_left (by positivity)]
    exact hd2.trans (by norm_num)
  have f1 : Near R (2 ^ (-53 : ℤ)) 2 (2 ^ (-970 : ℤ)) (Real.sqrt (T / n)) (Fl.sqrt (Sim.dt (.num T) n)) (Real.sqrt (T / n)) := by
    refine dt1.sqrt A hu (by norm_num) hd0 ?_ ?_ ?_
    · calc (2 : ℝ) ^ (-1075 : ℤ) ≤ 2 ^ (-200 : ℤ) / 4 := by norm_num
        _ ≤ T / n / 4 := by gcongr
    · calc 2 * Real.sqrt (T / n) ≤ 2 * 2 ^ 100 := by gcongr
        _ ≤ 2 ^ (1000 : ℤ) := by norm_num
    · calc (1 + (2 : ℝ) ^ (-53 : ℤ)) * (2 ^ (-1075 : ℤ) / Real.sqrt (T / n)) + 2 ^ (-1075 : ℤ)
          ≤ (1 + (2 : ℝ) ^ (-53 : ℤ)) * (2 ^ (-1075 : ℤ) / 2 ^ (-100 : ℤ)) + 2 ^ (-1075 : ℤ) := by gcongr
        _ ≤ 2 ^ (-970 : ℤ) := by norm_num
  have f2 : Near R (2 ^ (-53 : ℤ)) 3 (2 ^ (-860 : ℤ)) (|sigma| * Real.sqrt (T / n)) (.num sigma * Fl.sqrt (Sim.dt (.num T) n)) (sigma * Real.sqrt (T / n)) := by
    refine (Near.exact sigma).mul A hu k0 k2 f1 le_rfl (by positivity) ?_ ?_
    · calc (2 * |sigma| + 0) * (2 * Real.sqrt (T / n) + (2 : ℝ) ^ (-970 : ℤ)) ≤ (2 * 2 ^ 100 + 0) * (2 * 2 ^ 100 + (2 : ℝ) ^ (-970 : ℤ)) := by gcongr
        _ ≤ 2 ^ (1000 : ℤ) := by norm_num
    · calc (1 + (2 : ℝ) ^ (-53 : ℤ)) * (2 * (0 * Real.sqrt (T / n) + |sigma| * 2 ^ (-970 : ℤ)) + 0 * 2 ^ (-970 : ℤ)) + 2 ^ (-1075 : ℤ)
          ≤ (1 + (2 : ℝ) ^ (-53 : ℤ)) * (2 * (0 * 2 ^ 100 + 2 ^ 100 * 2 ^ (-970 : ℤ)) + 0 * 2 ^ (-970 : ℤ)) + 2 ^ (-1075 : ℤ) := by gcongr
        _ ≤ 2 ^ (-860 : ℤ) := by norm_num
  have f3 : Near R (2 ^ (-53 : ℤ)) 4 (2 ^ (-700 : ℤ)) (|sigma| * Real.sqrt (T / n) * |z|) (.num sigma * Fl.sqrt (Sim.dt (.num T) n) * .num z)
      (sigma * Real.sqrt (T / n) * z) := by
    refine f2.mul A hu k3 k0 (Near.exact z) (by positivity) le_rfl ?_ ?_
    · calc (2 * (|sigma| * Real.sqrt (T / n)) + (2 : ℝ) ^ (-860 : ℤ)) * (2 * |z| + 0) ≤ (2 * (2 ^ 100 * 2 ^ 100) + (2 : ℝ) ^ (-860 : ℤ)) * (2 * 2 ^ 100 + 0) := by gcongr
        _ ≤ 2 ^ (1000 : ℤ) := by norm_num
    · calc (1 + (2 : ℝ) ^ (-53 : ℤ)) * (2 * (2 ^ (-860 : ℤ) * |z| + |sigma| * Real.sqrt (T / n) * 0) + 2 ^ (-860 : ℤ) * 0) + 2 ^ (-1075 : ℤ)
          ≤ (1 + (2 : ℝ) ^ (-53 : ℤ)) * (2 * (2 ^ (-860 : ℤ) * 2 ^ 100 + 2 ^ 100 * 2 ^ 100 * 0) + 2 ^ (-860 : ℤ) * 0) + 2 ^ (-1075 : ℤ) := by gcongr
        _ ≤ 2 ^ (-700 : ℤ) := by norm_num
  exact ⟨dt1, d1, f3⟩

/-- The exponent of one step. -/
theorem exponent_error {sigma r q T z : ℝ} {n : ℕ} (hn : n ≤ 2 ^ 53) (hs : |sigma| ≤ 2 ^ 100) (hr : |r| ≤ 2 ^ 100) (hq : |q| ≤ 2 ^ 100)
    (hd : 2 ^ (-200 : ℤ) ≤ T / n) (hd2 : T / n ≤ 2 ^ 100) (hz : |z| ≤ 2 ^ 100) :
    Near R (2 ^ (-53 : ℤ)) 7 (2 ^ (-600 : ℤ)) ((|r| + |q| + sigma ^ 2 / 2) * (T / n) + |sigma| * Real.sqrt (T / n) * |z|)
      ((.num r - .num q - lit (1 / 2) * .num sigma * .num sigma) * Sim.dt (.num T) n + .num sigma * Fl.sqrt (Sim.dt (.num T) n) * .num z)
      ((r - q - sigma ^ 2 / 2) * (T / n) + sigma * Real.sqrt (T / n) * z) := by
  have A := hR.round
  have hu : (0 : ℝ) ≤ 2 ^ (-53 : ℤ) := by positivity
  have hd0 : 0 < T / n := lt_of_lt_of_le (by positivity) hd
  have k1 : ((1 : ℝ) + 2 ^ (-53 : ℤ)) ^ 1 ≤ 2 := by norm_num
  have k4 : ((1 : ℝ) + 2 ^ (-53 : ℤ)) ^ 4 ≤ 2 := by norm_num
  have k6 : ((1 : ℝ) + 2 ^ (-53 : ℤ)) ^ 6 ≤ 2 := by norm_num
  obtain ⟨dt1, d1, f3⟩ := exponent_parts hR hn hs hr hq hd hd2 hz
  have hq2 : Real.sqrt (T / n) ≤ 2 ^ 100 := by
    rw [Real.sqrt_le_left (by positivity)]
    exact hd2.trans (by norm_num)
  have d2 : Near R (2 ^ (-53 : ℤ)) 6 (2 ^ (-700 : ℤ)) ((|r| + |q| + 1 / 2 * |sigma| * |sigma|) * (T / n))
      ((.num r - .num q - lit (1 / 2) * .num sigma * .num sigma) * Sim.dt (.num T) n) ((r - q - 1 / 2 * sigma * sigma) * (T / n)) := by
    refine d1.mul A hu k4 k1 dt1 (by positivity) (by positivity) ?_ ?_
    · calc (2 * (|r| + |q| + 1 / 2 * |sigma| * |sigma|) + (2 : ℝ) ^ (-850 : ℤ)) * (2 * (T / n) + 2 ^ (-1075 : ℤ))
          ≤ (2 * (2 ^ 100 + 2 ^ 100 + 1 / 2 * 2 ^ 100 * 2 ^ 100) + (2 : ℝ) ^ (-850 : ℤ)) * (2 * 2 ^ 100 + 2 ^ (-1075 : ℤ)) := by gcongr
        _ ≤ 2 ^ (1000 : ℤ) := by norm_num
    · calc (1 + (2 : ℝ) ^ (-53 : ℤ)) * (2 * (2 ^ (-850 : ℤ) * (T / n) + (|r| + |q| + 1 / 2 * |sigma| * |sigma|) * 2 ^ (-1075 : ℤ)) + 2 ^ (-850 : ℤ) * 2 ^ (-1075 : ℤ)) + 2 ^ (-1075 : ℤ)
          ≤ (1 + (2 : ℝ) ^ (-53 : ℤ)) * (2 * (2 ^ (-850 : ℤ) * 2 ^ 100 + (2 ^ 100 + 2 ^ 100 + 1 / 2 * 2 ^ 100 * 2 ^ 100) * 2 ^ (-1075 : ℤ)) + 2 ^ (-850 : ℤ) * 2 ^ (-1075 : ℤ)) + 2 ^ (-1075 : ℤ) := by gcongr
        _ ≤ 2 ^ (-700 : ℤ) := by norm_num
  have hsq : |sigma| * |sigma| = sigma ^ 2 := by rw [← abs_mul, ← sq, abs_of_nonneg (sq_nonneg _)]
  have := d2.add A hu k6 (f3.weaken hu (by norm_num : 4 ≤ 6) le_rfl) (t := 2 ^ (-600 : ℤ)) ?_ (by norm_num)
  · convert this using 1
    · rw [mul_assoc (1 / 2) |sigma|, hsq]; ring
    · ring
  · calc 2 * ((|r| + |q| + 1 / 2 * |sigma| * |sigma|) * (T / n) + |sigma| * Real.sqrt (T / n) * |z|) + ((2 : ℝ) ^ (-700 : ℤ) + 2 ^ (-700 : ℤ))
        ≤ 2 * ((2 ^ 100 + 2 ^ 100 + 1 / 2 * 2 ^ 100 * 2 ^ 100) * 2 ^ 100 + 2 ^ 100 * 2 ^ 100 * 2 ^ 100) + ((2 : ℝ) ^ (-700 : ℤ) + 2 ^ (-700 : ℤ)) := by gcongr
      _ ≤ 2 ^ (1000 : ℤ) := by norm_num

/-- One step: the logarithm of the price. -/
theorem price_step {y P x m E : ℝ} {e : Dbl R} (hy : 0 < y) (hP : 0 < P) (hE : |Real.log y - Real.log P| ≤ E) (hx : Near R (2 ^ (-53 : ℤ)) 7 (2 ^ (-600 : ℤ)) m e x)
    (hP1 : |Real.log P| ≤ 300) (hP2 : |Real.log P + x| ≤ 300) (hw : E + 2 ^ (-50 : ℤ) * (1 + m) ≤ 1) :
    ∃ y' : ℝ, .num y * Fl.exp e = (.num y' : Dbl R) ∧ 0 < y' ∧ |Real.log y' - (Real.log P + x)| ≤ E + 2 ^ (-50 : ℤ) * (1 + m) := by
  obtain ⟨hm, z, rfl, hz⟩ := hx
  have hm0 : 0 ≤ m := (abs_nonneg x).trans hm
  have hE0 : 0 ≤ E := (abs_nonneg _).trans hE
  have c1 : ((1 : ℝ) + 2 ^ (-53 : ℤ)) ^ 7 - 1 ≤ 15 / 2 * 2 ^ (-53 : ℤ) := by norm_num
  have hz' : |z - x| ≤ 15 / 2 * 2 ^ (-53 : ℤ) * m + 2 ^ (-600 : ℤ) := hz.trans (by gcongr)
  have hx6 : |x| ≤ 600 := by
    have := abs_sub_le (Real.log P + x) 0 (Real.log P)
    simp only [sub_zero, zero_sub, abs_neg] at this
    rw [show Real.log P + x - Real.log P = x by ring] at this
    linarith
  have w1 : (2 : ℝ) ^ (-50 : ℤ) = 8 * 2 ^ (-53 : ℤ) := by norm_num
  have w2 : (2 : ℝ) ^ (-600 : ℤ) ≤ 1 / 100 * 2 ^ (-53 : ℤ) := by norm_num
  have w3 : (0 : ℝ) < 2 ^ (-53 : ℤ) := by positivity
  have w4 : (2 : ℝ) ^ (-53 : ℤ) ≤ 1 / 1000000 := by norm_num
  have w5 : (2 : ℝ) ^ (-52 : ℤ) = 2 * 2 ^ (-53 : ℤ) := by norm_num
  have w6 : (2 : ℝ) ^ (-1075 : ℤ) ≤ 1 / 100 * 2 ^ (-53 : ℤ) * 2 ^ (-500 : ℤ) := by norm_num
  have hf' := hR.exp
  have hr' := hR.round
  rw [w1] at hw ⊢
  unfold Accurate at hr'
  rw [w5] at hf'
  clear hz c1 w1 w5
  generalize (2 : ℝ) ^ (-53 : ℤ) = u at *
  generalize (2 : ℝ) ^ (-600 : ℤ) = t at *
  generalize (2 : ℝ) ^ (-1075 : ℤ) = t' at *
  have hum : 0 ≤ u * m := mul_nonneg w3.le hm0
  have hz6 : |z| ≤ 650 := by
    have := abs_add_le (z - x) x
    rw [sub_add_cancel] at this
    linarith
  obtain ⟨f, ef, hf⟩ := hf' z hz6
  obtain ⟨hf0, hf1⟩ := abs_log_le (Real.exp_pos z) (by linarith) hf
  rw [Real.log_exp] at hf1
  -- the product
  have hyf : 0 < y * f := mul_pos hy hf0
  have hl : Real.log (y * f) = Real.log y + Real.log f := Real.log_mul hy.ne' hf0.ne'
  have g1 : |Real.log (y * f) - (Real.log P + x)| ≤ E + (15 / 2 * u * m + 1 / 100 * u) + 4 * u := by
    rw [hl, show Real.log y + Real.log f - (Real.log P + x) = (Real.log y - Real.log P) + ((Real.log f - z) + (z - x)) by ring]
    have a1 := abs_add_le (Real.log y - Real.log P) ((Real.log f - z) + (z - x))
    have a2 := abs_add_le (Real.log f - z) (z - x)
    linarith
  have g2 : |Real.log (y * f)| ≤ 302 := by
    have a1 := abs_add_le (Real.log (y * f) - (Real.log P + x)) (Real.log P + x)
    rw [sub_add_cancel] at a1
    linarith
  obtain ⟨g3, g4⟩ := abs_le.mp g2
  have e302 : Real.exp 302 ≤ 2 ^ (500 : ℤ) := by
    have : Real.exp 302 = Real.exp 1 ^ 302 := by rw [← Real.exp_nat_mul]; norm_num
    rw [this]
    calc Real.exp 1 ^ 302 ≤ (2.7182818286 : ℝ) ^ 302 := pow_le_pow_left₀ (Real.exp_pos _).le Real.exp_one_lt_d9.le _
      _ ≤ 2 ^ (500 : ℤ) := by norm_num
  have g5 : y * f ≤ 2 ^ (500 : ℤ) := by
    rw [← Real.exp_log hyf]
    exact (Real.exp_le_exp.mpr g4).trans e302
  have g6 : (2 : ℝ) ^ (-500 : ℤ) ≤ y * f := by
    rw [← Real.exp_log hyf]
    refine le_trans ?_ (Real.exp_le_exp.mpr g3)
    rw [Real.exp_neg, zpow_neg]
    exact inv_anti₀ (Real.exp_pos _) e302
  obtain ⟨y', ey, hy'⟩ := hr' (y * f) (by rw [abs_of_pos hyf]; exact g5.trans (by norm_num))
  rw [abs_of_pos hyf] at hy'
  have g7 : |y' - y * f| ≤ 101 / 100 * u * (y * f) := by
    refine hy'.trans ?_
    have : 1 / 100 * u * 2 ^ (-500 : ℤ) ≤ 1 / 100 * u * (y * f) := mul_le_mul_of_nonneg_left g6 (by positivity)
    linarith
  obtain ⟨hy0, hy1⟩ := abs_log_le hyf (by linarith) g7
  refine ⟨y', ?_, hy0, ?_⟩
  · rw [Dbl.exp_coe, ef, Dbl.mul_coe, ey]
  · have := abs_sub_le (Real.log y') (Real.log (y * f)) (Real.log P + x)
    linarith

end

theorem log_gbmPath {S : ℝ} (hS : 0 < S) (sigma r q T : ℝ) (n : ℕ) (z : ℕ → ℝ) (j : ℕ) : Real.log (gbmPath S sigma r q T n z j) =
    Real.log S + ((r - q - sigma ^ 2 / 2) * ((j + 1) * (T / n)) + sigma * Real.sqrt (T / n) * ∑ l ∈ Finset.range (j + 1), z l) := by
  rw [gbmPath, Real.log_mul hS.ne' (Real.exp_pos _).ne', Real.log_exp]

theorem gbmPath_succ (S sigma r q T : ℝ) (n : ℕ) (z : ℕ → ℝ) (j : ℕ) :
    gbmPath S sigma r q T n z (j + 1) = gbmPath (gbmPath S sigma r q T n z 0) sigma r q T n (fun l => z (l + 1)) j := by
  simp only [gbmPath]
  rw [mul_assoc S, ← Real.exp_add, Finset.sum_range_succ' _ (j + 1)]
  congr 2
  simp
  ring

section
variable {R : Rounding} (hR : DoubleAccurate R) {G : Type} (g : Gen G (Dbl R))
include hR

/-- The loop over the dates. -/
theorem path_loop (d : Dist (Dbl R)) {v : View (Dbl R)} {sigma r q T : ℝ} {n : ℕ} (hv1 : v.sigma = .num sigma) (hv2 : v.r = .num r) (hv3 : v.c = .num q)
    (hn : n ≤ 2 ^ 53) (hs : |sigma| ≤ 2 ^ 100) (hr : |r| ≤ 2 ^ 100) (hq : |q| ≤ 2 ^ 100) (hd : 2 ^ (-200 : ℤ) ≤ T / n) (hd2 : T / n ≤ 2 ^ 100) :
    ∀ (zs : List ℝ) (y P E : ℝ) (s s' : G), Draws (g.draw d) s (zs.map fun x : ℝ => .num x) s' → 0 < y → 0 < P → |Real.log y - Real.log P| ≤ E →
      |Real.log P| ≤ 300 → (∀ j < zs.length, |Real.log (gbmPath P sigma r q T n (fun l => zs.getD l 0) j)| ≤ 300) → (∀ z ∈ zs, |z| ≤ 2 ^ 100) →
      (∀ j < zs.length, E + 2 ^ (-50 : ℤ) * gbmWork sigma r q T n (fun l => zs.getD l 0) j ≤ 1) →
      ∃ ps : List ℝ, Eff.unfoldN (Sim.gbmStep g v (Sim.dt (.num T) n) d) zs.length (.num y) s = (.ok (ps.map fun x : ℝ => .num x), s') ∧
        ps.length = zs.length ∧ ∀ j < zs.length, 0 < ps.getD j 0 ∧
          |Real.log (ps.getD j 0) - Real.log (gbmPath P sigma r q T n (fun l => zs.getD l 0) j)| ≤ E + 2 ^ (-50 : ℤ) * gbmWork sigma r q T n (fun l => zs.getD l 0) j
  | [], y, P, E, s, s', hD, _, _, _, _, _, _, _ => by
    cases hD
    exact ⟨[], rfl, rfl, fun j hj => absurd hj (by simp)⟩
  | z :: zs, y, P, E, s, s', hD, hy, hP, hE, hP1, hp, hz, hw => by
    cases hD with
    | @cons _ s1 _ _ _ h1 h2 =>
    have hpos : 0 < gbmPath P sigma r q T n (fun l => (z :: zs).getD l 0) 0 := mul_pos hP (Real.exp_pos _)
    have e0 : Real.log (gbmPath P sigma r q T n (fun l => (z :: zs).getD l 0) 0) =
        Real.log P + ((r - q - sigma ^ 2 / 2) * (T / n) + sigma * Real.sqrt (T / n) * z) := by
      rw [log_gbmPath hP]
      simp
    have w0 : gbmWork sigma r q T n (fun l => (z :: zs).getD l 0) 0 = 1 + ((|r| + |q| + sigma ^ 2 / 2) * (T / n) + |sigma| * Real.sqrt (T / n) * |z|) := by
      simp [gbmWork]
      ring
    have ws : ∀ j, gbmWork sigma r q T n (fun l => (z :: zs).getD l 0) (j + 1) =
        gbmWork sigma r q T n (fun l => (z :: zs).getD l 0) 0 + gbmWork sigma r q T n (fun l => zs.getD l 0) j := by
      intro j
      unfold gbmWork
      rw [Finset.sum_range_succ' _ (j + 1)]
      simp
      ring
    have ps' : ∀ j, gbmPath P sigma r q T n (fun l => (z :: zs).getD l 0) (j + 1) =
        gbmPath (gbmPath P sigma r q T n (fun l => (z :: zs).getD l 0) 0) sigma r q T n (fun l => zs.getD l 0) j := by
      intro j
      rw [gbmPath_succ]
      simp
    have q0 := hp 0 (by simp)
    rw [e0] at q0
    have q1 := hw 0 (by simp)
    rw [w0] at q1
    obtain ⟨y', ey, hy0, hy1⟩ := price_step hR hy hP hE (exponent_error hR hn hs hr hq hd hd2 (hz z (by simp))) hP1 q0 q1
    rw [← e0, ← w0] at hy1
    obtain ⟨ps, hps, hl, hj⟩ := path_loop d hv1 hv2 hv3 hn hs hr hq hd hd2 zs y' _ _ s1 s' h2 hy0 hpos hy1 (hp 0 (by simp))
      (fun j hj => by rw [← ps']; exact hp (j + 1) (by simpa using hj)) (fun x hx => hz x (by simp [hx]))
      (fun j hj => by rw [add_assoc, ← mul_add, ← ws]; exact hw (j + 1) (by simpa using hj))
    refine ⟨y' :: ps, ?_, by simp [hl], fun j hj' => ?_⟩
    · have hb : Sim.gbmStep g v (Sim.dt (.num T) n) d (.num y) s = (.ok ((.num y' : Dbl R), (.num y' : Dbl R)), s1) := by
        unfold Sim.gbmStep Sim.draw
        rw [Eff.bind_of_ok h1]
        show (Res.ok _, s1) = _
        unfold Sim.gbmUpdate
        rw [hv1, hv2, hv3, ey]
      show Eff.unfoldN _ (zs.length + 1) _ _ = _
      unfold Eff.unfoldN
      rw [Eff.bind_of_ok hb, Eff.bind_of_ok hps]
      rfl
    · cases j with
      | zero => exact ⟨by simpa using hy0, by simpa using hy1⟩
      | succ j =>
        obtain ⟨a, b⟩ := hj j (by simpa using hj')
        rw [ps', ws, mul_add, ← add_assoc]
        exact ⟨by simpa using a, by simpa using b⟩

/-- **C81.** Every price of a GBM path computed in double precision differs from the exact price for the same normal numbers by
at most `2⁻⁴⁹` times `gbmWork`, relatively. -/
theorem C81_path {S sigma r T : ℝ} {q : Option ℝ} {zs : List ℝ} {s s' : G} (hD : Draws (g.draw .stdNormal) (g.newDist .stdNormal s) (zs.map fun x : ℝ => .num x) s')
    (hn : zs.length ≤ INT_MAX) (hm : Moderate S sigma r (q.getD 0) T zs.length fun l => zs.getD l 0) :
    ∃ ps : List ℝ, Sim.prices g zs.length ⟨.num S, .num sigma, q.map fun x : ℝ => .num x, .num r⟩ (.num T) .gbm s = (.ok (ps.map fun x : ℝ => .num x), s') ∧
      ps.length = zs.length ∧ ∀ j < zs.length, 0 < ps.getD j 0 ∧
        |ps.getD j 0 - gbmPath S sigma r (q.getD 0) T zs.length (fun l => zs.getD l 0) j| ≤
          2 ^ (-49 : ℤ) * gbmWork sigma r (q.getD 0) T zs.length (fun l => zs.getD l 0) j * gbmPath S sigma r (q.getD 0) T zs.length (fun l => zs.getD l 0) j := by
  have hS : 0 < S := (Real.exp_pos _).trans_le hm.start.1
  have hlog : ∀ {x : ℝ}, Real.exp (-300) ≤ x ∧ x ≤ Real.exp 300 → |Real.log x| ≤ 300 := by
    intro x hx
    have h0 : 0 < x := (Real.exp_pos _).trans_le hx.1
    rw [abs_le]
    exact ⟨(Real.le_log_iff_exp_le h0).mpr hx.1, (Real.log_le_iff_le_exp h0).mpr hx.2⟩
  have hd0 : 0 < T / zs.length := lt_of_lt_of_le (by positivity) hm.step.1
  have hwork : ∀ j < zs.length, gbmWork sigma r (q.getD 0) T zs.length (fun l => zs.getD l 0) j ≤ 2 ^ 40 := by
    intro j hj
    refine le_trans ?_ hm.work
    unfold gbmWork
    refine Finset.sum_le_sum_of_subset_of_nonneg (Finset.range_mono (by omega)) fun l _ _ => ?_
    positivity
  have hw0 : ∀ j, 0 ≤ gbmWork sigma r (q.getD 0) T zs.length (fun l => zs.getD l 0) j := by
    intro j
    unfold gbmWork
    refine Finset.sum_nonneg fun l _ => ?_
    positivity
  obtain ⟨ps, h1, h2, h3⟩ := path_loop hR g .stdNormal (v := ⟨.num S, .num sigma, q.map fun x : ℝ => .num x, .num r⟩) (sigma := sigma) (r := r) (q := q.getD 0)
    (T := T) (n := zs.length) rfl rfl (by cases q <;> simp [View.c]) (hn.trans (by norm_num [INT_MAX])) hm.vol hm.rate hm.coupon hm.step.1 hm.step.2 zs S S 0 _ s' hD hS hS
    (by simp) (hlog hm.start) (fun j hj => hlog (hm.prices j hj))
    (fun z hz => by
      obtain ⟨j, hj, rfl⟩ := List.mem_iff_getElem.mp hz
      have := hm.draws j hj
      simpa [hj] using this)
    (fun j hj => by
      have := mul_le_mul_of_nonneg_left (hwork j hj) (by positivity : (0 : ℝ) ≤ 2 ^ (-50 : ℤ))
      refine (zero_add _).le.trans (this.trans (by norm_num)))
  refine ⟨ps, ?_, h2, fun j hj => ?_⟩
  · show Sim.gbm g zs.length _ (.num T) s = _
    unfold Sim.gbm
    rw [Eff.bind_of_ok (show Sim.newDist g (.ok .stdNormal) s = (.ok .stdNormal, g.newDist .stdNormal s) from rfl), Eff.unfoldInt_of_le hn]
    exact h1
  · obtain ⟨a, b⟩ := h3 j hj
    refine ⟨a, ?_⟩
    have hP : 0 < gbmPath S sigma r (q.getD 0) T zs.length (fun l => zs.getD l 0) j := mul_pos hS (Real.exp_pos _)
    have hw1 := hwork j hj
    have hw2 := hw0 j
    generalize gbmPath S sigma r (q.getD 0) T zs.length (fun l => zs.getD l 0) j = P at *
    generalize gbmWork sigma r (q.getD 0) T zs.length (fun l => zs.getD l 0) j = W at *
    generalize ps.getD j 0 = p at *
    rw [zero_add] at b
    have c1 : (2 : ℝ) ^ (-49 : ℤ) = 2 * 2 ^ (-50 : ℤ) := by norm_num
    have c2 : (2 : ℝ) ^ (-50 : ℤ) * W ≤ 1 / 2 := (mul_le_mul_of_nonneg_left hw1 (by positivity)).trans (by norm_num)
    have c3 : 0 ≤ (2 : ℝ) ^ (-50 : ℤ) * W := by positivity
    rw [c1, mul_assoc 2]
    generalize (2 : ℝ) ^ (-50 : ℤ) * W = D at *
    obtain ⟨b1, b2⟩ := abs_le.mp b
    have e1 : p = P * Real.exp (Real.log p - Real.log P) := by
      rw [Real.exp_sub, Real.exp_log a, Real.exp_log hP]
      field_simp
    have u1 : Real.exp (Real.log p - Real.log P) ≤ 1 + 2 * D := (Real.exp_le_exp.mpr b2).trans (exp_le_of_small c3 c2)
    have u2 : 1 - 2 * D ≤ Real.exp (Real.log p - Real.log P) := by
      have := Real.add_one_le_exp (Real.log p - Real.log P)
      linarith
    generalize Real.exp (Real.log p - Real.log P) = x at *
    rw [e1, abs_le]
    constructor <;> nlinarith

/-- The payoff of a computed price. -/
theorem payoff_error {p P K a : ℝ} (ty : PayoffType) (hP : 2 ^ (-500 : ℤ) ≤ P) (hP2 : P ≤ 2 ^ (500 : ℤ)) (hK : |K| ≤ 2 ^ (500 : ℤ)) (h : |p - P| ≤ a) (ha : a ≤ P) :
    ∃ w : ℝ, (Payoff.vanilla ty (.num K) : Payoff (Dbl R)).eval1 (.num p) = .ok (.num w) ∧ 0 ≤ w ∧
      |w - vanillaValue (ty = .call) K P| ≤ a + 2 ^ (-51 : ℤ) * (P + |K|) := by
  have hpp : |p| ≤ 2 * P := by
    have := abs_add_le (p - P) P
    rw [sub_add_cancel, abs_of_pos (lt_of_lt_of_le (by positivity) hP)] at this
    linarith
  have key : ∀ x X : ℝ, |x| ≤ 2 * P + |K| → |x - X| ≤ a → ∃ y : ℝ, R.rnd x = y ∧ |max y 0 - max X 0| ≤ a + 2 ^ (-51 : ℤ) * (P + |K|) := by
    intro x X h1 h2
    obtain ⟨y, e, hy⟩ := hR.round x (h1.trans (by
      have : 2 * P + |K| ≤ 2 * 2 ^ (500 : ℤ) + 2 ^ (500 : ℤ) := by gcongr
      exact this.trans (by norm_num)))
    refine ⟨y, e, ?_⟩
    have m1 : |max y 0 - max X 0| ≤ |y - X| := abs_max_sub_max_le_abs y X 0
    have m2 := abs_sub_le y x X
    have m3 : (2 : ℝ) ^ (-53 : ℤ) * |x| ≤ 2 ^ (-53 : ℤ) * (2 * P + |K|) := mul_le_mul_of_nonneg_left h1 (by positivity)
    have m4 : (2 : ℝ) ^ (-1075 : ℤ) ≤ 2 ^ (-53 : ℤ) * 2 ^ (-500 : ℤ) := by norm_num
    have m5 : (2 : ℝ) ^ (-53 : ℤ) * 2 ^ (-500 : ℤ) ≤ 2 ^ (-53 : ℤ) * P := mul_le_mul_of_nonneg_left hP (by positivity)
    have m6 : (2 : ℝ) ^ (-51 : ℤ) = 4 * 2 ^ (-53 : ℤ) := by norm_num
    have m7 : 0 ≤ (2 : ℝ) ^ (-53 : ℤ) * |K| := by positivity
    have m8 : 0 ≤ (2 : ℝ) ^ (-53 : ℤ) * P := le_trans (by positivity) m5
    rw [m6]
    generalize (2 : ℝ) ^ (-53 : ℤ) = u at *
    generalize (2 : ℝ) ^ (-1075 : ℤ) = t at *
    generalize (2 : ℝ) ^ (-500 : ℤ) = t' at *
    nlinarith
  have hkp : |p| + |K| ≤ 2 * P + |K| := by linarith
  have hmax : ∀ y : ℝ, Fl.max (.num (y : EReal)) (lit 0) = (.num ((max y 0 : ℝ) : EReal) : Dbl R) := by
    intro y
    rw [Dbl.lit_zero, Dbl.max_num]
    congr 1
  unfold vanillaValue Payoff.eval1
  by_cases hc : ty = .call
  · obtain ⟨y, e, hy⟩ := key (p - K) (P - K) ((abs_sub p K).trans hkp) (by rwa [show p - K - (P - K) = p - P by ring])
    refine ⟨max y 0, ?_, le_max_right _ _, by rw [if_pos hc]; exact hy⟩
    have es : (.num (p : EReal) - .num (K : EReal) : Dbl R) = .num (R.rnd (p - K)) := by
      rw [Dbl.sub_def, Dbl.neg_num, sub_eq_add_neg, ← Dbl.add_coe, EReal.coe_neg]
    simp only [hc, if_true, es, e, hmax]
  · obtain ⟨y, e, hy⟩ := key (K - p) (K - P) ((abs_sub K p).trans (by rw [add_comm]; exact hkp)) (by rwa [show K - p - (K - P) = -(p - P) by ring, abs_neg])
    refine ⟨max y 0, ?_, le_max_right _ _, by rw [if_neg hc]; exact hy⟩
    have es : (.num (K : EReal) - .num (p : EReal) : Dbl R) = .num (R.rnd (K - p)) := by
      rw [Dbl.sub_def, Dbl.neg_num, sub_eq_add_neg, ← Dbl.add_coe, EReal.coe_neg]
    simp only [hc, if_false, es, e, hmax]

end

/-! ## European options -/

section
variable {E Q : Type} (env : Env E Q (Dbl .binary64))

theorem e300 : Real.exp 300 ≤ 2 ^ (500 : ℤ) := by
  have : Real.exp 300 = Real.exp 1 ^ 300 := by rw [← Real.exp_nat_mul]; norm_num
  rw [this]
  calc Real.exp 1 ^ 300 ≤ (2.7182818286 : ℝ) ^ 300 := pow_le_pow_left₀ (Real.exp_pos _).le Real.exp_one_lt_d9.le _
    _ ≤ 2 ^ (500 : ℤ) := by norm_num

theorem e300' : (2 : ℝ) ^ (-500 : ℤ) ≤ Real.exp (-300) := by
  rw [Real.exp_neg, zpow_neg]
  exact inv_anti₀ (Real.exp_pos _) e300

/-- The paths of the pricer, and what they pay. -/
theorem paths_error {G : Type} (g : Gen G (Dbl .binary64)) {S sigma r T K : ℝ} {q : Option ℝ} {n : ℕ} (hn0 : 0 < n) (hn : n ≤ INT_MAX) (ty : PayoffType)
    (hK : |K| ≤ 2 ^ (500 : ℤ)) {s s' : G} {zss : List (List ℝ)} (hD : PathDraws g n s zss s')
    (hm : ∀ zs ∈ zss, Moderate S sigma r (q.getD 0) T n fun l => zs.getD l 0) :
    ∃ (as : List (Dbl .binary64)) (w : List ℝ),
      Draws (Sim.maturity g n ⟨.num S, .num sigma, q.map fun x : ℝ => .num x, .num r⟩ (.num T) .gbm) s as s' ∧
      Pays (Payoff.vanilla ty (.num K) : Payoff (Dbl .binary64)).eval1 as (w.map fun x : ℝ => .num x) ∧ as.length = zss.length ∧ (∀ x ∈ w, 0 ≤ x) ∧
      w.sum ≤ zss.length * 2 ^ (510 : ℤ) ∧
      |w.sum - (zss.map fun zs => vanillaValue (ty = .call) K (gbmPath S sigma r (q.getD 0) T n (fun l => zs.getD l 0) (n - 1))).sum| ≤
        (zss.map fun zs => payoffError S sigma r (q.getD 0) T K n fun l => zs.getD l 0).sum := by
  induction hD with
  | nil s => exact ⟨[], [], .nil s, .nil, rfl, by simp, by simp, by simp⟩
  | @cons s s₁ s₂ zs zss hl h t ih =>
    obtain ⟨as, w, h1, h2, h3, h4, h5, h6⟩ := ih fun zs hz => hm zs (by simp [hz])
    have hM := hm zs (by simp)
    obtain ⟨ps, p1, p2, p3⟩ := C81_path binary64_doubleAccurate g (S := S) (sigma := sigma) (r := r) (T := T) (q := q) h (hl ▸ hn) (hl ▸ hM)
    rw [hl] at p1 p2 p3
    obtain ⟨p4, p5⟩ := p3 (n - 1) (by omega)
    obtain ⟨hP1, hP2⟩ := hM.prices (n - 1) (by omega)
    have hP0 : 0 < gbmPath S sigma r (q.getD 0) T n (fun l => zs.getD l 0) (n - 1) := (Real.exp_pos _).trans_le hP1
    have hw := hM.work
    have ha : 2 ^ (-49 : ℤ) * gbmWork sigma r (q.getD 0) T n (fun l => zs.getD l 0) (n - 1) * gbmPath S sigma r (q.getD 0) T n (fun l => zs.getD l 0) (n - 1) ≤
        gbmPath S sigma r (q.getD 0) T n (fun l => zs.getD l 0) (n - 1) := by
      refine mul_le_of_le_one_left hP0.le ?_
      exact (mul_le_mul_of_nonneg_left hw (by positivity)).trans (by norm_num)
    obtain ⟨x, x1, x2, x3⟩ := payoff_error binary64_doubleAccurate (K := K) ty (e300'.trans hP1) (hP2.trans e300) hK p5 ha
    have hmat : Sim.maturity g n ⟨.num S, .num sigma, q.map fun x : ℝ => .num x, .num r⟩ (.num T) .gbm s = (.ok (.num (ps.getD (n - 1) 0 : ℝ)), s₁) := by
      unfold Sim.maturity
      rw [Eff.bind_of_ok p1]
      have hne : ps ≠ [] := by
        intro h0
        rw [h0] at p2
        exact hn0.ne p2
      have : vback (ps.map fun x : ℝ => (.num x : Dbl .binary64)) = .ok (.num (ps.getD (n - 1) 0 : ℝ)) := by
        unfold vback
        rw [List.getLast?_map, List.getLast?_eq_getElem?, p2, List.getD_eq_getElem?_getD, List.getElem?_eq_getElem (by omega)]
        rfl
      rw [this]
      rfl
    refine ⟨_ :: as, x :: w, .cons hmat h1, .cons x1 h2, by simp [h3], by simpa [x2] using h4, ?_, ?_⟩
    · have b1 : vanillaValue (ty = .call) K (gbmPath S sigma r (q.getD 0) T n (fun l => zs.getD l 0) (n - 1)) ≤
          gbmPath S sigma r (q.getD 0) T n (fun l => zs.getD l 0) (n - 1) + |K| := by
        unfold vanillaValue
        have k1 := le_abs_self K
        have k2 := neg_abs_le K
        split <;> refine max_le (by linarith) (by positivity)
      have b2 := (abs_le.mp x3).2
      have b3 : (2 : ℝ) ^ (-51 : ℤ) * (gbmPath S sigma r (q.getD 0) T n (fun l => zs.getD l 0) (n - 1) + |K|) ≤
          1 * (gbmPath S sigma r (q.getD 0) T n (fun l => zs.getD l 0) (n - 1) + |K|) := mul_le_mul_of_nonneg_right (by norm_num) (by positivity)
      have b4 : x ≤ 2 ^ (510 : ℤ) := by
        have c1 : (5 : ℝ) * 2 ^ (500 : ℤ) ≤ 2 ^ (510 : ℤ) := by norm_num
        have c2 := hP2.trans e300
        generalize (2 : ℝ) ^ (500 : ℤ) = t at *
        generalize (2 : ℝ) ^ (510 : ℤ) = t' at *
        generalize (2 : ℝ) ^ (-51 : ℤ) * (gbmPath S sigma r (q.getD 0) T n (fun l => zs.getD l 0) (n - 1) + |K|) = t'' at *
        linarith
      simp only [List.sum_cons, List.length_cons, Nat.cast_add, Nat.cast_one]
      generalize (2 : ℝ) ^ (510 : ℤ) = t' at *
      linarith
    · simp only [List.sum_cons, List.map_cons]
      have := abs_add_le (x - vanillaValue (ty = .call) K (gbmPath S sigma r (q.getD 0) T n (fun l => zs.getD l 0) (n - 1)))
        (w.sum - (zss.map fun zs => vanillaValue (ty = .call) K (gbmPath S sigma r (q.getD 0) T n (fun l => zs.getD l 0) (n - 1))).sum)
      rw [sub_add_sub_comm] at this
      refine this.trans (add_le_add x3 h6)

/-- **C81.** A session that prices a European option on a GBM in double precision: the price it returns is the discounted mean of
the payoffs on the exact paths for the same normal numbers, up to the mean of `payoffError` and a relative error of
`(N + 9) · 2⁻⁵²`. -/
theorem C81_european {i : Session (Dbl .binary64)} {c : Session.Choices} {o : OptObj (Dbl .binary64)} (h : AcceptedSession i c .gbm o)
    (hf : i.factory = .european) {S sigma r T K : ℝ} {q : Option ℝ} (hS : i.S = .num S) (hs : i.sigma = .num sigma)
    (hq : i.coupon = q.map fun x : ℝ => .num x) (hr : i.r = .num r) (hK : lastSet i.params "K" = some (.dbl (.num K)))
    (hT : lastSet i.params "T" = some (.dbl (.num T))) (h1 : 0 < i.dim) (h2 : i.dim ≤ INT_MAX) (hrT : |r * T| ≤ 1) (hK2 : |K| ≤ 2 ^ (500 : ℤ))
    {x x' : E} {zss : List (List ℝ)} (hD : PathDraws env.engine.gen i.dim x zss x') (hN : 0 < zss.length) (hN2 : zss.length ≤ INT_MAX)
    (hm : ∀ zs ∈ zss, Moderate S sigma r (q.getD 0) T i.dim fun l => zs.getD l 0) (s : Sys E Q (Dbl .binary64)) :
    ∃ y : ℝ, (started env c i s zss.length x).1 = .ok (.num y) ∧
      |y - discountedMean r T (zss.map fun zs => vanillaValue (i.ty = .call) K (gbmPath S sigma r (q.getD 0) T i.dim (fun l => zs.getD l 0) (i.dim - 1)))| ≤
        (1 + (zss.length + 9) * 2 ^ (-52 : ℤ)) * discountedMean r T (zss.map fun zs => payoffError S sigma r (q.getD 0) T K i.dim fun l => zs.getD l 0) +
        (zss.length + 9) * 2 ^ (-52 : ℤ) *
          discountedMean r T (zss.map fun zs => vanillaValue (i.ty = .call) K (gbmPath S sigma r (q.getD 0) T i.dim (fun l => zs.getD l 0) (i.dim - 1))) +
        2 ^ (-1070 : ℤ) := by
  obtain ⟨-, -, o3, -, o5, -⟩ := h.option
  have hoT : o.T = .num T := (Param.dbl.inj (Option.some.inj (hT.symm.trans o3))).symm
  have hop : o.payoff = .vanilla i.ty (.num K) := by
    rw [hf] at o5
    obtain ⟨k, k1, -, k2⟩ := o5
    rw [k2, Param.dbl.inj (Option.some.inj (k1.symm.trans hK))]
  have hcls : i.cls = .singlePath := by
    have := h.family
    rw [hf] at this
    cases hc : i.cls <;> simp_all [Family]
  have hseen : ModelObj.seen (stockOf i) i.r = ⟨.num S, .num sigma, q.map fun x : ℝ => .num x, .num r⟩ := by
    unfold ModelObj.seen stockOf
    rw [hS, hs, hq, hr]
  obtain ⟨as, w, a1, a2, a3, a4, a5, a6⟩ := paths_error env.engine.gen (K := K) h1 h2 i.ty hK2 hD hm
  have hw : w.sum ≤ 2 ^ (1000 : ℤ) := by
    have b1 : (zss.length : ℝ) ≤ INT_MAX := by exact_mod_cast hN2
    refine a5.trans ((mul_le_mul_of_nonneg_right b1 (by positivity)).trans ?_)
    norm_num [INT_MAX]
  obtain ⟨y, y1, y2⟩ := C66_singlePath (ModelKind.source env.engine.gen i.dim ⟨.num S, .num sigma, q.map fun x : ℝ => .num x, .num r⟩ .gbm) (getR := pure (.num r))
    (pay := (Payoff.vanilla i.ty (.num K) : Payoff (Dbl .binary64)).eval1) (r := r) (t := T) hrT (s := x) (s' := x') rfl a1 a2 a4 (a3 ▸ hN) (a3 ▸ hN2) hw
  refine ⟨y, ?_, ?_⟩
  · rw [started_price env h s, hcls, hseen, hr]
    show (MC.singlePath _ (pure (.num r)) o.payoff.eval1 o.T zss.length x).1 = _
    rw [hop, hoT, ← a3, y1]
  · rw [a3] at y2
    unfold discountedMean
    simp only [List.length_map]
    have hl : (0 : ℝ) < zss.length := by exact_mod_cast hN
    have hd := Real.exp_pos (-(r * T))
    generalize Real.exp (-(r * T)) = d at *
    generalize (zss.map fun zs => vanillaValue (i.ty = .call) K (gbmPath S sigma r (q.getD 0) T i.dim (fun l => zs.getD l 0) (i.dim - 1))).sum = f at *
    generalize (zss.map fun zs => payoffError S sigma r (q.getD 0) T K i.dim fun l => zs.getD l 0).sum = e at *
    have c1 : |d * (w.sum / zss.length) - d * (f / zss.length)| ≤ d * (e / zss.length) := by
      rw [← mul_sub, ← sub_div, abs_mul, abs_div, abs_of_pos hd, abs_of_pos hl]
      gcongr
    have c2 : d * (w.sum / zss.length) ≤ d * (f / zss.length) + d * (e / zss.length) := by
      have := (abs_le.mp c1).2
      linarith
    have c3 : ((zss.length : ℝ) + 9) * 2 ^ (-52 : ℤ) * (d * (w.sum / zss.length)) ≤
        (zss.length + 9) * 2 ^ (-52 : ℤ) * (d * (f / zss.length) + d * (e / zss.length)) := mul_le_mul_of_nonneg_left c2 (by positivity)
    have c4 := abs_sub_le y (d * (w.sum / zss.length)) (d * (f / zss.length))
    generalize (2 : ℝ) ^ (-1070 : ℤ) = t at *
    generalize ((zss.length : ℝ) + 9) * 2 ^ (-52 : ℤ) = B at *
    linarith

end

/-! ## Examples -/

namespace PathErrorExample

/-- A generator that delivers 1/2, -1/4, 1/2, -1/4, ... -/
noncomputable def env : Env ℕ Unit (Dbl .binary64) :=
  ⟨⟨0, fun _ => 0, fun _ k => (.num ((if k % 2 = 0 then 1 / 2 else -1 / 4 : ℝ) : EReal), k + 1), fun _ k => k⟩,
    (toyEnv (F := Dbl .binary64)).sobol, (toyEnv (F := Dbl .binary64)).faure⟩

theorem draws : ∀ (N k : ℕ), PathDraws env.engine.gen 2 (2 * k) (List.replicate N [1 / 2, -1 / 4]) (2 * (k + N))
  | 0, k => .nil _
  | N + 1, k => by
    have ih := draws N (k + 1)
    rw [show k + 1 + N = k + (N + 1) by omega] at ih
    refine .cons rfl ?_ ih
    have a : env.engine.gen.draw .stdNormal (2 * k) = (.ok (.num ((1 / 2 : ℝ) : EReal)), 2 * k + 1) := by
      show (Res.ok (Dbl.num ((if 2 * k % 2 = 0 then 1 / 2 else -1 / 4 : ℝ) : EReal)), 2 * k + 1) = _
      rw [if_pos (by omega)]
    have b : env.engine.gen.draw .stdNormal (2 * k + 1) = (.ok (.num ((-1 / 4 : ℝ) : EReal)), 2 * (k + 1)) := by
      show (Res.ok (Dbl.num ((if (2 * k + 1) % 2 = 0 then 1 / 2 else -1 / 4 : ℝ) : EReal)), 2 * k + 1 + 1) = _
      rw [if_neg (by omega)]
      rfl
    exact .cons a (.cons b (.nil _))

theorem moderate : Moderate 100 (1 / 4) (1 / 16) 0 1 2 fun l => [1 / 2, -1 / 4].getD l 0 := by
  have q0 : 0 ≤ (Real.sqrt 2)⁻¹ := by positivity
  have q1 : Real.sqrt (1 / (2 : ℕ)) ≤ 1 := Real.sqrt_le_one.mpr (by norm_num)
  have h100 : (100 : ℝ) ≤ Real.exp 100 := by linarith [Real.add_one_le_exp (100 : ℝ)]
  have key : ∀ x : ℝ, -1 ≤ x → x ≤ 1 → Real.exp (-300) ≤ 100 * Real.exp x ∧ 100 * Real.exp x ≤ Real.exp 300 := by
    intro x h1 h2
    constructor
    · have a : Real.exp (-300) ≤ Real.exp x := Real.exp_le_exp.mpr (by linarith)
      linarith [Real.exp_pos x]
    · calc 100 * Real.exp x ≤ Real.exp 100 * Real.exp 1 := mul_le_mul h100 (Real.exp_le_exp.mpr h2) (Real.exp_pos _).le (Real.exp_pos _).le
        _ = Real.exp 101 := by rw [← Real.exp_add]; norm_num
        _ ≤ Real.exp 300 := Real.exp_le_exp.mpr (by norm_num)
  refine ⟨?_, ?_, ?_, ?_, ?_, ?_, ?_, ?_⟩
  · simpa using key 0 (by norm_num) (by norm_num)
  · intro j hj
    interval_cases j
    · refine key _ ?_ ?_ <;> norm_num [Finset.sum_range_succ] at q1 ⊢ <;> linarith
    · refine key _ ?_ ?_ <;> norm_num [Finset.sum_range_succ] at q1 ⊢ <;> linarith
  · intro j hj
    interval_cases j
    · norm_num [abs_of_pos]
    · norm_num [abs_div, abs_neg]
  · norm_num [abs_of_pos]
  · norm_num [abs_of_pos]
  · norm_num
  · norm_num
  · norm_num [gbmWork, Finset.sum_range_succ, abs_div, abs_neg] at q1 ⊢
    nlinarith

example : ∃ ps : List ℝ, Sim.prices env.engine.gen 2 ⟨.num (100 : ℝ), .num (1 / 4 : ℝ), none, .num (1 / 16 : ℝ)⟩ (.num (1 : ℝ)) .gbm 0 = (.ok (ps.map fun x : ℝ => .num x), 2) ∧
    |ps.getD 1 0 - gbmPath 100 (1 / 4) (1 / 16) 0 1 2 (fun l => [1 / 2, -1 / 4].getD l 0) 1| ≤
      2 ^ (-49 : ℤ) * gbmWork (1 / 4) (1 / 16) 0 1 2 (fun l => [1 / 2, -1 / 4].getD l 0) 1 * gbmPath 100 (1 / 4) (1 / 16) 0 1 2 (fun l => [1 / 2, -1 / 4].getD l 0) 1 := by
  have hD := draws 1 0
  cases hD with
  | cons hl h t =>
  cases t
  obtain ⟨ps, h1, -, h3⟩ := C81_path binary64_doubleAccurate env.engine.gen (S := 100) (sigma := 1 / 4) (r := 1 / 16) (T := 1) (q := none) h (by simp [INT_MAX]) moderate
  exact ⟨ps, h1, (h3 1 (by simp)).2⟩

/-- Market data and option parameters of the session. -/
noncomputable def session (ty : PayoffType) : Session (Dbl .binary64) :=
  ⟨"AAPL", .num (100 : ℝ), .num (1 / 4 : ℝ), none, .num (1 / 16 : ℝ), [("ticker", .str "AAPL"), ("T", .dbl (.num (1 : ℝ))), ("K", .dbl (.num (96 : ℝ)))], .european, ty,
    fun _ => .ok .gbm, 2, .singlePath, ⟨fun _ => .ok [], fun _ _ => .ok []⟩, 100000⟩

theorem num_zero : (lit 0 : Dbl .binary64) = .num ((0 : ℝ) : EReal) := Dbl.lit_zero

theorem accepted {ty : PayoffType} (hty : ty = .call ∨ ty = .put) :
    AcceptedSession (session ty) (SessionExample.choices .european) .gbm ⟨.european, "AAPL", .vanilla ty (.num (96 : ℝ)), .num (1 : ℝ), none⟩ where
  data := by
    refine ⟨?_, ?_, by simp [session]⟩
    · rw [num_zero, session, Dbl.le_num_false]; exact_mod_cast (by norm_num : (0 : ℝ) < 100)
    · rw [num_zero, session, Dbl.lt_num_false]; exact_mod_cast (by norm_num : (0 : ℝ) ≤ 1 / 4)
  model := rfl
  callPut := hty
  option := ⟨rfl, rfl, rfl, by rw [num_zero, Dbl.lt_num_false]; exact_mod_cast zero_le_one, ⟨_, rfl, by rw [num_zero, Dbl.lt_num_false]; exact_mod_cast (by norm_num : (0 : ℝ) ≤ 96), rfl⟩, rfl⟩
  ticker := rfl
  family := by simp [session, Family]
  payoffArgs := .refl _
  optionArgs := List.reverse_perm _

/-- A call and a put, with any number of paths. -/
example {ty : PayoffType} (hty : ty = .call ∨ ty = .put) {N : ℕ} (hN : 0 < N) (hN2 : N ≤ INT_MAX) (s : Sys ℕ Unit (Dbl .binary64)) :
    ∃ y : ℝ, (started env (SessionExample.choices .european) (session ty) s N 0).1 = .ok (.num y) ∧
      |y - discountedMean (1 / 16) 1 (List.replicate N (vanillaValue (ty = .call) 96 (gbmPath 100 (1 / 4) (1 / 16) 0 1 2 (fun l => [1 / 2, -1 / 4].getD l 0) 1)))| ≤
        (1 + (N + 9) * 2 ^ (-52 : ℤ)) * discountedMean (1 / 16) 1 (List.replicate N (payoffError 100 (1 / 4) (1 / 16) 0 1 96 2 fun l => [1 / 2, -1 / 4].getD l 0)) +
        (N + 9) * 2 ^ (-52 : ℤ) *
          discountedMean (1 / 16) 1 (List.replicate N (vanillaValue (ty = .call) 96 (gbmPath 100 (1 / 4) (1 / 16) 0 1 2 (fun l => [1 / 2, -1 / 4].getD l 0) 1))) +
        2 ^ (-1070 : ℤ) := by
  have := C81_european env (accepted hty) rfl (q := none) rfl rfl rfl rfl (K := 96) (T := 1) rfl rfl (by norm_num [session]) (by norm_num [session, INT_MAX])
    (by norm_num [abs_of_pos]) (by norm_num [abs_of_pos]) (draws N 0) (by simpa using hN) (by simpa using hN2)
    (fun zs hz => by rw [List.eq_of_mem_replicate hz]; exact moderate) s
  simp only [List.map_replicate, List.length_replicate] at this
  exact this

end PathErrorExample
end Verif
