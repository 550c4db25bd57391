import Verif.Lemmas.Accuracy
import Verif.Lemmas.MonteCarlo
import Mathlib.Analysis.Complex.ExponentialBounds

/-!
# Property C66: rounding errors in the mean over the Monte Carlo paths
-/

namespace Verif
open Spec

/-- The three roundings after the summation: division, multiplication. -/
theorem final_error {u η d m t q y : ℝ} {n : ℕ} (hu : 0 ≤ u) (hη : 0 ≤ η) (hu2 : 2 * (n + 2) * u ≤ 1) (hd : 0 ≤ d) (hm0 : 0 ≤ m)
    (t1 : t ≤ (1 + u) ^ n * (m + η)) (t2 : (1 - u) ^ n * m - η ≤ t) (q1 : (1 - u) * t - η ≤ q) (q2 : q ≤ (1 + u) * t + η)
    (y1 : (1 - u) * (q * d) - η ≤ y) (y2 : y ≤ (1 + u) * (q * d) + η) :
    |y - d * m| ≤ 2 * (n + 2) * u * (d * m) + (4 * d + 1) * η := by
  have hn : (0 : ℝ) ≤ n := Nat.cast_nonneg n
  have hu1 : u ≤ 1 := by nlinarith
  have hP := one_add_pow_le hu (n + 2) (by push_cast; linarith)
  have hQ := one_sub_pow_ge hu1 (n + 2)
  push_cast at hP hQ
  have hdm : 0 ≤ d * m := mul_nonneg hd hm0
  have hdη : 0 ≤ d * η := mul_nonneg hd hη
  have h1u : 1 + u ≤ 2 := by linarith
  rw [abs_le]
  constructor
  · have a1 : (1 - u) * ((1 - u) ^ n * m - η) - η ≤ q :=
      le_trans (by have := mul_le_mul_of_nonneg_left t2 (by linarith : 0 ≤ 1 - u); linarith) q1
    have a2 : (1 - u) * (((1 - u) * ((1 - u) ^ n * m - η) - η) * d) - η ≤ y :=
      le_trans (by have := mul_le_mul_of_nonneg_left (mul_le_mul_of_nonneg_right a1 hd) (by linarith : 0 ≤ 1 - u); linarith) y1
    have e : (1 - u) * (((1 - u) * ((1 - u) ^ n * m - η) - η) * d) - η =
        (1 - u) ^ (n + 2) * (d * m) - ((1 - u) ^ 2 + (1 - u)) * (d * η) - η := by ring
    have a3 := mul_le_mul_of_nonneg_right hQ hdm
    have a4 : ((1 - u) ^ 2 + (1 - u)) * (d * η) ≤ 2 * (d * η) := mul_le_mul_of_nonneg_right (by nlinarith) hdη
    have a5 : 0 ≤ (n + 2) * u * (d * m) := by positivity
    linarith
  · have a1 : q ≤ (1 + u) * ((1 + u) ^ n * (m + η)) + η :=
      le_trans q2 (by have := mul_le_mul_of_nonneg_left t1 (by linarith : 0 ≤ 1 + u); linarith)
    have a2 : y ≤ (1 + u) * (((1 + u) * ((1 + u) ^ n * (m + η)) + η) * d) + η :=
      le_trans y2 (by have := mul_le_mul_of_nonneg_left (mul_le_mul_of_nonneg_right a1 hd) (by linarith : 0 ≤ 1 + u); linarith)
    have e : (1 + u) * (((1 + u) * ((1 + u) ^ n * (m + η)) + η) * d) + η =
        (1 + u) ^ (n + 2) * (d * m) + ((1 + u) ^ (n + 2) + (1 + u)) * (d * η) + η := by ring
    have a3 := mul_le_mul_of_nonneg_right hP hdm
    have a4 : ((1 + u) ^ (n + 2) + (1 + u)) * (d * η) ≤ 4 * (d * η) := mul_le_mul_of_nonneg_right (by linarith) hdη
    linarith

/-- Mean of the payoffs times the discount factor, in floating point. -/
theorem mean_error {R : Rounding} {u η M : ℝ} (h : Accurate R u η M) (hu : 0 ≤ u) (hη : 0 ≤ η) {w : List ℝ} (hw : ∀ x ∈ w, 0 ≤ x)
    (hN : 0 < w.length) (hlit : R.rnd (w.length : ℝ) = ((w.length : ℝ) : EReal)) (hu2 : 2 * (w.length + 2) * u ≤ 1) {d : ℝ} (hd : 0 ≤ d)
    (hM : 4 * (d + 1) * (w.sum + w.length * η + η) ≤ M) :
    ∃ y : ℝ, (w.map fun x : ℝ => (Dbl.num (x : EReal) : Dbl R)).foldl (· + ·) (lit 0) / lit (w.length : ℚ) * Dbl.num (d : EReal) = Dbl.num y ∧
      |y - d * (w.sum / w.length)| ≤ 2 * (w.length + 2) * u * (d * (w.sum / w.length)) + (4 * d + 1) * η := by
  have hn : (1 : ℝ) ≤ w.length := by exact_mod_cast hN
  have hn0 : (0 : ℝ) < w.length := by linarith
  have hS : 0 ≤ w.sum := List.sum_nonneg hw
  have hu1 : u ≤ 1 := by nlinarith
  have hP := one_add_pow_le hu (w.length + 2) (by push_cast; linarith)
  have hQ := one_sub_pow_ge hu1 (w.length + 2)
  push_cast at hP hQ
  have hA1 : (1 : ℝ) ≤ (1 + u) ^ w.length := one_le_pow₀ (by linarith)
  have hB0 : (0 : ℝ) ≤ (1 - u) ^ w.length := pow_nonneg (by linarith) _
  have hA : (1 + u) ^ w.length ≤ (1 + u) ^ (w.length + 2) := pow_le_pow_right₀ (by linarith) (by omega)
  have hnη : 0 ≤ (w.length : ℝ) * η := by positivity
  have hK : 0 ≤ w.sum + w.length * η + η := by linarith
  have hM1 : 4 * (w.sum + w.length * η + η) ≤ M := by nlinarith
  have hM2 : d * (4 * (w.sum + w.length * η + η)) ≤ M := by nlinarith
  -- the sum
  obtain ⟨s, es, s0, s1, s2⟩ := sum_error h hu hu1 hη w hw (by nlinarith)
  -- the mean
  have hm0 : 0 ≤ w.sum / w.length := by positivity
  have hsn : s / w.length ≤ s := div_le_self s0 hn
  have t1 : s / w.length ≤ (1 + u) ^ w.length * (w.sum / w.length + η) := by
    rw [div_le_iff₀ hn0]
    calc s ≤ _ := s1
      _ = _ := by field_simp
  have t2 : (1 - u) ^ w.length * (w.sum / w.length) - η ≤ s / w.length := by
    rw [le_div_iff₀ hn0]
    calc _ = (1 - u) ^ w.length * w.sum - w.length * η := by field_simp
      _ ≤ s := s2
  have ht0 : 0 ≤ s / w.length := by positivity
  obtain ⟨q, eq, q0, q1, q2⟩ := h.nonneg ht0 (by nlinarith)
  -- the discounted mean
  have hmle : w.sum / w.length ≤ w.sum := div_le_self hS hn
  have hAm : (1 + u) * ((1 + u) ^ w.length * (w.sum / w.length + η)) ≤ 2 * (w.sum / w.length + η) := by
    have e : (1 + u) ^ (w.length + 2) = (1 + u) * (1 + u) ^ w.length * (1 + u) := by ring
    have h1 : (1 + u) * (1 + u) ^ w.length ≤ 2 := by nlinarith
    nlinarith
  have hq : q ≤ 4 * (w.sum + w.length * η + η) := by nlinarith
  have hqd : q * d ≤ M := le_trans (by nlinarith) hM2
  obtain ⟨y, ey, y0, y1, y2⟩ := h.nonneg (mul_nonneg q0 hd) hqd
  refine ⟨y, ?_, ?_⟩
  · rw [Dbl.lit_zero, es, Dbl.lit_def, Rat.cast_natCast, hlit, Dbl.div_coe _ hn0.ne', eq, Dbl.mul_coe, ey]
  · exact final_error hu hη hu2 hd hm0 t1 t2 q1 q2 y1 y2

namespace Binary64

/-- Integers up to `2⁵³` are binary64 numbers. -/
theorem rnd_natCast {n : ℕ} (h : n ≤ 2 ^ 53) : rnd (n : ℝ) = ((n : ℝ) : EReal) := by
  have hn : (n : ℝ) ≤ 2 ^ (53 : ℤ) := by exact_mod_cast h
  have hr : round53 (n : ℝ) = n := by
    rcases Nat.eq_zero_or_pos n with rfl | hp
    · simp
    have hp' : (0 : ℝ) < n := by exact_mod_cast hp
    rcases lt_or_eq_of_le hn with hlt | heq
    · have he : ulpExp (n : ℝ) ≤ 0 := by
        unfold ulpExp
        rw [abs_of_pos hp']
        have := (zpow_lt_zpow_iff_right₀ (a := (2 : ℝ)) (by norm_num)).mp ((log_le hp').trans_lt hlt)
        omega
      refine round53_eq_of_multiple (m := n * 2 ^ (-ulpExp (n : ℝ)).toNat) ?_
      push_cast
      rw [← zpow_natCast, Int.toNat_of_nonneg (by omega), mul_assoc, ← zpow_add₀ (by norm_num)]
      simp
    · have b := round53_binade hp' (k := 53) (by norm_num)
      exact le_antisymm ((b.1 hn).trans heq.ge) (heq.le.trans (b.2 heq.ge))
  rw [rnd_of_abs_lt, hr]
  rw [hr, abs_of_nonneg (by positivity)]
  exact hn.trans_lt (zpow_lt_zpow_right₀ (by norm_num) (by norm_num))

end Binary64

/-! ## The discount factor -/

theorem exp_le_of_small {x : ℝ} (h0 : 0 ≤ x) (h1 : x ≤ 1/2) : Real.exp x ≤ 1 + 2 * x := by
  have h2 := Real.add_one_le_exp (-x)
  rw [Real.exp_neg] at h2
  have h3 := Real.exp_pos x
  have h4 : (-x + 1) * Real.exp x ≤ 1 := by
    have := mul_le_mul_of_nonneg_right h2 h3.le
    rwa [inv_mul_cancel₀ h3.ne'] at this
  nlinarith

theorem tiny : (2 : ℝ) ^ (-1075 : ℤ) ≤ 2 ^ (-53 : ℤ) / 1000 := by
  have : (2 : ℝ) ^ (-1075 : ℤ) ≤ 2 ^ (-63 : ℤ) := zpow_le_zpow_right₀ (by norm_num) (by norm_num)
  refine this.trans ?_
  norm_num

/-- The computed discount factor: its relative error is at most `7 · 2⁻⁵³`. -/
theorem discount_error {r t : ℝ} (h : |r * t| ≤ 1) :
    ∃ d : ℝ, Fl.exp (-(Dbl.num (r : EReal)) * Dbl.num (t : EReal) : Dbl .binary64) = Dbl.num d ∧ 0 ≤ d ∧ d ≤ 3 ∧
      |d - Real.exp (-(r * t))| ≤ 7 * 2 ^ (-53 : ℤ) * Real.exp (-(r * t)) := by
  have hbig : (4 : ℝ) ≤ 2 ^ (1023 : ℤ) := by
    calc (4 : ℝ) = 2 ^ (2 : ℤ) := by norm_num
      _ ≤ _ := zpow_le_zpow_right₀ (by norm_num) (by norm_num)
  have hη := tiny
  have hη0 : (0 : ℝ) < 2 ^ (-1075 : ℤ) := by positivity
  have hu : (2 : ℝ) ^ (-53 : ℤ) ≤ 1/1000 := by norm_num
  have hu0 : (0 : ℝ) < 2 ^ (-53 : ℤ) := by positivity
  obtain ⟨z, hz, ez⟩ := binary64_accurate (-r * t) (by rw [neg_mul, abs_neg]; exact h.trans (le_trans (by norm_num) hbig))
  rw [neg_mul, abs_neg] at ez
  have hE1 : Real.exp (-(r * t)) ≤ 2.7182818286 :=
    (Real.exp_le_exp.mpr (neg_le.mp (abs_le.mp h).1)).trans Real.exp_one_lt_d9.le
  have hE0 : 1/3 ≤ Real.exp (-(r * t)) := by
    have h1 : Real.exp (-1) ≤ Real.exp (-(r * t)) := Real.exp_le_exp.mpr (by linarith [(abs_le.mp h).2])
    have h2 : (1 : ℝ)/3 ≤ Real.exp (-1) := by
      rw [Real.exp_neg, ← one_div]
      exact one_div_le_one_div_of_le (Real.exp_pos 1) (by linarith [Real.exp_one_lt_d9])
    linarith
  have hacc := binary64_accurate
  generalize (2 : ℝ) ^ (1023 : ℤ) = P at *
  generalize (2 : ℝ) ^ (-1075 : ℤ) = Q at *
  generalize (2 : ℝ) ^ (-53 : ℤ) = U at *
  have hδ : |z + r * t| ≤ 2 * U := by
    rw [sub_neg_eq_add] at ez
    nlinarith
  obtain ⟨δ1, δ2⟩ := abs_le.mp hδ
  set E := Real.exp (-(r * t))
  have ee : Real.exp z = E * Real.exp (z + r * t) := by
    rw [← Real.exp_add]
    ring_nf
  have e1 : Real.exp z ≤ E * (1 + 4 * U) := by
    rw [ee]
    refine mul_le_mul_of_nonneg_left ?_ (by linarith)
    exact (Real.exp_le_exp.mpr δ2).trans ((exp_le_of_small (by linarith) (by linarith)).trans (by linarith))
  have e2 : E * (1 - 2 * U) ≤ Real.exp z := by
    rw [ee]
    refine mul_le_mul_of_nonneg_left ?_ (by linarith)
    exact le_trans (by linarith) (Real.add_one_le_exp _)
  obtain ⟨d, ed, d0, d1, d2⟩ := hacc.nonneg (Real.exp_pos z).le (by nlinarith)
  have hEU : E * U ≤ 3 * U := by nlinarith
  have hEUU : E * U * U ≤ E * U / 1000 := by nlinarith [mul_nonneg (by linarith : 0 ≤ E) hu0.le]
  refine ⟨d, ?_, d0, ?_, ?_⟩
  · rw [Dbl.neg_num, ← EReal.coe_neg, Dbl.mul_coe, hz, Dbl.exp_coe]
    exact congrArg Dbl.num ed
  · nlinarith
  · rw [abs_le]
    have e1' := mul_le_mul_of_nonneg_left e1 (by linarith : 0 ≤ 1 + U)
    have e2' := mul_le_mul_of_nonneg_left e2 (by linarith : 0 ≤ 1 - U)
    have hEUU0 : 0 ≤ E * U * U := by positivity
    constructor <;> nlinarith

/-- The discounted mean as computed, against the exact discounted mean of the same payoffs. -/
theorem price_error {w : List ℝ} (hw : ∀ x ∈ w, 0 ≤ x) (hN : 0 < w.length) (hN2 : w.length ≤ 2 ^ 50) (hS : w.sum ≤ 2 ^ (1000 : ℤ)) {r t : ℝ}
    (h : |r * t| ≤ 1) :
    ∃ y : ℝ, (w.map fun x : ℝ => (Dbl.num (x : EReal) : Dbl .binary64)).foldl (· + ·) (lit 0) / lit (w.length : ℚ) *
        Fl.exp (-(Dbl.num (r : EReal)) * Dbl.num (t : EReal)) = Dbl.num y ∧
      |y - Real.exp (-(r * t)) * (w.sum / w.length)| ≤
        (w.length + 9) * 2 ^ (-52 : ℤ) * (Real.exp (-(r * t)) * (w.sum / w.length)) + 2 ^ (-1070 : ℤ) := by
  obtain ⟨d, ed, d0, d3, de⟩ := discount_error h
  have hn1 : (1 : ℝ) ≤ w.length := by exact_mod_cast hN
  have hn2 : (w.length : ℝ) ≤ 2 ^ (50 : ℕ) := by exact_mod_cast hN2
  have hS0 : 0 ≤ w.sum := List.sum_nonneg hw
  have hU : 2 * ((w.length : ℝ) + 2) * 2 ^ (-53 : ℤ) ≤ 1 := by
    have : (2 : ℝ) ^ (-53 : ℤ) = 1 / 2 ^ (53 : ℕ) := by norm_num
    rw [this]
    rw [mul_one_div, div_le_one (by positivity)]
    have : (2 : ℝ) ^ (53 : ℕ) = 2 ^ (50 : ℕ) * 8 := by norm_num
    have h50 : (4 : ℝ) ≤ 2 ^ (50 : ℕ) := by norm_num
    rw [this]
    generalize (2 : ℝ) ^ (50 : ℕ) = P at *
    linarith
  have hM : 4 * (d + 1) * (w.sum + w.length * 2 ^ (-1075 : ℤ) + 2 ^ (-1075 : ℤ)) ≤ 2 ^ (1023 : ℤ) := by
    have h1 : (w.length : ℝ) * 2 ^ (-1075 : ℤ) ≤ 1 := by
      have h2 : (2 : ℝ) ^ (-1075 : ℤ) ≤ 2 ^ (-50 : ℤ) := zpow_le_zpow_right₀ (by norm_num) (by norm_num)
      have h3 : (2 : ℝ) ^ (-50 : ℤ) = 1 / 2 ^ (50 : ℕ) := by norm_num
      rw [h3] at h2
      calc (w.length : ℝ) * 2 ^ (-1075 : ℤ) ≤ 2 ^ (50 : ℕ) * (1 / 2 ^ (50 : ℕ)) := mul_le_mul hn2 h2 (by positivity) (by positivity)
        _ = 1 := by norm_num
    have h2 : (2 : ℝ) ^ (-1075 : ℤ) ≤ 1 := zpow_le_one_of_nonpos₀ (by norm_num) (by norm_num)
    have h3 : (1 : ℝ) ≤ 2 ^ (1000 : ℤ) := one_le_zpow₀ (by norm_num) (by norm_num)
    have h4 : (2 : ℝ) ^ (1023 : ℤ) = 2 ^ (1000 : ℤ) * 2 ^ (23 : ℕ) := by
      rw [← zpow_natCast, ← zpow_add₀ (by norm_num)]
      norm_num
    rw [h4]
    have h5 : (0 : ℝ) < 2 ^ (-1075 : ℤ) := by positivity
    generalize (2 : ℝ) ^ (1000 : ℤ) = P at *
    generalize (2 : ℝ) ^ (-1075 : ℤ) = Q at *
    clear h4
    have h6 : 0 ≤ w.sum + w.length * Q + Q := by positivity
    have h7 : 4 * (d + 1) * (w.sum + w.length * Q + Q) ≤ 16 * (w.sum + w.length * Q + Q) := mul_le_mul_of_nonneg_right (by linarith) h6
    norm_num
    linarith
  obtain ⟨y, ey, hy⟩ := mean_error binary64_accurate (by positivity) (by positivity) hw hN
    (Binary64.rnd_natCast (hN2.trans (by norm_num))) hU d0 hM
  refine ⟨y, by rw [ed]; exact ey, ?_⟩
  have hm0 : 0 ≤ w.sum / w.length := by positivity
  have e52 : (2 : ℝ) ^ (-52 : ℤ) = 2 * 2 ^ (-53 : ℤ) := by norm_num
  have e1070 : (2 : ℝ) ^ (-1070 : ℤ) = 32 * 2 ^ (-1075 : ℤ) := by
    rw [show (-1070 : ℤ) = 5 + (-1075) by norm_num, zpow_add₀ (by norm_num)]
    norm_num
  have hη0 : (0 : ℝ) < 2 ^ (-1075 : ℤ) := by positivity
  have hu0 : (0 : ℝ) < 2 ^ (-53 : ℤ) := by positivity
  rw [e52, e1070]
  have hE := Real.exp_pos (-(r * t))
  generalize (2 : ℝ) ^ (-1075 : ℤ) = Q at *
  generalize (2 : ℝ) ^ (-53 : ℤ) = U at *
  generalize Real.exp (-(r * t)) = E at *
  generalize w.sum / w.length = m at *
  have hEm : 0 ≤ E * m := by positivity
  have c1 : |(d - E) * m| ≤ 7 * U * (E * m) := by
    rw [abs_mul, abs_of_nonneg hm0]
    have := mul_le_mul_of_nonneg_right de hm0
    linarith
  have c2 : d * m ≤ E * m + 7 * U * (E * m) := by
    have := (abs_le.mp c1).2
    linarith
  have c3 : 2 * ((w.length : ℝ) + 2) * U * (d * m) ≤ 2 * (w.length + 2) * U * (E * m) + 7 * U * (E * m) := by
    have k1 := mul_le_mul_of_nonneg_left c2 (by positivity : 0 ≤ 2 * ((w.length : ℝ) + 2) * U)
    have k2 := mul_le_mul_of_nonneg_right hU (by positivity : 0 ≤ 7 * U * (E * m))
    linarith
  have c4 : (4 * d + 1) * Q ≤ 32 * Q := mul_le_mul_of_nonneg_right (by linarith) hη0.le
  have c5 : |y - E * m| ≤ |y - d * m| + |(d - E) * m| := by
    have := abs_add_le (y - d * m) ((d - E) * m)
    have e : y - d * m + (d - E) * m = y - E * m := by ring
    rwa [e] at this
  linarith

/-! ## The pricers -/

section
variable {σ : Type}

/-- **C66.** The single path pricer in binary64: the price is the exact discounted mean of the payoffs of its paths, up to a
relative error of `(N + 9) · 2⁻⁵²`. -/
theorem C66_singlePath (src : PathSource σ (Dbl .binary64)) {getR : Eff σ (Dbl .binary64)} {pay : Dbl .binary64 → Res (Dbl .binary64)} {r t : ℝ}
    (h : |r * t| ≤ 1) {s s' : σ} (hR : getR s = (.ok (.num r), s)) {as : List (Dbl .binary64)} {w : List ℝ}
    (hd : Draws (src.simulatePriceAtMaturity (.num t)) s as s') (hp : Pays pay as (w.map fun x : ℝ => .num x)) (hw : ∀ x ∈ w, 0 ≤ x)
    (hN : 0 < as.length) (hN2 : as.length ≤ INT_MAX) (hS : w.sum ≤ 2 ^ (1000 : ℤ)) :
    ∃ y : ℝ, MC.singlePath src getR pay (.num t) as.length s = (.ok (.num y), s') ∧
      |y - Real.exp (-(r * t)) * (w.sum / as.length)| ≤
        (as.length + 9) * 2 ^ (-52 : ℤ) * (Real.exp (-(r * t)) * (w.sum / as.length)) + 2 ^ (-1070 : ℤ) := by
  have hl : w.length = as.length := by
    have := hp.length_eq
    simpa using this.symm
  obtain ⟨y, ey, hy⟩ := price_error hw (hl ▸ hN) (hl ▸ hN2.trans (by norm_num [INT_MAX])) hS h
  rw [hl] at ey hy
  exact ⟨y, by rw [MC.singlePath_eq, MC.intPricer_ok hN2 hR hd hp, ey], hy⟩

/-- **C66.** The Asian pricers. -/
theorem C66_asian (k : MC.AsianKind) (src : PathSource σ (Dbl .binary64)) {getR : Eff σ (Dbl .binary64)}
    {pay : Dbl .binary64 → Res (Dbl .binary64)} {r t : ℝ}
    (h : |r * t| ≤ 1) {s s' : σ} (hR : getR s = (.ok (.num r), s)) {as : List (List (Dbl .binary64))} {w : List ℝ}
    (hd : Draws (src.simulatePrices (.num t)) s as s') (hp : Pays (MC.asianPath k pay src.steps) as (w.map fun x : ℝ => .num x))
    (hw : ∀ x ∈ w, 0 ≤ x) (hN : 0 < as.length) (hN2 : as.length ≤ 2 ^ 50) (hS : w.sum ≤ 2 ^ (1000 : ℤ)) :
    ∃ y : ℝ, MC.asian k src getR pay (.num t) as.length s = (.ok (.num y), s') ∧
      |y - Real.exp (-(r * t)) * (w.sum / as.length)| ≤
        (as.length + 9) * 2 ^ (-52 : ℤ) * (Real.exp (-(r * t)) * (w.sum / as.length)) + 2 ^ (-1070 : ℤ) := by
  have hl : w.length = as.length := by
    have := hp.length_eq
    simpa using this.symm
  obtain ⟨y, ey, hy⟩ := price_error hw (hl ▸ hN) (hl ▸ hN2) hS h
  rw [hl] at ey hy
  exact ⟨y, by rw [MC.asian_eq, MC.longPricer_ok hR hd hp, ey], hy⟩

/-- **C66.** The barrier pricers. -/
theorem C66_barrier (k : MC.KnockKind) (src : PathSource σ (Dbl .binary64)) {getR : Eff σ (Dbl .binary64)} (isActive : Dbl .binary64 → Bool)
    {pay : Dbl .binary64 → Res (Dbl .binary64)} {r t : ℝ}
    (h : |r * t| ≤ 1) {s s' : σ} (hR : getR s = (.ok (.num r), s)) {as : List (List (Dbl .binary64))} {w : List ℝ}
    (hd : Draws (src.simulatePrices (.num t)) s as s') (hp : Pays (MC.barrierPath k isActive pay src.steps) as (w.map fun x : ℝ => .num x))
    (hw : ∀ x ∈ w, 0 ≤ x) (hN : 0 < as.length) (hN2 : as.length ≤ INT_MAX) (hS : w.sum ≤ 2 ^ (1000 : ℤ)) :
    ∃ y : ℝ, MC.barrier k src getR isActive pay (.num t) as.length s = (.ok (.num y), s') ∧
      |y - Real.exp (-(r * t)) * (w.sum / as.length)| ≤
        (as.length + 9) * 2 ^ (-52 : ℤ) * (Real.exp (-(r * t)) * (w.sum / as.length)) + 2 ^ (-1070 : ℤ) := by
  have hl : w.length = as.length := by
    have := hp.length_eq
    simpa using this.symm
  obtain ⟨y, ey, hy⟩ := price_error hw (hl ▸ hN) (hl ▸ hN2.trans (by norm_num [INT_MAX])) hS h
  rw [hl] at ey hy
  exact ⟨y, by rw [MC.barrier_eq, MC.intPricer_ok hN2 hR hd hp, ey], hy⟩

/-- **C66.** The lookback pricers. -/
theorem C66_lookback (k : MC.LookbackKind) (src : PathSource σ (Dbl .binary64)) {getR : Eff σ (Dbl .binary64)} (p : Payoff (Dbl .binary64)) {r t : ℝ}
    (h : |r * t| ≤ 1) {s s' : σ} (hR : getR s = (.ok (.num r), s)) {as : List (List (Dbl .binary64))} {w : List ℝ}
    (hd : Draws (src.simulatePrices (.num t)) s as s') (hp : Pays (MC.lookbackPath k p src.steps) as (w.map fun x : ℝ => .num x))
    (hw : ∀ x ∈ w, 0 ≤ x) (hN : 0 < as.length) (hN2 : as.length ≤ INT_MAX) (hS : w.sum ≤ 2 ^ (1000 : ℤ)) :
    ∃ y : ℝ, MC.lookback k src getR p (.num t) as.length s = (.ok (.num y), s') ∧
      |y - Real.exp (-(r * t)) * (w.sum / as.length)| ≤
        (as.length + 9) * 2 ^ (-52 : ℤ) * (Real.exp (-(r * t)) * (w.sum / as.length)) + 2 ^ (-1070 : ℤ) := by
  have hl : w.length = as.length := by
    have := hp.length_eq
    simpa using this.symm
  obtain ⟨y, ey, hy⟩ := price_error hw (hl ▸ hN) (hl ▸ hN2.trans (by norm_num [INT_MAX])) hS h
  rw [hl] at ey hy
  exact ⟨y, by rw [MC.lookback_eq, MC.intPricer_ok hN2 hR hd hp, ey], hy⟩

end

/-! An example: the prices 100, 101, 102, ... one after the other, and a call with strike 100. -/

/-- A source that counts. -/
noncomputable def countingSource : PathSource ℕ (Dbl .binary64) where
  steps := 1
  simulatePrices _ := fun s => (.ok [.num ((100 + s : ℕ) : ℝ)], s + 1)
  simulatePriceAtMaturity _ := fun s => (.ok (.num ((100 + s : ℕ) : ℝ)), s + 1)
  simulatePriceBackward _ _ _ := fun s => (.ok (.num ((100 + s : ℕ) : ℝ)), s + 1)

theorem draws_counting (T : Dbl .binary64) (N : ℕ) : ∀ s, Draws (countingSource.simulatePriceAtMaturity T) s
    ((List.range' s N).map fun k : ℕ => .num ((100 + k : ℕ) : ℝ)) (s + N) := by
  induction N with
  | zero => intro s; exact Draws.nil s
  | succ N ih =>
    intro s
    rw [List.range'_succ, List.map_cons]
    refine Draws.cons rfl ?_
    have := ih (s + 1)
    rwa [add_assoc, add_comm 1 N] at this

theorem draws_counting_paths (T : Dbl .binary64) (N : ℕ) : ∀ s, Draws (countingSource.simulatePrices T) s
    ((List.range' s N).map fun k : ℕ => [.num ((100 + k : ℕ) : ℝ)]) (s + N) := by
  induction N with
  | zero => intro s; exact Draws.nil s
  | succ N ih =>
    intro s
    rw [List.range'_succ, List.map_cons]
    refine Draws.cons rfl ?_
    have := ih (s + 1)
    rwa [add_assoc, add_comm 1 N] at this

theorem rnd_nat {n : ℕ} (h : n ≤ 2 ^ 53) : Rounding.binary64.rnd (n : ℝ) = ((n : ℝ) : EReal) := Binary64.rnd_natCast h

theorem counting_pay {k : ℕ} (hk : k < 1000000) :
    (Payoff.vanilla .call (.num ((100 : ℝ) : EReal))).eval1 (.num (((100 + k : ℕ) : ℝ) : EReal) : Dbl .binary64) = .ok (.num ((k : ℝ) : EReal)) := by
  have e : (Dbl.num (((100 + k : ℕ) : ℝ) : EReal) - Dbl.num ((100 : ℝ) : EReal) : Dbl .binary64) = .num ((k : ℝ) : EReal) := by
    rw [Dbl.sub_def, Dbl.neg_num, ← EReal.coe_neg, Dbl.add_coe]
    have : ((100 + k : ℕ) : ℝ) + -100 = (k : ℝ) := by push_cast; ring
    rw [this]
    exact congrArg Dbl.num (Binary64.rnd_natCast (by omega))
  simp only [Payoff.eval1, e, Dbl.lit_zero, Dbl.max_num]
  rw [if_pos trivial, max_eq_left (EReal.coe_nonneg.mpr (Nat.cast_nonneg k))]

theorem counting_pays {α : Type} (N : ℕ) (h2 : N ≤ 1000000) {g : ℕ → α} {pay : α → Res (Dbl .binary64)}
    (h : ∀ k < 1000000, pay (g k) = .ok (.num ((k : ℝ) : EReal))) :
    Pays pay ((List.range N).map g) (((List.range N).map fun k : ℕ => (k : ℝ)).map fun x : ℝ => .num x) := by
  rw [List.map_map]
  unfold Pays
  rw [List.forall₂_map_left_iff, List.forall₂_map_right_iff]
  exact List.forall₂_same.mpr fun k hk => h k (by have := List.mem_range.mp hk; omega)

theorem counting_nonneg (N : ℕ) : ∀ x ∈ (List.range N).map fun k : ℕ => (k : ℝ), 0 ≤ x := by
  intro x hx
  obtain ⟨k, -, rfl⟩ := List.mem_map.mp hx
  positivity

theorem counting_sum (N : ℕ) (h2 : N ≤ 1000000) : ((List.range N).map fun k : ℕ => (k : ℝ)).sum ≤ 2 ^ (1000 : ℤ) := by
  have hsum : ∀ n : ℕ, ((List.range n).map fun k : ℕ => (k : ℝ)).sum ≤ n * n := by
    intro n
    induction n with
    | zero => simp
    | succ n ih =>
      rw [List.range_succ, List.map_append, List.sum_append]
      push_cast
      simp only [List.map_cons, List.map_nil, List.sum_cons, List.sum_nil]
      have : (0 : ℝ) ≤ n := Nat.cast_nonneg n
      nlinarith
  refine (hsum N).trans ?_
  have h3 : (N : ℝ) ≤ 1000000 := by exact_mod_cast h2
  have h4 : (0 : ℝ) ≤ N := Nat.cast_nonneg N
  calc (N : ℝ) * N ≤ 2 ^ (40 : ℤ) := by norm_num; nlinarith
    _ ≤ _ := zpow_le_zpow_right₀ (by norm_num) (by norm_num)

/-- What the examples state: the computed price is close to the discounted mean of the numbers below `N`. -/
def CloseToMean (run : Res (Dbl .binary64) × ℕ) (N : ℕ) : Prop := ∃ y : ℝ, run = (.ok (.num y), N) ∧
  |y - Real.exp (-(1/20 * 2)) * (((List.range N).map fun k : ℕ => (k : ℝ)).sum / N)| ≤
    (N + 9) * 2 ^ (-52 : ℤ) * (Real.exp (-(1/20 * 2)) * (((List.range N).map fun k : ℕ => (k : ℝ)).sum / N)) + 2 ^ (-1070 : ℤ)

example (N : ℕ) (h1 : 0 < N) (h2 : N ≤ 1000000) :
    CloseToMean (MC.singlePath countingSource (Eff.lift (.ok (.num (1/20 : ℝ)))) (Payoff.vanilla .call (.num (100 : ℝ))).eval1 (.num (2 : ℝ)) N 0) N := by
  have hd := draws_counting (.num (2 : ℝ)) N 0
  rw [← List.range_eq_range', zero_add] at hd
  have hl : ((List.range N).map fun k : ℕ => (Dbl.num (((100 + k : ℕ) : ℝ) : EReal) : Dbl .binary64)).length = N := by simp
  have := C66_singlePath countingSource (getR := Eff.lift (.ok (.num (1/20 : ℝ)))) (r := 1/20) (t := 2) (by norm_num) rfl hd
    (counting_pays N h2 fun k hk => counting_pay hk) (counting_nonneg N) (by rw [hl]; exact h1)
    (by rw [hl]; exact h2.trans (by norm_num [INT_MAX])) (counting_sum N h2)
  rw [hl] at this
  exact this

example (N : ℕ) (h1 : 0 < N) (h2 : N ≤ 1000000) :
    CloseToMean (MC.asian .arithmetic countingSource (Eff.lift (.ok (.num (1/20 : ℝ)))) (Payoff.vanilla .call (.num (100 : ℝ))).eval1 (.num (2 : ℝ)) N 0) N := by
  have hd := draws_counting_paths (.num (2 : ℝ)) N 0
  rw [← List.range_eq_range', zero_add] at hd
  have hl : ((List.range N).map fun k : ℕ => [(Dbl.num (((100 + k : ℕ) : ℝ) : EReal) : Dbl .binary64)]).length = N := by simp
  have hpay : ∀ k < 1000000, MC.asianPath .arithmetic (Payoff.vanilla .call (.num ((100 : ℝ) : EReal))).eval1 countingSource.steps
      [(.num (((100 + k : ℕ) : ℝ) : EReal) : Dbl .binary64)] = .ok (.num ((k : ℝ) : EReal)) := by
    intro k hk
    have e0 : (Dbl.num 0 + Dbl.num (((100 + k : ℕ) : ℝ) : EReal) : Dbl .binary64) = .num (((100 + k : ℕ) : ℝ) : EReal) := by
      have := Dbl.add_coe (R := .binary64) 0 ((100 + k : ℕ) : ℝ)
      rw [zero_add, rnd_nat (by omega)] at this
      exact this
    have e1 : (Dbl.num (((100 + k : ℕ) : ℝ) : EReal) / Dbl.num 1 : Dbl .binary64) = .num (((100 + k : ℕ) : ℝ) : EReal) := by
      have := Dbl.div_coe (R := .binary64) ((100 + k : ℕ) : ℝ) one_ne_zero
      rw [div_one, rnd_nat (by omega)] at this
      exact this
    have := counting_pay hk
    generalize (((100 + k : ℕ) : ℝ) : EReal) = z at *
    simp [MC.asianPath, MC.scan, countingSource, MC.AsianKind.term, MC.AsianKind.average, vget, INT_MAX, -Payoff.eval1, e0, e1] at this ⊢
    exact this
  have := C66_asian .arithmetic countingSource (getR := Eff.lift (.ok (.num (1/20 : ℝ)))) (r := 1/20) (t := 2) (by norm_num) rfl hd
    (counting_pays N h2 hpay) (counting_nonneg N) (by rw [hl]; exact h1) (by rw [hl]; exact h2.trans (by norm_num)) (counting_sum N h2)
  rw [hl] at this
  exact this

example (N : ℕ) (h1 : 0 < N) (h2 : N ≤ 1000000) :
    CloseToMean (MC.barrier .knockOut countingSource (Eff.lift (.ok (.num (1/20 : ℝ)))) (fun x => Fl.lt x (.num ((2000000 : ℝ) : EReal)))
      (Payoff.vanilla .call (.num (100 : ℝ))).eval1 (.num (2 : ℝ)) N 0) N := by
  have hd := draws_counting_paths (.num (2 : ℝ)) N 0
  rw [← List.range_eq_range', zero_add] at hd
  have hl : ((List.range N).map fun k : ℕ => [(Dbl.num (((100 + k : ℕ) : ℝ) : EReal) : Dbl .binary64)]).length = N := by simp
  have hpay : ∀ k < 1000000, MC.barrierPath .knockOut (fun x => Fl.lt x (.num ((2000000 : ℝ) : EReal)))
      (Payoff.vanilla .call (.num ((100 : ℝ) : EReal))).eval1 countingSource.steps
      [(.num (((100 + k : ℕ) : ℝ) : EReal) : Dbl .binary64)] = .ok (.num ((k : ℝ) : EReal)) := by
    intro k hk
    have e : Fl.lt (.num (((100 + k : ℕ) : ℝ) : EReal) : Dbl .binary64) (.num ((2000000 : ℝ) : EReal)) = true := by
      rw [Dbl.lt_num, EReal.coe_lt_coe_iff]
      exact_mod_cast (by omega : 100 + k < 2000000)
    have := counting_pay hk
    generalize (((100 + k : ℕ) : ℝ) : EReal) = z at *
    simp [MC.barrierPath, MC.scan, countingSource, MC.KnockKind.check, MC.KnockKind.payoff, vget, upred, INT_MAX, -Payoff.eval1, -Dbl.lt_num, -Dbl.lt_num_false, e] at this ⊢
    exact this
  have := C66_barrier .knockOut countingSource (getR := Eff.lift (.ok (.num (1/20 : ℝ)))) _ (r := 1/20) (t := 2) (by norm_num) rfl hd
    (counting_pays N h2 hpay) (counting_nonneg N) (by rw [hl]; exact h1) (by rw [hl]; exact h2.trans (by norm_num [INT_MAX])) (counting_sum N h2)
  rw [hl] at this
  exact this

example (N : ℕ) (h1 : 0 < N) (h2 : N ≤ 1000000) :
    CloseToMean (MC.lookback .fixed countingSource (Eff.lift (.ok (.num (1/20 : ℝ)))) (Payoff.vanilla .call (.num (100 : ℝ))) (.num (2 : ℝ)) N 0) N := by
  have hd := draws_counting_paths (.num (2 : ℝ)) N 0
  rw [← List.range_eq_range', zero_add] at hd
  have hl : ((List.range N).map fun k : ℕ => [(Dbl.num (((100 + k : ℕ) : ℝ) : EReal) : Dbl .binary64)]).length = N := by simp
  have hpay : ∀ k < 1000000, MC.lookbackPath .fixed (Payoff.vanilla .call (.num ((100 : ℝ) : EReal))) countingSource.steps
      [(.num (((100 + k : ℕ) : ℝ) : EReal) : Dbl .binary64)] = .ok (.num ((k : ℝ) : EReal)) := by
    intro k hk
    have e : Fl.max (-FlInf.inf : Dbl .binary64) (.num (((100 + k : ℕ) : ℝ) : EReal)) = .num (((100 + k : ℕ) : ℝ) : EReal) := by
      show Fl.max (.num (-⊤) : Dbl .binary64) _ = _
      rw [Dbl.max_num]
      simp
    have := counting_pay hk
    simp [MC.lookbackPath, MC.scan, countingSource, MC.LookbackKind.payoff, Payoff.payoffType, vget, upred, -Payoff.eval1, -Nat.cast_add, e] at this ⊢
    exact this
  have := C66_lookback .fixed countingSource (getR := Eff.lift (.ok (.num (1/20 : ℝ)))) _ (r := 1/20) (t := 2) (by norm_num) rfl hd
    (counting_pays N h2 hpay) (counting_nonneg N) (by rw [hl]; exact h1) (by rw [hl]; exact h2.trans (by norm_num [INT_MAX])) (counting_sum N h2)
  rw [hl] at this
  exact this

end Verif
