import Verif.Num.Binary64
import Verif.Spec.RoundingSpec
import Mathlib.Algebra.BigOperators.Group.Finset.Basic
import Mathlib.Algebra.Order.Ring.Pow

/-!
# Rounding errors
-/

namespace Verif
open Spec

/-- binary64: relative error `2⁻⁵³`, underflow error `2⁻¹⁰⁷⁵`, no overflow up to `2¹⁰²³`. -/
theorem binary64_accurate : Accurate .binary64 (2 ^ (-53 : ℤ)) (2 ^ (-1075 : ℤ)) (2 ^ (1023 : ℤ)) := by
  intro x hx
  have h := Binary64.round53_relError x
  refine ⟨_, Binary64.rnd_of_abs_lt ?_, h⟩
  have h1 : |Binary64.round53 x| ≤ |x| + |Binary64.round53 x - x| := by
    have := abs_add_le x (Binary64.round53 x - x)
    rwa [add_sub_cancel] at this
  have h2 : (2 : ℝ) ^ (1024 : ℤ) = 2 ^ (1023 : ℤ) * 2 := by
    rw [← zpow_add_one₀ (by norm_num)]
    norm_num
  have h3 : (2 : ℝ) ^ (-53 : ℤ) * |x| ≤ 2 ^ (-53 : ℤ) * 2 ^ (1023 : ℤ) := mul_le_mul_of_nonneg_left hx (by positivity)
  have h4 : (2 : ℝ) ^ (-1075 : ℤ) ≤ 1 := zpow_le_one_of_nonpos₀ (by norm_num) (by norm_num)
  have h5 : (4 : ℝ) ≤ 2 ^ (1023 : ℤ) := by
    calc (4 : ℝ) = 2 ^ (2 : ℤ) := by norm_num
      _ ≤ _ := zpow_le_zpow_right₀ (by norm_num) (by norm_num)
  have h6 : (2 : ℝ) ^ (-53 : ℤ) ≤ 1 / 2 := by norm_num
  have h7 := mul_le_mul_of_nonneg_right h6 (by positivity : (0 : ℝ) ≤ 2 ^ (1023 : ℤ))
  rw [h2]
  generalize (2 : ℝ) ^ (1023 : ℤ) = P at *
  generalize (2 : ℝ) ^ (-1075 : ℤ) = Q at *
  generalize (2 : ℝ) ^ (-53 : ℤ) = U at *
  clear h2
  linarith

namespace Spec.Accurate
variable {R : Rounding} {u η M : ℝ}

/-- Rounding a number that is not negative. -/
theorem nonneg (h : Accurate R u η M) {x : ℝ} (h0 : 0 ≤ x) (hM : x ≤ M) :
    ∃ y : ℝ, R.rnd x = y ∧ 0 ≤ y ∧ (1 - u) * x - η ≤ y ∧ y ≤ (1 + u) * x + η := by
  obtain ⟨y, hy, e⟩ := h x (by rwa [abs_of_nonneg h0])
  rw [abs_of_nonneg h0] at e
  have := abs_le.mp e
  refine ⟨y, hy, ?_, by linarith, by linarith⟩
  have h1 := R.mono h0
  rw [R.zero, hy] at h1
  exact_mod_cast h1

end Spec.Accurate

theorem Dbl.add_coe {R : Rounding} (a b : ℝ) : (Dbl.num (a : EReal) + Dbl.num (b : EReal) : Dbl R) = Dbl.num (R.rnd (a + b)) := by
  rw [Dbl.add_num, if_neg (by simp), ← EReal.coe_add, Rounding.rndE_coe]

theorem Dbl.mul_coe {R : Rounding} (a b : ℝ) : (Dbl.num (a : EReal) * Dbl.num (b : EReal) : Dbl R) = Dbl.num (R.rnd (a * b)) := by
  rw [Dbl.mul_num, if_neg (by simp), ← EReal.coe_mul, Rounding.rndE_coe]

theorem Dbl.div_coe {R : Rounding} (a : ℝ) {b : ℝ} (hb : b ≠ 0) :
    (Dbl.num (a : EReal) / Dbl.num (b : EReal) : Dbl R) = Dbl.num (R.rnd (a / b)) := by
  rw [Dbl.div_num, if_neg (by exact_mod_cast hb), if_neg (by simp), ← EReal.coe_div, Rounding.rndE_coe]

theorem one_add_pow_le {u : ℝ} (h0 : 0 ≤ u) : ∀ n : ℕ, 2 * n * u ≤ 1 → (1 + u) ^ n ≤ 1 + 2 * n * u
  | 0, _ => by simp
  | n + 1, h => by
    push_cast at h ⊢
    have h1 : 2 * n * u ≤ 1 := by nlinarith
    have := one_add_pow_le h0 n h1
    rw [pow_succ]
    have h2 : (1 + u) ^ n * (1 + u) ≤ (1 + 2 * n * u) * (1 + u) := mul_le_mul_of_nonneg_right this (by linarith)
    nlinarith [mul_le_mul_of_nonneg_right h1 h0]

theorem one_sub_pow_ge {u : ℝ} (h1 : u ≤ 1) (n : ℕ) : 1 - n * u ≤ (1 - u) ^ n := by
  have := one_add_mul_le_pow (a := -u) (by linarith) n
  rw [← sub_eq_add_neg] at this
  linarith

/-- Floating-point summation of numbers that are not negative, from left to right. -/
theorem sum_error {R : Rounding} {u η M : ℝ} (h : Accurate R u η M) (hu : 0 ≤ u) (hu1 : u ≤ 1) (hη : 0 ≤ η) (w : List ℝ) :
    (∀ x ∈ w, 0 ≤ x) → (1 + u) ^ w.length * (w.sum + w.length * η) ≤ M →
      ∃ y : ℝ, (w.map fun x : ℝ => (Dbl.num (x : EReal) : Dbl R)).foldl (· + ·) (Dbl.num 0) = Dbl.num y ∧ 0 ≤ y ∧
        y ≤ (1 + u) ^ w.length * (w.sum + w.length * η) ∧ (1 - u) ^ w.length * w.sum - w.length * η ≤ y := by
  induction w using List.reverseRecOn with
  | nil => intro _ _; exact ⟨0, by simp, le_rfl, by simp, by simp⟩
  | append_singleton w x ih =>
    intro hw hM
    have hx : 0 ≤ x := hw x (by simp)
    have hw' : ∀ y ∈ w, 0 ≤ y := fun y hy => hw y (by simp [hy])
    have hS : 0 ≤ w.sum := List.sum_nonneg hw'
    simp only [List.length_append, List.length_cons, List.length_nil, zero_add, List.sum_append, List.sum_cons, List.sum_nil, add_zero,
      Nat.cast_add, Nat.cast_one] at hM ⊢
    have p1 : (1 : ℝ) ≤ (1 + u) ^ w.length := one_le_pow₀ (by linarith)
    have hn : (0 : ℝ) ≤ w.length := Nat.cast_nonneg _
    have hnη : 0 ≤ (w.length : ℝ) * η := mul_nonneg hn hη
    -- one more summand
    have hup : (1 + u) ^ w.length * (w.sum + w.length * η) + x ≤ (1 + u) ^ w.length * (w.sum + w.length * η + x) := by nlinarith
    have hup2 : (1 + u) ^ w.length * (w.sum + w.length * η + x) ≤ (1 + u) ^ (w.length + 1) * (w.sum + x + (w.length + 1) * η) := by
      rw [pow_succ, mul_assoc]
      refine mul_le_mul_of_nonneg_left ?_ (by linarith)
      have : 0 ≤ u * (w.sum + x + (w.length + 1) * η) := mul_nonneg hu (by nlinarith)
      nlinarith
    obtain ⟨a, ha, a0, a1, a2⟩ := ih hw' (by linarith)
    obtain ⟨y, hy, y0, y1, y2⟩ := h.nonneg (x := a + x) (by linarith) (by linarith)
    refine ⟨y, ?_, y0, ?_, ?_⟩
    · rw [List.map_append, List.foldl_append, ha]
      simp only [List.map_cons, List.map_nil, List.foldl_cons, List.foldl_nil]
      rw [Dbl.add_coe, hy]
    · refine y2.trans ?_
      have h1 : (1 + u) * (a + x) ≤ (1 + u) * ((1 + u) ^ w.length * (w.sum + w.length * η + x)) :=
        mul_le_mul_of_nonneg_left (by linarith) (by linarith)
      have p2 : (1 : ℝ) ≤ (1 + u) ^ (w.length + 1) := one_le_pow₀ (by linarith)
      have h2 := mul_le_mul_of_nonneg_right p2 hη
      rw [pow_succ] at h2 ⊢
      nlinarith
    · refine le_trans ?_ y1
      have q0 : 0 ≤ (1 - u) ^ w.length := pow_nonneg (by linarith) _
      have q1 : (1 - u) ^ w.length ≤ 1 := pow_le_one₀ (by linarith) (by linarith)
      have h1 : (1 - u) * ((1 - u) ^ w.length * w.sum - w.length * η + x) ≤ (1 - u) * (a + x) :=
        mul_le_mul_of_nonneg_left (by linarith) (by linarith)
      have h2 : (1 - u) ^ w.length * x ≤ x := by nlinarith
      have h3 : 0 ≤ (1 - u) * (x - (1 - u) ^ w.length * x) := mul_nonneg (by linarith) (by linarith)
      have h4 : 0 ≤ u * (w.length * η) := mul_nonneg hu hnη
      rw [pow_succ]
      nlinarith

end Verif
