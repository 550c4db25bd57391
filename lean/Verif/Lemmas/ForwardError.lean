import Verif.Lemmas.Accuracy
import Mathlib.Analysis.SpecialFunctions.Log.Basic
import Mathlib.Analysis.SpecialFunctions.Log.Deriv

/-!
# Forward error analysis of short floating-point computations
-/

namespace Verif
open Spec

section
variable {R : Rounding} {u η M : ℝ}

/-- The double `y` was meant to be the real `x`, of size at most `m`: its relative error is that of `k` roundings, plus `t`. -/
def Near (R : Rounding) (u : ℝ) (k : ℕ) (t m : ℝ) (y : Dbl R) (x : ℝ) : Prop :=
  |x| ≤ m ∧ ∃ y' : ℝ, y = .num y' ∧ |y' - x| ≤ ((1 + u) ^ k - 1) * m + t

theorem Near.exact (x : ℝ) : Near R u 0 0 |x| (.num x) x := ⟨le_rfl, x, rfl, by simp⟩

theorem Near.weaken (hu : 0 ≤ u) {k k' : ℕ} {t t' m : ℝ} {y : Dbl R} {x : ℝ} (h : Near R u k t m y x) (hk : k ≤ k') (ht : t ≤ t') : Near R u k' t' m y x := by
  obtain ⟨h1, y', e, h2⟩ := h
  refine ⟨h1, y', e, h2.trans (add_le_add (mul_le_mul_of_nonneg_right ?_ ((abs_nonneg x).trans h1)) ht)⟩
  exact sub_le_sub_right (pow_le_pow_right₀ (by linarith) hk) 1

theorem Near.neg {k : ℕ} {t m : ℝ} {y : Dbl R} {x : ℝ} (h : Near R u k t m y x) : Near R u k t m (-y) (-x) := by
  obtain ⟨h1, y', e, h2⟩ := h
  refine ⟨by rwa [abs_neg], -y', by rw [e]; rfl, ?_⟩
  rwa [← abs_neg, show -(-y' - -x) = y' - x by ring]

/-- One rounding of something close to `x`. -/
theorem near_rnd (hR : Accurate R u η M) (hu : 0 ≤ u) {k : ℕ} {t t' m y x : ℝ} (hx : |x| ≤ m) (hy : |y - x| ≤ ((1 + u) ^ k - 1) * m + t)
    (hM : |y| ≤ M) (ht : (1 + u) * t + η ≤ t') : Near R u (k + 1) t' m (.num (R.rnd y)) x := by
  obtain ⟨y', e, h⟩ := hR y hM
  refine ⟨hx, y', by rw [e], ?_⟩
  have a : |y| ≤ (1 + u) ^ k * m + t := by
    have := abs_add_le (y - x) x
    rw [sub_add_cancel] at this
    linarith
  have b := abs_sub_le y' y x
  have c := mul_le_mul_of_nonneg_left a hu
  have e : ((1 + u) ^ (k + 1) - 1) * m = ((1 + u) ^ k - 1) * m + u * ((1 + u) ^ k * m) := by ring
  rw [e]
  linarith

theorem Near.size_le {k : ℕ} {t m y x : ℝ} (h : Near R u k t m (.num (y : EReal)) x) (hk : (1 + u) ^ k ≤ 2) : |y| ≤ 2 * m + t ∧ |y - x| ≤ ((1 + u) ^ k - 1) * m + t := by
  obtain ⟨h1, y', e, h2⟩ := h
  injection e with e
  have e : y = y' := by exact_mod_cast e
  subst e
  refine ⟨?_, h2⟩
  have := abs_add_le (y - x) x
  rw [sub_add_cancel] at this
  nlinarith [abs_nonneg x]

theorem Near.add (hR : Accurate R u η M) (hu : 0 ≤ u) {k : ℕ} (hk : (1 + u) ^ k ≤ 2) {t1 t2 t m1 m2 : ℝ} {y1 y2 : Dbl R} {x1 x2 : ℝ}
    (h1 : Near R u k t1 m1 y1 x1) (h2 : Near R u k t2 m2 y2 x2) (hM : 2 * (m1 + m2) + (t1 + t2) ≤ M) (ht : (1 + u) * (t1 + t2) + η ≤ t) :
    Near R u (k + 1) t (m1 + m2) (y1 + y2) (x1 + x2) := by
  obtain ⟨z1, rfl, -⟩ := h1.2
  obtain ⟨z2, rfl, -⟩ := h2.2
  obtain ⟨a1, b1⟩ := h1.size_le hk
  obtain ⟨a2, b2⟩ := h2.size_le hk
  rw [Dbl.add_coe]
  have c := abs_add_le z1 z2
  have d := abs_add_le (z1 - x1) (z2 - x2)
  rw [show z1 - x1 + (z2 - x2) = z1 + z2 - (x1 + x2) by ring] at d
  exact near_rnd hR hu (t := t1 + t2) ((abs_add_le _ _).trans (add_le_add h1.1 h2.1)) (by linarith) (by linarith) ht

theorem Near.sub (hR : Accurate R u η M) (hu : 0 ≤ u) {k : ℕ} (hk : (1 + u) ^ k ≤ 2) {t1 t2 t m1 m2 : ℝ} {y1 y2 : Dbl R} {x1 x2 : ℝ}
    (h1 : Near R u k t1 m1 y1 x1) (h2 : Near R u k t2 m2 y2 x2) (hM : 2 * (m1 + m2) + (t1 + t2) ≤ M) (ht : (1 + u) * (t1 + t2) + η ≤ t) :
    Near R u (k + 1) t (m1 + m2) (y1 - y2) (x1 - x2) := by
  rw [sub_eq_add_neg]
  exact h1.add hR hu hk h2.neg hM ht

theorem Near.mul (hR : Accurate R u η M) (hu : 0 ≤ u) {k1 k2 : ℕ} (hk1 : (1 + u) ^ k1 ≤ 2) (hk2 : (1 + u) ^ k2 ≤ 2) {t1 t2 t m1 m2 : ℝ}
    {y1 y2 : Dbl R} {x1 x2 : ℝ} (h1 : Near R u k1 t1 m1 y1 x1) (h2 : Near R u k2 t2 m2 y2 x2) (ht1 : 0 ≤ t1) (ht2 : 0 ≤ t2)
    (hM : (2 * m1 + t1) * (2 * m2 + t2) ≤ M) (ht : (1 + u) * (2 * (t1 * m2 + m1 * t2) + t1 * t2) + η ≤ t) :
    Near R u (k1 + k2 + 1) t (m1 * m2) (y1 * y2) (x1 * x2) := by
  obtain ⟨z1, rfl, -⟩ := h1.2
  obtain ⟨z2, rfl, -⟩ := h2.2
  obtain ⟨a1, b1⟩ := h1.size_le hk1
  obtain ⟨a2, b2⟩ := h2.size_le hk2
  have hm1 := (abs_nonneg x1).trans h1.1
  have hm2 := (abs_nonneg x2).trans h2.1
  rw [Dbl.mul_coe]
  refine near_rnd hR hu (t := 2 * (t1 * m2 + m1 * t2) + t1 * t2) ?_ ?_ ?_ ht
  · rw [abs_mul]; exact mul_le_mul h1.1 h2.1 (abs_nonneg _) hm1
  · have c : |z2| ≤ (1 + u) ^ k2 * m2 + t2 := by
      have := abs_add_le (z2 - x2) x2
      rw [sub_add_cancel] at this
      linarith [h2.1]
    have d : |z1 * z2 - x1 * x2| ≤ |z1 - x1| * |z2| + |x1| * |z2 - x2| := by
      rw [← abs_mul, ← abs_mul, show z1 * z2 - x1 * x2 = (z1 - x1) * z2 + x1 * (z2 - x2) by ring]
      exact abs_add_le _ _
    have e1 : |z1 - x1| * |z2| ≤ (((1 + u) ^ k1 - 1) * m1 + t1) * ((1 + u) ^ k2 * m2 + t2) :=
      mul_le_mul b1 c (abs_nonneg _) ((abs_nonneg _).trans b1)
    have e2 : |x1| * |z2 - x2| ≤ m1 * (((1 + u) ^ k2 - 1) * m2 + t2) := mul_le_mul h1.1 b2 (abs_nonneg _) hm1
    have f1 : t1 * ((1 + u) ^ k2 * m2) ≤ t1 * (2 * m2) := mul_le_mul_of_nonneg_left (mul_le_mul_of_nonneg_right hk2 hm2) ht1
    have f2 : ((1 + u) ^ k1 * m1) * t2 ≤ (2 * m1) * t2 := mul_le_mul_of_nonneg_right (mul_le_mul_of_nonneg_right hk1 hm1) ht2
    rw [pow_add]
    nlinarith
  · rw [abs_mul]
    exact (mul_le_mul a1 a2 (abs_nonneg _) ((abs_nonneg _).trans a1)).trans hM

theorem Near.sqrt (hR : Accurate R u η M) (hu : 0 ≤ u) {k : ℕ} {t t' x : ℝ} (hk : (1 + u) ^ k ≤ 5 / 4) {y : Dbl R} (hx : 0 < x) (h : Near R u k t x y x)
    (htx : t ≤ x / 4) (hM : 2 * Real.sqrt x ≤ M) (ht : (1 + u) * (t / Real.sqrt x) + η ≤ t') :
    Near R u (k + 1) t' (Real.sqrt x) (Fl.sqrt y) (Real.sqrt x) := by
  obtain ⟨z, rfl, -⟩ := h.2
  obtain ⟨-, b⟩ := h.size_le (hk.trans (by norm_num))
  have hz : 0 < z := by
    have := (abs_le.mp b).1
    nlinarith
  have hz2 : z ≤ 2 * x := by
    have := (abs_le.mp b).2
    nlinarith
  have hs := Real.sqrt_pos.mpr hx
  have e : Fl.sqrt (Dbl.num (z : EReal) : Dbl R) = .num (R.rnd (Real.sqrt z)) := by
    show (if z < 0 then Dbl.nan else Dbl.num (R.rnd (Real.sqrt z)) : Dbl R) = _
    rw [if_neg (not_lt.mpr hz.le)]
  rw [e]
  have hxx : Real.sqrt x * Real.sqrt x = x := Real.mul_self_sqrt hx.le
  refine near_rnd hR hu (t := t / Real.sqrt x) (abs_of_pos hs).le ?_ ?_ ht
  · have h1 : |Real.sqrt z - Real.sqrt x| ≤ |z - x| / Real.sqrt x := by
      rw [le_div_iff₀ hs]
      have : z - x = (Real.sqrt z - Real.sqrt x) * (Real.sqrt z + Real.sqrt x) := by
        have := Real.mul_self_sqrt hz.le
        nlinarith
      rw [this, abs_mul]
      refine mul_le_mul_of_nonneg_left ?_ (abs_nonneg _)
      rw [abs_of_pos (by positivity)]
      linarith [Real.sqrt_nonneg z]
    refine h1.trans ?_
    rw [div_le_iff₀ hs, add_mul, div_mul_cancel₀ _ hs.ne', mul_assoc, hxx]
    exact b
  · rw [abs_of_nonneg (Real.sqrt_nonneg z)]
    refine le_trans ?_ hM
    rw [Real.sqrt_le_left (by positivity), mul_pow, Real.sq_sqrt hx.le]
    linarith

end

theorem abs_log_le {y x a : ℝ} (hx : 0 < x) (ha : a ≤ 1 / 2) (h : |y - x| ≤ a * x) : 0 < y ∧ |Real.log y - Real.log x| ≤ 2 * a := by
  have h1 := (abs_le.mp h).1
  have h2 := (abs_le.mp h).2
  have hy : 0 < y := by nlinarith
  have ha0 : 0 ≤ a := by
    by_contra hc
    have := abs_nonneg (y - x)
    nlinarith
  refine ⟨hy, ?_⟩
  rw [← Real.log_div hy.ne' hx.ne']
  have hq : 0 < y / x := div_pos hy hx
  have q1 : y / x ≤ 1 + a := by rw [div_le_iff₀ hx]; linarith
  have q2 : 1 - a ≤ y / x := by rw [le_div_iff₀ hx]; linarith
  have l1 := Real.log_le_sub_one_of_pos hq
  have l2 := Real.one_sub_inv_le_log_of_pos hq
  have l3 : (y / x)⁻¹ ≤ 1 + 2 * a := by
    rw [inv_le_comm₀ hq (by linarith)]
    refine le_trans ?_ q2
    rw [inv_le_iff_one_le_mul₀ (by linarith)]
    nlinarith
  rw [abs_le]
  constructor <;> linarith

end Verif
