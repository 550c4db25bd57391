import Verif.Props.PathError

/-!
# Forward errors of computations of moderate size in binary64

The absolute error caused by underflow is kept track of by the depth of the computation.
-/

set_option exponentiation.threshold 3000

namespace Verif
open Spec

/-- The double `y` was meant to be `x`: `k` roundings, at most `d` operations deep, all results of size at most `2 ^ 60`. -/
def Nr (d k : ℕ) (m : ℝ) (y : Dbl .binary64) (x : ℝ) : Prop := Near .binary64 (2 ^ (-53 : ℤ)) k (2 ^ (-1075 + 65 * d : ℤ)) m y x

namespace Nr

theorem u_nonneg : (0 : ℝ) ≤ 2 ^ (-53 : ℤ) := by positivity

theorem tiny_le {d : ℕ} (hd : d ≤ 14) : (2 : ℝ) ^ (-1075 + 65 * d : ℤ) ≤ 2 ^ (-165 : ℤ) :=
  zpow_le_zpow_right₀ (by norm_num) (by omega)

theorem tiny_ge (d : ℕ) : (2 : ℝ) ^ (-1075 : ℤ) ≤ 2 ^ (-1075 + 65 * d : ℤ) :=
  zpow_le_zpow_right₀ (by norm_num) (by omega)

theorem tiny_succ (d : ℕ) : (2 : ℝ) ^ (-1075 + 65 * (d + 1 : ℕ) : ℤ) = 2 ^ (65 : ℤ) * 2 ^ (-1075 + 65 * d : ℤ) := by
  rw [← zpow_add₀ (by norm_num)]
  congr 1
  push_cast
  ring

theorem pow_le {k : ℕ} (hk : k ≤ 2 ^ 40) : ((1 : ℝ) + 2 ^ (-53 : ℤ)) ^ k ≤ 1 + 2 * k * 2 ^ (-53 : ℤ) := by
  refine one_add_pow_le u_nonneg k ?_
  have : (k : ℝ) ≤ 2 ^ 40 := by exact_mod_cast hk
  calc 2 * (k : ℝ) * 2 ^ (-53 : ℤ) ≤ 2 * 2 ^ 40 * 2 ^ (-53 : ℤ) := by gcongr
    _ ≤ 1 := by norm_num

theorem pow_le_two {k : ℕ} (hk : k ≤ 2 ^ 40) : ((1 : ℝ) + 2 ^ (-53 : ℤ)) ^ k ≤ 1 + 1 / 2 ^ 12 := by
  refine (pow_le hk).trans ?_
  have : (k : ℝ) ≤ 2 ^ 40 := by exact_mod_cast hk
  have : 2 * (k : ℝ) * 2 ^ (-53 : ℤ) ≤ 2 * 2 ^ 40 * 2 ^ (-53 : ℤ) := by gcongr
  refine (add_le_add le_rfl this).trans ?_
  norm_num

theorem exact (x : ℝ) : Nr 0 0 |x| (.num x) x := (Near.exact x).weaken u_nonneg le_rfl (by positivity)

variable {d d' k k' k1 k2 : ℕ} {m m' m1 m2 x x1 x2 : ℝ} {y y1 y2 : Dbl .binary64}

theorem weaken (h : Nr d k m y x) (hd : d ≤ d') (hk : k ≤ k') : Nr d' k' m y x :=
  Near.weaken u_nonneg h hk (zpow_le_zpow_right₀ (by norm_num) (by omega))

theorem neg (h : Nr d k m y x) : Nr d k m (-y) (-x) := Near.neg h

theorem mono (h : Nr d k m y x) (hm : m ≤ m') : Nr d k m' y x := by
  obtain ⟨a, y', e, b⟩ := h
  refine ⟨a.trans hm, y', e, b.trans (add_le_add (mul_le_mul_of_nonneg_left hm ?_) le_rfl)⟩
  linarith [one_le_pow₀ (n := k) (by linarith [u_nonneg] : (1 : ℝ) ≤ 1 + 2 ^ (-53 : ℤ))]

/-- One rounding of the exact value. -/
theorem rnd (hx : |x| ≤ 2 ^ (200 : ℤ)) : Nr 0 1 |x| (.num (Rounding.binary64.rnd x)) x :=
  near_rnd binary64_doubleAccurate.round u_nonneg (k := 0) (t := 0) le_rfl (by simp) (hx.trans (by norm_num)) (by norm_num)

theorem nonneg (h : Nr d k m y x) : 0 ≤ m := (abs_nonneg x).trans h.1

theorem mul (h1 : Nr d k1 m1 y1 x1) (h2 : Nr d k2 m2 y2 x2) (hd : d ≤ 13) (hk1 : k1 ≤ 2 ^ 40) (hk2 : k2 ≤ 2 ^ 40) (hm1 : m1 ≤ 2 ^ 60)
    (hm2 : m2 ≤ 2 ^ 60) : Nr (d + 1) (k1 + k2 + 1) (m1 * m2) (y1 * y2) (x1 * x2) := by
  have p1 := (pow_le_two hk1).trans (by norm_num : (1 : ℝ) + 1 / 2 ^ 12 ≤ 2)
  have p2 := (pow_le_two hk2).trans (by norm_num : (1 : ℝ) + 1 / 2 ^ 12 ≤ 2)
  have t1 := tiny_le (d := d) (by omega)
  have t2 := tiny_ge d
  have t0 : (0 : ℝ) < 2 ^ (-1075 + 65 * d : ℤ) := by positivity
  have n1 := h1.nonneg
  have n2 := h2.nonneg
  refine Near.mul binary64_doubleAccurate.round u_nonneg p1 p2 h1 h2 t0.le t0.le ?_ ?_
  · generalize (2 : ℝ) ^ (-1075 + 65 * d : ℤ) = t at *
    calc (2 * m1 + t) * (2 * m2 + t) ≤ (2 * 2 ^ 60 + 2 ^ (-165 : ℤ)) * (2 * 2 ^ 60 + 2 ^ (-165 : ℤ)) := by gcongr
      _ ≤ 2 ^ (1000 : ℤ) := by norm_num
  · rw [tiny_succ]
    generalize (2 : ℝ) ^ (-1075 + 65 * d : ℤ) = t at *
    have a : t * m2 + m1 * t ≤ t * 2 ^ 60 + 2 ^ 60 * t := by gcongr
    have b : t * t ≤ t * 2 ^ (-165 : ℤ) := by gcongr
    have c : (2 : ℝ) ^ (-165 : ℤ) ≤ 1 := by norm_num
    have e : (2 : ℝ) ^ (-53 : ℤ) ≤ 1 := by norm_num
    have f : (0 : ℝ) ≤ 2 * (t * m2 + m1 * t) + t * t := by positivity
    have g : t * 2 ^ (-165 : ℤ) ≤ t * 1 := by gcongr
    calc (1 + 2 ^ (-53 : ℤ)) * (2 * (t * m2 + m1 * t) + t * t) + 2 ^ (-1075 : ℤ) ≤ (1 + 1) * (2 * (t * 2 ^ 60 + 2 ^ 60 * t) + t * 1) + t := by
          gcongr; linarith
      _ ≤ 2 ^ (65 : ℤ) * t := by norm_num; linarith

theorem add (h1 : Nr d k m1 y1 x1) (h2 : Nr d k m2 y2 x2) (hd : d ≤ 13) (hk : k ≤ 2 ^ 40) (hm1 : m1 ≤ 2 ^ 100)
    (hm2 : m2 ≤ 2 ^ 100) : Nr (d + 1) (k + 1) (m1 + m2) (y1 + y2) (x1 + x2) := by
  have p1 := (pow_le_two hk).trans (by norm_num : (1 : ℝ) + 1 / 2 ^ 12 ≤ 2)
  have t1 := tiny_le (d := d) (by omega)
  have t2 := tiny_ge d
  have t0 : (0 : ℝ) < 2 ^ (-1075 + 65 * d : ℤ) := by positivity
  refine Near.add binary64_doubleAccurate.round u_nonneg p1 h1 h2 ?_ ?_
  · generalize (2 : ℝ) ^ (-1075 + 65 * d : ℤ) = t at *
    calc 2 * (m1 + m2) + (t + t) ≤ 2 * (2 ^ 100 + 2 ^ 100) + (2 ^ (-165 : ℤ) + 2 ^ (-165 : ℤ)) := by gcongr
      _ ≤ 2 ^ (1000 : ℤ) := by norm_num
  · rw [tiny_succ]
    generalize (2 : ℝ) ^ (-1075 + 65 * d : ℤ) = t at *
    have e : (2 : ℝ) ^ (-53 : ℤ) ≤ 1 := by norm_num
    calc (1 + 2 ^ (-53 : ℤ)) * (t + t) + 2 ^ (-1075 : ℤ) ≤ (1 + 1) * (t + t) + t := by gcongr
      _ ≤ 2 ^ (65 : ℤ) * t := by norm_num; linarith

theorem sub (h1 : Nr d k m1 y1 x1) (h2 : Nr d k m2 y2 x2) (hd : d ≤ 13) (hk : k ≤ 2 ^ 40) (hm1 : m1 ≤ 2 ^ 100)
    (hm2 : m2 ≤ 2 ^ 100) : Nr (d + 1) (k + 1) (m1 + m2) (y1 - y2) (x1 - x2) := by
  rw [sub_eq_add_neg x1]
  exact h1.add h2.neg hd hk hm1 hm2

/-- Division by a positive number that has only relative errors. -/
theorem div (h1 : Nr d k1 m1 y1 x1) (h2 : Nr d' k2 x2 y2 x2) (hd : d ≤ 13) (hd' : d' ≤ 14) (hk1 : k1 ≤ 2 ^ 40) (hk2 : k2 < 2 ^ 40) (hm1 : m1 ≤ 2 ^ 200)
    (hx2 : 2 ^ (-60 : ℤ) ≤ x2) : Nr (d + 1) (k1 + 2 * (k2 + 1) + 1) (m1 / x2) (y1 / y2) (x1 / x2) := by
  have hx0 : 0 < x2 := lt_of_lt_of_le (by positivity) hx2
  have n1 := h1.nonneg
  obtain ⟨z1, rfl, b1⟩ := h1.2
  obtain ⟨z2, rfl, b2⟩ := h2.2
  have p1 := pow_le_two hk1
  have p2 := pow_le_two (k := k2 + 1) hk2
  have q1 : (1 : ℝ) ≤ (1 + 2 ^ (-53 : ℤ)) ^ k1 := one_le_pow₀ (by linarith [u_nonneg])
  have q2 : (1 : ℝ) ≤ (1 + 2 ^ (-53 : ℤ)) ^ (k2 + 1) := one_le_pow₀ (by linarith [u_nonneg])
  have q3 : (1 : ℝ) ≤ (1 + 2 ^ (-53 : ℤ)) ^ k2 := one_le_pow₀ (by linarith [u_nonneg])
  have c2 : |z2 - x2| ≤ ((1 + 2 ^ (-53 : ℤ)) ^ (k2 + 1) - 1) * x2 := by
    refine b2.trans ?_
    have t : (2 : ℝ) ^ (-1075 + 65 * d' : ℤ) ≤ 2 ^ (-53 : ℤ) * 2 ^ (-60 : ℤ) := (tiny_le hd').trans (by norm_num)
    have t' : (2 : ℝ) ^ (-53 : ℤ) * 2 ^ (-60 : ℤ) ≤ 2 ^ (-53 : ℤ) * x2 := by gcongr
    have t'' : (2 : ℝ) ^ (-53 : ℤ) * x2 * 1 ≤ 2 ^ (-53 : ℤ) * x2 * (1 + 2 ^ (-53 : ℤ)) ^ k2 := by gcongr
    rw [pow_succ]
    linarith
  generalize ha : ((1 : ℝ) + 2 ^ (-53 : ℤ)) ^ (k2 + 1) = a at *
  have t1 := tiny_le (d := d) (by omega)
  have t2 := tiny_ge d
  have t0 : (0 : ℝ) < 2 ^ (-1075 + 65 * d : ℤ) := by positivity
  unfold Nr
  rw [tiny_succ]
  generalize (2 : ℝ) ^ (-1075 + 65 * d : ℤ) = t at *
  have ha2 : a ≤ 3 / 2 := p2.trans (by norm_num)
  obtain ⟨l2, r2⟩ := abs_le.mp c2
  have hz : (2 - a) * x2 ≤ z2 := by linarith
  have hz0 : 0 < z2 := lt_of_lt_of_le (mul_pos (by linarith) hx0) hz
  have inv : x2 / z2 ≤ a ^ 2 := by
    rw [div_le_iff₀ hz0]
    have : 1 ≤ a ^ 2 * (2 - a) := by
      have h0 : 0 ≤ 1 + a - a ^ 2 := by nlinarith
      have := mul_nonneg (sub_nonneg.mpr q2) h0
      linarith
    calc x2 = 1 * x2 := (one_mul _).symm
      _ ≤ a ^ 2 * (2 - a) * x2 := by gcongr
      _ = a ^ 2 * ((2 - a) * x2) := by ring
      _ ≤ a ^ 2 * z2 := by gcongr
  have inv' : 1 / z2 ≤ a ^ 2 / x2 := by
    rw [div_le_div_iff₀ hz0 hx0]
    rw [div_le_iff₀ hz0] at inv
    linarith
  have dif : |1 / z2 - 1 / x2| ≤ (a ^ 2 - 1) / x2 := by
    have e : 1 / z2 - 1 / x2 = (x2 - z2) * (1 / z2) / x2 := by field_simp
    rw [e, abs_div, abs_of_pos hx0, abs_mul, abs_sub_comm, abs_of_pos (by positivity : (0 : ℝ) < 1 / z2)]
    refine div_le_div_of_nonneg_right ?_ hx0.le
    have s1 : |z2 - x2| * (1 / z2) ≤ (a - 1) * x2 * (1 / ((2 - a) * x2)) := by
      refine mul_le_mul c2 (one_div_le_one_div_of_le (mul_pos (by linarith) hx0) hz) (by positivity) (mul_nonneg (by linarith) hx0.le)
    have s2 : (a - 1) * x2 * (1 / ((2 - a) * x2)) = (a - 1) / (2 - a) := by
      have : 2 - a ≠ 0 := by linarith
      field_simp
    rw [s2] at s1
    refine s1.trans ?_
    rw [div_le_iff₀ (by linarith)]
    nlinarith [mul_nonneg (sub_nonneg.mpr q2) (sub_nonneg.mpr q2)]
  have key : |z1 / z2 - x1 / x2| ≤ ((1 + 2 ^ (-53 : ℤ)) ^ (k1 + 2 * (k2 + 1)) - 1) * (m1 / x2) + t * a ^ 2 / x2 := by
    have e : z1 / z2 - x1 / x2 = (z1 - x1) * (1 / z2) + x1 * (1 / z2 - 1 / x2) := by ring
    rw [e]
    refine (abs_add_le _ _).trans ?_
    rw [abs_mul, abs_mul, abs_of_pos (by positivity : (0 : ℝ) < 1 / z2)]
    have s1 : |z1 - x1| * (1 / z2) ≤ (((1 + 2 ^ (-53 : ℤ)) ^ k1 - 1) * m1 + t) * (a ^ 2 / x2) :=
      mul_le_mul b1 inv' (by positivity) ((abs_nonneg _).trans b1)
    have s2 : |x1| * |1 / z2 - 1 / x2| ≤ m1 * ((a ^ 2 - 1) / x2) := mul_le_mul h1.1 dif (abs_nonneg _) n1
    refine (add_le_add s1 s2).trans (le_of_eq ?_)
    rw [pow_add, pow_mul', ha]
    field_simp
    ring
  have hx3 : 1 / x2 ≤ 2 ^ (60 : ℤ) := by
    rw [div_le_iff₀ hx0]
    calc (1 : ℝ) = 2 ^ (60 : ℤ) * 2 ^ (-60 : ℤ) := by norm_num
      _ ≤ 2 ^ (60 : ℤ) * x2 := by gcongr
  have ht : t * a ^ 2 / x2 ≤ 2 ^ (62 : ℤ) * t := by
    calc t * a ^ 2 / x2 = t * a ^ 2 * (1 / x2) := by ring
      _ ≤ t * (3 / 2) ^ 2 * 2 ^ (60 : ℤ) := by gcongr
      _ ≤ 2 ^ (62 : ℤ) * t := by norm_num; linarith
  rw [Dbl.div_coe _ hz0.ne']
  refine near_rnd binary64_doubleAccurate.round u_nonneg (t := 2 ^ (62 : ℤ) * t) ?_ (key.trans (add_le_add le_rfl ht)) ?_ ?_
  · rw [abs_div, abs_of_pos hx0]
    exact div_le_div_of_nonneg_right h1.1 hx0.le
  · rw [abs_div, abs_of_pos hz0, div_eq_mul_one_div]
    have : |z1| ≤ 2 * m1 + t := by
      have := abs_add_le (z1 - x1) x1
      rw [sub_add_cancel] at this
      have p3 := mul_le_mul_of_nonneg_right (p1.trans (by norm_num : (1 : ℝ) + 1 / 2 ^ 12 ≤ 2)) n1
      linarith [h1.1]
    calc |z1| * (1 / z2) ≤ (2 * m1 + t) * (a ^ 2 / x2) := by gcongr
      _ = (2 * m1 + t) * a ^ 2 * (1 / x2) := by ring
      _ ≤ (2 * 2 ^ 200 + 2 ^ (-165 : ℤ)) * (3 / 2) ^ 2 * 2 ^ (60 : ℤ) := by gcongr
      _ ≤ 2 ^ (1000 : ℤ) := by norm_num
  · have e : (2 : ℝ) ^ (-53 : ℤ) ≤ 1 := by norm_num
    calc (1 + 2 ^ (-53 : ℤ)) * (2 ^ (62 : ℤ) * t) + 2 ^ (-1075 : ℤ) ≤ (1 + 1) * (2 ^ (62 : ℤ) * t) + t := by gcongr
      _ ≤ 2 ^ (65 : ℤ) * t := by norm_num; linarith

/-- What the relation says about the double. -/
theorem error (h : Nr d k m y x) (hd : d ≤ 14) (hk : k ≤ 2 ^ 40) : ∃ z : ℝ, y = .num z ∧ |z - x| ≤ 2 * k * 2 ^ (-53 : ℤ) * m + 2 ^ (-165 : ℤ) := by
  obtain ⟨z, e, b⟩ := h.2
  refine ⟨z, e, b.trans (add_le_add (mul_le_mul_of_nonneg_right ?_ h.nonneg) (tiny_le hd))⟩
  linarith [pow_le hk]

/-- Literals. -/
theorem half : Nr 0 1 (1 / 2) (lit (1 / 2)) (1 / 2) := by
  have := rnd (x := 1 / 2) (by rw [abs_of_pos] <;> norm_num)
  rw [abs_of_pos (by norm_num)] at this
  rw [Dbl.lit_def]
  push_cast
  exact this

theorem nat {n : ℕ} (hn : n ≤ 2 ^ 53) : Nr 0 0 n (lit (n : ℚ)) n := by
  rw [Dbl.lit_def]
  push_cast
  rw [show Rounding.binary64.rnd (n : ℝ) = ((n : ℝ) : EReal) from Binary64.rnd_natCast hn]
  have := exact (n : ℝ)
  rwa [abs_of_nonneg (Nat.cast_nonneg n)] at this

end Nr
end Verif
