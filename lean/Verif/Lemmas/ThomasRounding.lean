import Verif.Lemmas.FdmRounding
import Verif.Props.LinearSystems

/-!
# Rounding errors of the Thomas algorithm
-/

namespace Verif
open Spec

namespace Thomas

/-- What is assumed of the arithmetic and of the sizes: unit roundoff `u`, underflow error `η`, no overflow up to `B`; the coefficients are at most `U`,
the diagonal dominates every row by at least `L`, and the solution is about `W`. -/
structure Sizes (R : Rounding) (u η B U L W : ℝ) : Prop where
  acc : Accurate R u η B
  u0 : 0 ≤ u
  u1 : u ≤ 1 / 64
  L0 : 0 < L
  W0 : 0 < W
  dom : 2 ^ 10 * (u * U) ≤ L
  LU : L ≤ U
  tiny : η ≤ u
  tinyU : η ≤ u * U
  tinyW : η ≤ u * W
  tinyUW : η ≤ u * (U * W)
  bigU : 4 * U ≤ B
  bigW : 8 * W ≤ B
  bigUW : 8 * (U * W) ≤ B
  big1 : 2 ≤ B
  bigQ : 16 * (U * W) ≤ B * L

variable {R : Rounding} {u η B U L W : ℝ}

/-- The pivot. -/
theorem pivot_step (h : Sizes R u η B U L W) {p a c : ℝ} (hp : |p| ≤ U) (ha : |a| ≤ U) (hc : |c| ≤ 1) :
    ∃ m : ℝ, (.num (p : EReal) - .num (a : EReal) * .num (c : EReal) : Dbl R) = .num (m : EReal) ∧ |m - (p - a * c)| ≤ 8 * (u * U) := by
  have hU : 0 < U := h.L0.trans_le h.LU
  have hac : |a * c| ≤ U := by
    rw [abs_mul]
    calc |a| * |c| ≤ U * 1 := mul_le_mul ha hc (abs_nonneg _) hU.le
      _ = U := mul_one U
  have b1 := h.bigU
  have t1 := h.tinyU
  obtain ⟨t, et, ht⟩ := h.acc (a * c) (by linarith)
  have ht' : |t - a * c| ≤ 2 * (u * U) := by
    have := mul_le_mul_of_nonneg_left hac h.u0
    linarith
  have uU : u * U ≤ 1 / 64 * U := mul_le_mul_of_nonneg_right h.u1 hU.le
  have sz : |p - t| ≤ 3 * U := by
    have e : p - t = p - a * c - (t - a * c) := by ring
    rw [e]
    have h1 := abs_sub (p - a * c) (t - a * c)
    have h2 := abs_sub p (a * c)
    linarith
  obtain ⟨m, em, hm⟩ := h.acc (p - t) (by linarith)
  refine ⟨m, by rw [Dbl.mul_coe, et, Dbl.sub_coe, em], ?_⟩
  have := mul_le_mul_of_nonneg_left sz h.u0
  have e : m - (p - a * c) = (m - (p - t)) - (t - a * c) := by ring
  rw [e]
  have h1 := abs_sub (m - (p - t)) (t - a * c)
  have := mul_nonneg h.u0 hU.le
  linarith

/-- A quotient. -/
theorem quotient_step (h : Sizes R u η B U L W) {z m : ℝ} (hm : m ≠ 0) (hz : |z / m| ≤ B) :
    ∃ y : ℝ, (.num (z : EReal) / .num (m : EReal) : Dbl R) = .num (y : EReal) ∧ |y * m - z| ≤ u * |z| + η * |m| := by
  obtain ⟨y, ey, hy⟩ := h.acc (z / m) hz
  refine ⟨y, by rw [Dbl.div_coe _ hm, ey], ?_⟩
  have hm' : 0 < |m| := abs_pos.mpr hm
  have e : y * m - z = (y - z / m) * m := by field_simp
  rw [e, abs_mul]
  calc |y - z / m| * |m| ≤ (u * |z / m| + η) * |m| := mul_le_mul_of_nonneg_right hy hm'.le
    _ = u * |z| + η * |m| := by rw [abs_div]; field_simp

/-- The entry of the right hand side. -/
theorem rhs_step (h : Sizes R u η B U L W) {b a d : ℝ} (hb : |b| ≤ U * W) (ha : |a| ≤ U) (hd : |d| ≤ 2 * W) :
    ∃ z : ℝ, (.num (b : EReal) - .num (a : EReal) * .num (d : EReal) : Dbl R) = .num (z : EReal) ∧ |z - (b - a * d)| ≤ 8 * (u * (U * W)) ∧ |z| ≤ 4 * (U * W) := by
  have hU : 0 < U := h.L0.trans_le h.LU
  have hUW : 0 < U * W := mul_pos hU h.W0
  have had : |a * d| ≤ 2 * (U * W) := by
    rw [abs_mul]
    calc |a| * |d| ≤ U * (2 * W) := mul_le_mul ha hd (abs_nonneg _) hU.le
      _ = 2 * (U * W) := by ring
  have b1 := h.bigUW
  have t1 := h.tinyUW
  have uU : u * (U * W) ≤ 1 / 64 * (U * W) := mul_le_mul_of_nonneg_right h.u1 hUW.le
  obtain ⟨t, et, ht⟩ := h.acc (a * d) (by linarith)
  have ht' : |t - a * d| ≤ 3 * (u * (U * W)) := by
    have := mul_le_mul_of_nonneg_left had h.u0
    linarith
  have sz : |b - t| ≤ 3 * (U * W) + 3 * (u * (U * W)) := by
    have e : b - t = b - a * d - (t - a * d) := by ring
    rw [e]
    have h1 := abs_sub (b - a * d) (t - a * d)
    have h2 := abs_sub b (a * d)
    linarith
  obtain ⟨z, ez, hz⟩ := h.acc (b - t) (by linarith)
  have hz' : |z - (b - t)| ≤ 5 * (u * (U * W)) := by
    have := mul_le_mul_of_nonneg_left (by linarith : |b - t| ≤ 4 * (U * W)) h.u0
    linarith
  refine ⟨z, by rw [Dbl.mul_coe, et, Dbl.sub_coe, ez], ?_, ?_⟩
  · have e : z - (b - a * d) = (z - (b - t)) - (t - a * d) := by ring
    rw [e]
    have h1 := abs_sub (z - (b - t)) (t - a * d)
    linarith
  · have e : z = (z - (b - t)) + (b - t) := by ring
    rw [e]
    have h1 := abs_add_le (z - (b - t)) (b - t)
    linarith

/-- What is known of `cStar` and `dStar` after a row with the coefficients `a`, `p`, `s` and the right hand side `b`; `c` and `d` are those of the row before. -/
structure Row (u U L W a p s b c d m c' d' : ℝ) : Prop where
  pivot : |m - (p - a * c)| ≤ 8 * (u * U)
  size : |m| ≤ 3 * U
  sup : |c' * m - s| ≤ 8 * (u * U)
  rhs : |d' * m - (b - a * d)| ≤ 16 * (u * (U * W))
  less : L ≤ (1 - |c'|) * (6 * U)
  bound : |d'| ≤ 2 * W * (1 - |c'|)

theorem Row.c_le {a p s b c d m c' d' : ℝ} (h : Row u U L W a p s b c d m c' d') (hL : 0 < L) (hU : 0 < U) : |c'| ≤ 1 := by
  by_contra hc
  have : (1 - |c'|) * (6 * U) ≤ 0 := mul_nonpos_of_nonpos_of_nonneg (by linarith) (by linarith)
  linarith [h.less]

theorem Row.d_le {a p s b c d m c' d' : ℝ} (h : Row u U L W a p s b c d m c' d') (hW : 0 < W) : |d'| ≤ 2 * W := by
  have := mul_le_mul_of_nonneg_left (by linarith [abs_nonneg c'] : 1 - |c'| ≤ 1) (by linarith : 0 ≤ 2 * W)
  linarith [h.bound]

/-- The size of the pivot. -/
theorem pivot_size (h : Sizes R u η B U L W) {a p s c m : ℝ} (hp : |p| ≤ U) (hdom : L + |a| + |s| ≤ |p|) (hc : |c| ≤ 1) (h1 : |m - (p - a * c)| ≤ 8 * (u * U)) :
    |p| - |a| - |s| + |a| * (1 - |c|) - 8 * (u * U) ≤ |m| - |s| ∧ |m| ≤ 3 * U ∧ 0 < |m| - |s| ∧ L ≤ 2 * |m| := by
  have hU : 0 < U := h.L0.trans_le h.LU
  have hdo := h.dom
  have uU : u * U ≤ 1 / 64 * U := mul_le_mul_of_nonneg_right h.u1 hU.le
  have a0 := abs_nonneg a
  have s0 := abs_nonneg s
  have hac : |a * c| = |a| * |c| := abs_mul a c
  have hac1 : |a| * |c| ≤ |a| := mul_le_of_le_one_right a0 hc
  have e1 := abs_sub_abs_le_abs_sub (p - a * c) (p - a * c - m)
  rw [sub_sub_cancel] at e1
  have e2 := abs_sub_abs_le_abs_sub p (a * c)
  have e3 := abs_add_le (m - (p - a * c)) (p - a * c)
  rw [sub_add_cancel] at e3
  have e4 := abs_sub p (a * c)
  rw [abs_sub_comm (p - a * c) m] at e1
  rw [hac] at e2 e4
  have e5 : |a| * (1 - |c|) = |a| - |a| * |c| := by ring
  have hL := h.L0
  refine ⟨?_, ?_, ?_, ?_⟩ <;> linarith

/-- The bounds on `cStar` and `dStar`. -/
theorem row_bounds (h : Sizes R u η B U L W) {a p s b c d m c' d' : ℝ} (hp : |p| ≤ U) (hdom : L + |a| + |s| ≤ |p|) (hb : |b| ≤ W * (|p| - |a| - |s|))
    (hc : |c| ≤ 1) (hd : |d| ≤ 2 * W * (1 - |c|)) (h1 : |m - (p - a * c)| ≤ 8 * (u * U)) (h2 : |c' * m - s| ≤ 8 * (u * U))
    (h3 : |d' * m - (b - a * d)| ≤ 16 * (u * (U * W))) : Row u U L W a p s b c d m c' d' := by
  obtain ⟨m1, m2, m3, m4⟩ := pivot_size h hp hdom hc h1
  have hU : 0 < U := h.L0.trans_le h.LU
  have hL := h.L0
  have hW := h.W0
  have hdo := h.dom
  have hm : 0 < |m| := by linarith
  have a0 := abs_nonneg a
  have hc0 : 0 ≤ 1 - |c| := by linarith
  have hac : 0 ≤ |a| * (1 - |c|) := mul_nonneg a0 hc0
  -- cStar
  have c1 : |c'| * |m| ≤ |s| + 8 * (u * U) := by
    rw [← abs_mul]
    have := abs_add_le (c' * m - s) s
    rw [sub_add_cancel] at this
    linarith
  have c2 : |p| - |a| - |s| + |a| * (1 - |c|) - 16 * (u * U) ≤ (1 - |c'|) * |m| := by
    have : (1 - |c'|) * |m| = |m| - |c'| * |m| := by ring
    linarith
  have c3 : 0 < (1 - |c'|) * |m| := by linarith
  have c4 : 0 < 1 - |c'| := pos_of_mul_pos_left c3 hm.le
  -- dStar
  have d1 : |d'| * |m| ≤ |b| + |a| * |d| + 16 * (u * (U * W)) := by
    rw [← abs_mul, ← abs_mul]
    have e1 := abs_add_le (d' * m - (b - a * d)) (b - a * d)
    rw [sub_add_cancel] at e1
    have e2 := abs_sub b (a * d)
    linarith
  have d2 : |a| * |d| ≤ 2 * W * (|a| * (1 - |c|)) := by
    calc |a| * |d| ≤ |a| * (2 * W * (1 - |c|)) := mul_le_mul_of_nonneg_left hd a0
      _ = 2 * W * (|a| * (1 - |c|)) := by ring
  have d3 : 16 * (u * (U * W)) = W * (16 * (u * U)) := by ring
  have d4 : |d'| * |m| ≤ 2 * W * (1 - |c'|) * |m| := by
    have := mul_le_mul_of_nonneg_left c2 (by linarith : 0 ≤ 2 * W)
    have e1 : 2 * W * ((1 - |c'|) * |m|) = 2 * W * (1 - |c'|) * |m| := by ring
    have e2 : W * L ≤ W * (|p| - |a| - |s|) := mul_le_mul_of_nonneg_left (by linarith) hW.le
    have e3 : W * (2 ^ 10 * (u * U)) ≤ W * L := mul_le_mul_of_nonneg_left hdo hW.le
    have e4 : 0 ≤ W * (u * U) := mul_nonneg hW.le (mul_nonneg h.u0 hU.le)
    generalize (1 - |c'|) * |m| = Q at *
    generalize |a| * (1 - |c|) = A at *
    rw [← e1]
    linarith
  refine ⟨h1, m2, h2, h3, ?_, le_of_mul_le_mul_right d4 hm⟩
  have : (1 - |c'|) * |m| ≤ (1 - |c'|) * (3 * U) := mul_le_mul_of_nonneg_left m2 c4.le
  linarith

/-- One row of the sweep, in rounded arithmetic. -/
theorem row_step (h : Sizes R u η B U L W) {a p s b c d : ℝ} (hp : |p| ≤ U) (hdom : L + |a| + |s| ≤ |p|) (hb : |b| ≤ W * (|p| - |a| - |s|))
    (hc : |c| ≤ 1) (hd : |d| ≤ 2 * W * (1 - |c|)) :
    ∃ m c' d' : ℝ, (.num (p : EReal) - .num (a : EReal) * .num (c : EReal) : Dbl R) = .num (m : EReal) ∧
      (.num (s : EReal) / .num (m : EReal) : Dbl R) = .num (c' : EReal) ∧
      ((.num (b : EReal) - .num (a : EReal) * .num (d : EReal)) / .num (m : EReal) : Dbl R) = .num (d' : EReal) ∧ Row u U L W a p s b c d m c' d' := by
  have hU : 0 < U := h.L0.trans_le h.LU
  have hL := h.L0
  have hW := h.W0
  have a0 := abs_nonneg a
  have s0 := abs_nonneg s
  obtain ⟨m, em, hm⟩ := pivot_step h hp (by linarith : |a| ≤ U) hc
  obtain ⟨m1, m2, m3, m4⟩ := pivot_size h hp hdom hc hm
  have hm0 : 0 < |m| := by linarith
  have hmne : m ≠ 0 := abs_pos.mp hm0
  have hbU : |b| ≤ U * W := by
    refine hb.trans ?_
    rw [mul_comm U W]
    exact mul_le_mul_of_nonneg_left (by linarith) hW.le
  have hd2 : |d| ≤ 2 * W := by
    have := mul_le_mul_of_nonneg_left (by linarith [abs_nonneg c] : 1 - |c| ≤ 1) (by linarith : 0 ≤ 2 * W)
    linarith
  obtain ⟨z, ez, hz, hz4⟩ := rhs_step h hbU (by linarith : |a| ≤ U) hd2
  obtain ⟨c', ec, hc'⟩ := quotient_step h (z := s) hmne (by
    rw [abs_div]
    have : |s| / |m| ≤ 1 := (div_le_one hm0).mpr (by linarith)
    linarith [h.big1])
  obtain ⟨d', ed, hd'⟩ := quotient_step h (z := z) hmne (by
    rw [abs_div, div_le_iff₀ hm0]
    have h1 := h.bigQ
    have h2 : 0 ≤ B := by linarith [h.big1]
    have h3 := mul_le_mul_of_nonneg_left m4 h2
    have h4 : 0 < U * W := mul_pos hU hW
    linarith)
  have t1 : η * |m| ≤ 3 * (u * U) := by
    have h1 := mul_le_mul_of_nonneg_right h.tiny hm0.le
    have h2 := mul_le_mul_of_nonneg_left m2 h.u0
    linarith
  have t2 : η * |m| ≤ 3 * (u * (U * W)) := by
    have h1 := mul_le_mul_of_nonneg_right h.tinyW hm0.le
    have h2 := mul_le_mul_of_nonneg_left m2 (mul_nonneg h.u0 hW.le)
    linarith
  refine ⟨m, c', d', em, ec, by rw [ez, ed], row_bounds h hp hdom hb hc hd hm ?_ ?_⟩
  · have := mul_le_mul_of_nonneg_left (by linarith : |s| ≤ U) h.u0
    have := mul_nonneg h.u0 hU.le
    linarith
  · have h1 := mul_le_mul_of_nonneg_left hz4 h.u0
    have e : d' * m - (b - a * d) = (d' * m - z) + (z - (b - a * d)) := by ring
    rw [e]
    have h2 := abs_add_le (d' * m - z) (z - (b - a * d))
    have := mul_nonneg h.u0 (mul_nonneg hU.le hW.le)
    linarith

/-- The first row. -/
theorem first_step (h : Sizes R u η B U L W) {p s b : ℝ} (hp : |p| ≤ U) (hdom : L + |s| ≤ |p|) (hb : |b| ≤ W * (|p| - |s|)) :
    ∃ c' d' : ℝ, (.num (s : EReal) / .num (p : EReal) : Dbl R) = .num (c' : EReal) ∧
      (.num (b : EReal) / .num (p : EReal) : Dbl R) = .num (d' : EReal) ∧ Row u U L W 0 p s b 0 0 p c' d' := by
  have hU : 0 < U := h.L0.trans_le h.LU
  have hL := h.L0
  have hW := h.W0
  have s0 := abs_nonneg s
  have hm0 : 0 < |p| := by linarith
  have hmne : p ≠ 0 := abs_pos.mp hm0
  have hbU : |b| ≤ U * W := by
    refine hb.trans ?_
    rw [mul_comm U W]
    exact mul_le_mul_of_nonneg_left (by linarith) hW.le
  obtain ⟨c', ec, hc'⟩ := quotient_step h (z := s) hmne (by
    rw [abs_div]
    have : |s| / |p| ≤ 1 := (div_le_one hm0).mpr (by linarith)
    linarith [h.big1])
  obtain ⟨d', ed, hd'⟩ := quotient_step h (z := b) hmne (by
    rw [abs_div, div_le_iff₀ hm0]
    have h1 := h.bigQ
    have h2 : 0 ≤ B := by linarith [h.big1]
    have h3 := mul_le_mul_of_nonneg_left (by linarith : L ≤ |p|) h2
    have h4 : 0 < U * W := mul_pos hU hW
    linarith)
  have t1 : η * |p| ≤ 3 * (u * U) := by
    have h1 := mul_le_mul_of_nonneg_right h.tiny hm0.le
    have h2 := mul_le_mul_of_nonneg_left hp h.u0
    have := mul_nonneg h.u0 hU.le
    linarith
  have t2 : η * |p| ≤ 3 * (u * (U * W)) := by
    have h1 := mul_le_mul_of_nonneg_right h.tinyW hm0.le
    have h2 := mul_le_mul_of_nonneg_left hp (mul_nonneg h.u0 hW.le)
    have := mul_nonneg (mul_nonneg h.u0 hU.le) hW.le
    linarith
  have uU := mul_nonneg h.u0 hU.le
  have uUW := mul_nonneg h.u0 (mul_nonneg hU.le hW.le)
  refine ⟨c', d', ec, ed, row_bounds h hp (by simpa using hdom) (by simpa using hb) (by simp) (by simpa using hW.le) (by simpa using uU) ?_ ?_⟩
  · have := mul_le_mul_of_nonneg_left (by linarith : |s| ≤ U) h.u0
    linarith
  · have h1 := mul_le_mul_of_nonneg_left hbU h.u0
    rw [mul_zero, sub_zero]
    linarith

/-- One step of the back substitution. -/
theorem back_step (h : Sizes R u η B U L W) {c d x : ℝ} (hc : |c| ≤ 1) (hl : L ≤ (1 - |c|) * (6 * U)) (hd : |d| ≤ 2 * W * (1 - |c|)) (hx : |x| ≤ 4 * W) :
    ∃ y : ℝ, (.num (d : EReal) - .num (c : EReal) * .num (x : EReal) : Dbl R) = .num (y : EReal) ∧ |y - (d - c * x)| ≤ 16 * (u * W) ∧ |y| ≤ 4 * W := by
  have hU : 0 < U := h.L0.trans_le h.LU
  have hW := h.W0
  have c0 := abs_nonneg c
  have hcx : |c * x| ≤ 4 * W * |c| := by
    rw [abs_mul, mul_comm]
    exact mul_le_mul_of_nonneg_right hx c0
  have hcx' : |c * x| ≤ 4 * W := hcx.trans (mul_le_of_le_one_right (by linarith) hc)
  have uW : u * W ≤ 1 / 64 * W := mul_le_mul_of_nonneg_right h.u1 hW.le
  have t1 := h.tinyW
  have b1 := h.bigW
  obtain ⟨t, et, ht⟩ := h.acc (c * x) (by linarith)
  have ht' : |t - c * x| ≤ 5 * (u * W) := by
    have := mul_le_mul_of_nonneg_left hcx' h.u0
    linarith
  have hmain : |d - c * x| ≤ 4 * W - 2 * W * (1 - |c|) := by
    have := abs_sub d (c * x)
    linarith
  have hpos : 0 ≤ 2 * W * (1 - |c|) := (abs_nonneg d).trans hd
  have sz : |d - t| ≤ 5 * W := by
    have e : d - t = d - c * x - (t - c * x) := by ring
    rw [e]
    have := abs_sub (d - c * x) (t - c * x)
    linarith
  obtain ⟨y, ey, hy⟩ := h.acc (d - t) (by linarith)
  have hy' : |y - (d - t)| ≤ 6 * (u * W) := by
    have := mul_le_mul_of_nonneg_left sz h.u0
    linarith
  have herr : |y - (d - c * x)| ≤ 16 * (u * W) := by
    have e : y - (d - c * x) = (y - (d - t)) - (t - c * x) := by ring
    rw [e]
    have h1 := abs_sub (y - (d - t)) (t - c * x)
    have := mul_nonneg h.u0 hW.le
    linarith
  refine ⟨y, by rw [Dbl.mul_coe, et, Dbl.sub_coe, ey], herr, ?_⟩
  have h1 : 8 * u ≤ 1 - |c| := by
    have h2 : 8 * u * (6 * U) ≤ (1 - |c|) * (6 * U) := by
      have := h.dom
      have := mul_nonneg h.u0 hU.le
      linarith
    exact le_of_mul_le_mul_right h2 (by linarith)
  have h2 : 16 * (u * W) ≤ 2 * W * (1 - |c|) := by
    calc 16 * (u * W) = 2 * W * (8 * u) := by ring
      _ ≤ 2 * W * (1 - |c|) := mul_le_mul_of_nonneg_left h1 (by linarith)
  have e : y = (y - (d - c * x)) + (d - c * x) := by ring
  rw [e]
  have := abs_add_le (y - (d - c * x)) (d - c * x)
  linarith

/-- The residual of a row. -/
theorem row_residual (h : Sizes R u η B U L W) {a p s b c d m c' d' x y z : ℝ} (hr : Row u U L W a p s b c d m c' d') (ha : |a| ≤ U)
    (hx : |x - (d - c * y)| ≤ 16 * (u * W)) (hy : |y - (d' - c' * z)| ≤ 16 * (u * W)) (hy4 : |y| ≤ 4 * W) (hz4 : |z| ≤ 4 * W) :
    |a * x + p * y + s * z - b| ≤ 2 ^ 8 * (u * (U * W)) := by
  have hU : 0 < U := h.L0.trans_le h.LU
  have hW := h.W0
  have uU := mul_nonneg h.u0 hU.le
  have uW := mul_nonneg h.u0 hW.le
  have uUW := mul_nonneg h.u0 (mul_nonneg hU.le hW.le)
  have e : a * x + p * y + s * z - b = a * (x - (d - c * y)) + -((m - (p - a * c)) * y) + m * (y - (d' - c' * z)) + (d' * m - (b - a * d)) + -((c' * m - s) * z) := by ring
  have t1 : |a * (x - (d - c * y))| ≤ 16 * (u * (U * W)) := by
    rw [abs_mul]
    calc |a| * |x - (d - c * y)| ≤ U * (16 * (u * W)) := mul_le_mul ha hx (abs_nonneg _) hU.le
      _ = 16 * (u * (U * W)) := by ring
  have t2 : |-((m - (p - a * c)) * y)| ≤ 32 * (u * (U * W)) := by
    rw [abs_neg, abs_mul]
    calc |m - (p - a * c)| * |y| ≤ 8 * (u * U) * (4 * W) := mul_le_mul hr.pivot hy4 (abs_nonneg _) (by linarith)
      _ = 32 * (u * (U * W)) := by ring
  have t3 : |m * (y - (d' - c' * z))| ≤ 48 * (u * (U * W)) := by
    rw [abs_mul]
    calc |m| * |y - (d' - c' * z)| ≤ 3 * U * (16 * (u * W)) := mul_le_mul hr.size hy (abs_nonneg _) (by linarith)
      _ = 48 * (u * (U * W)) := by ring
  have t4 := hr.rhs
  have t5 : |-((c' * m - s) * z)| ≤ 32 * (u * (U * W)) := by
    rw [abs_neg, abs_mul]
    calc |c' * m - s| * |z| ≤ 8 * (u * U) * (4 * W) := mul_le_mul hr.sup hz4 (abs_nonneg _) (by linarith)
      _ = 32 * (u * (U * W)) := by ring
  rw [e]
  refine (abs_add_le _ _).trans ?_
  have s1 := abs_add_le (a * (x - (d - c * y)) + -((m - (p - a * c)) * y) + m * (y - (d' - c' * z))) (d' * m - (b - a * d))
  have s2 := abs_add_three (a * (x - (d - c * y))) (-((m - (p - a * c)) * y)) (m * (y - (d' - c' * z)))
  linarith

/-- The system: `low i`, `dg i`, `up i` are the entries of row `i`, `rhs i` is its right hand side. -/
structure System (U L W : ℝ) (l : ℕ) (low dg up rhs : ℕ → ℝ) : Prop where
  first : low 0 = 0
  last : up (l + 1) = 0
  size : ∀ i ≤ l + 1, |dg i| ≤ U
  dom : ∀ i ≤ l + 1, L + |low i| + |up i| ≤ |dg i|
  rhs : ∀ i ≤ l + 1, |rhs i| ≤ W * (|dg i| - |low i| - |up i|)

/-- The entry before, 0 at the start. -/
def prev (f : ℕ → ℝ) : ℕ → ℝ
  | 0 => 0
  | i + 1 => f i

/-- The coefficients as doubles. -/
structure Holds (R : Rounding) (l : ℕ) (low dg up rhs : ℕ → ℝ) (sub diag sup b : ℕ → Dbl R) : Prop where
  sub : ∀ i ≤ l, sub i = .num (low (i + 1) : EReal)
  diag : ∀ i ≤ l + 1, diag i = .num (dg i : EReal)
  sup : ∀ i ≤ l, sup i = .num (up i : EReal)
  b : ∀ i ≤ l + 1, b i = .num (rhs i : EReal)

/-- The number in a double. -/
noncomputable def val : Dbl R → ℝ
  | .num x => x.toReal
  | .nan => 0

theorem val_num (x : ℝ) : val (.num (x : EReal) : Dbl R) = x := EReal.toReal_coe x

variable {l : ℕ} {low dg up rhs : ℕ → ℝ} {sub diag sup b : ℕ → Dbl R}

/-- The sweep in rounded arithmetic. -/
theorem sweep_double (h : Sizes R u η B U L W) (hs : System U L W l low dg up rhs) (hv : Holds R l low dg up rhs sub diag sup b) :
    ∃ c d : ℕ → ℝ, ∀ i ≤ l, sweep sub diag sup b i = (.num (c i : EReal), .num (d i : EReal)) ∧
      ∃ m, Row u U L W (low i) (dg i) (up i) (rhs i) (prev c i) (prev d i) m (c i) (d i) := by
  have hU : 0 < U := h.L0.trans_le h.LU
  obtain ⟨c, hcv⟩ : ∃ c : ℕ → ℝ, ∀ i, c i = val (sweep sub diag sup b i).1 := ⟨_, fun _ => rfl⟩
  obtain ⟨d, hdv⟩ : ∃ d : ℕ → ℝ, ∀ i, d i = val (sweep sub diag sup b i).2 := ⟨_, fun _ => rfl⟩
  refine ⟨c, d, fun i => ?_⟩
  induction i with
  | zero =>
    intro hi
    have h1 := hs.dom 0 (by omega)
    have h2 := hs.rhs 0 (by omega)
    rw [hs.first, abs_zero] at h1 h2
    obtain ⟨c', d', ec, ed, hr⟩ := first_step h (hs.size 0 (by omega)) (by linarith : L + |up 0| ≤ |dg 0|) (by simpa using h2)
    have e : sweep sub diag sup b 0 = (.num (c' : EReal), .num (d' : EReal)) := by
      rw [sweep, hv.sup 0 hi, hv.diag 0 (by omega), hv.b 0 (by omega), ec, ed]
    have e1 : c 0 = c' := by rw [hcv, e, val_num]
    have e2 : d 0 = d' := by rw [hdv, e, val_num]
    rw [e, e1, e2, hs.first]
    exact ⟨rfl, dg 0, hr⟩
  | succ i ih =>
    intro hi
    obtain ⟨e0, m0, r0⟩ := ih (by omega)
    obtain ⟨m, c', d', em, ec, ed, hr⟩ := row_step h (hs.size (i + 1) (by omega)) (hs.dom (i + 1) (by omega)) (hs.rhs (i + 1) (by omega)) (r0.c_le h.L0 hU) r0.bound
    have e : sweep sub diag sup b (i + 1) = (.num (c' : EReal), .num (d' : EReal)) := by
      rw [sweep, e0, hv.sub i (by omega), hv.sup (i + 1) hi, hv.diag (i + 1) (by omega), hv.b (i + 1) (by omega)]
      simp only [em, ec, ed]
    have e1 : c (i + 1) = c' := by rw [hcv, e, val_num]
    have e2 : d (i + 1) = d' := by rw [hdv, e, val_num]
    rw [e, e1, e2]
    exact ⟨rfl, m, hr⟩

/-- The Thomas algorithm in rounded arithmetic: all entries are numbers of bounded size, and every row is solved up to a small residual. -/
theorem back_double (h : Sizes R u η B U L W) (hs : System U L W l low dg up rhs) (hv : Holds R l low dg up rhs sub diag sup b) :
    ∃ x : ℕ → ℝ, (∀ k ≤ l + 1, back sub diag sup b l k = .num (x (l + 1 - k) : EReal)) ∧
      ∀ i ≤ l + 1, |x i| ≤ 4 * W ∧ |low i * prev x i + dg i * x i + up i * x (i + 1) - rhs i| ≤ 2 ^ 8 * (u * (U * W)) := by
  have hU : 0 < U := h.L0.trans_le h.LU
  have hW := h.W0
  have uW := mul_nonneg h.u0 hW.le
  obtain ⟨c, d, hcd⟩ := sweep_double h hs hv
  obtain ⟨el, ml, rl⟩ := hcd l le_rfl
  obtain ⟨m, c', d', em, -, ed, hr⟩ := row_step h (hs.size (l + 1) le_rfl) (hs.dom (l + 1) le_rfl) (hs.rhs (l + 1) le_rfl) (rl.c_le h.L0 hU) rl.bound
  have elast : back sub diag sup b l 0 = .num (d' : EReal) := by
    rw [back, last, el, hv.sub l le_rfl, hv.diag (l + 1) le_rfl, hv.b (l + 1) le_rfl]
    simp only [em, ed]
  have key : ∀ k ≤ l + 1, back sub diag sup b l k = .num ((val (back sub diag sup b l k) : ℝ) : EReal) ∧ |val (back sub diag sup b l k)| ≤ 4 * W ∧
      ∀ k', k = k' + 1 → |val (back sub diag sup b l k) - (d (l - k') - c (l - k') * val (back sub diag sup b l k'))| ≤ 16 * (u * W) := by
    intro k
    induction k with
    | zero =>
      intro _
      rw [elast]
      have := hr.d_le hW
      exact ⟨by rw [val_num], by rw [val_num]; linarith, by omega⟩
    | succ k ih =>
      intro hk
      obtain ⟨e0, b0, -⟩ := ih (by omega)
      obtain ⟨es, ms, rs⟩ := hcd (l - k) (by omega)
      obtain ⟨y, ey, hy, hy4⟩ := back_step h (rs.c_le h.L0 hU) rs.less rs.bound b0
      have e : back sub diag sup b l (k + 1) = .num (y : EReal) := by
        rw [back, es, e0]
        exact ey
      refine ⟨by rw [e, val_num], by rw [e, val_num]; exact hy4, ?_⟩
      intro k' hk'
      obtain rfl : k' = k := by omega
      rw [e, val_num]
      exact hy
  refine ⟨fun i => val (back sub diag sup b l (l + 1 - i)), fun k hk => ?_, fun i hi => ⟨(key (l + 1 - i) (by omega)).2.1, ?_⟩⟩
  · beta_reduce
    rw [show l + 1 - (l + 1 - k) = k by omega]
    exact (key k hk).1
  -- the entry before
  have hx : ∀ i ≤ l + 1, |prev (fun i => val (back sub diag sup b l (l + 1 - i))) i - (prev d i - prev c i * val (back sub diag sup b l (l + 1 - i)))| ≤ 16 * (u * W) := by
    intro i hi
    cases i with
    | zero => simpa [prev] using uW
    | succ i =>
      have := (key (l + 1 - i) (by omega)).2.2 (l + 1 - (i + 1)) (by omega)
      rw [show l - (l + 1 - (i + 1)) = i by omega] at this
      exact this
  have hlow : ∀ i ≤ l + 1, |low i| ≤ U := by
    intro i hi
    have h1 := hs.size i hi
    have h2 := hs.dom i hi
    have h3 := abs_nonneg (up i)
    have h4 := h.L0
    linarith
  rcases Nat.lt_or_ge i (l + 1) with hlt | hge
  · obtain ⟨-, m', r'⟩ := hcd i (by omega)
    have h1 := (key (l + 1 - i) (by omega)).2.2 (l + 1 - (i + 1)) (by omega)
    rw [show l - (l + 1 - (i + 1)) = i by omega] at h1
    exact row_residual h r' (hlow i hi) (hx i hi) h1 (key (l + 1 - i) (by omega)).2.1 (key (l + 1 - (i + 1)) (by omega)).2.1
  · obtain rfl : i = l + 1 := by omega
    have h0 : val (back sub diag sup b l (l + 1 - (l + 1))) = d' := by
      rw [show l + 1 - (l + 1) = 0 by omega, elast, val_num]
    have := row_residual h (z := 0) (y := val (back sub diag sup b l (l + 1 - (l + 1)))) hr (hlow _ hi) (hx (l + 1) le_rfl) (by
      rw [h0]
      simpa using uW) (key (l + 1 - (l + 1)) (by omega)).2.1 (by simpa using hW.le)
    rw [hs.last]
    rw [hs.last] at this
    simpa using this

/-- Diagonal dominance: entries with small residuals are small. -/
theorem dominated {ε : ℝ} (hL : 0 < L) {e : ℕ → ℝ} (hdom : ∀ i ≤ l + 1, L + |low i| + |up i| ≤ |dg i|)
    (hlast : up (l + 1) = 0) (hres : ∀ i ≤ l + 1, |low i * prev e i + dg i * e i + up i * e (i + 1)| ≤ ε) :
    ∀ i ≤ l + 1, |e i| ≤ ε / L := by
  obtain ⟨k, hk, hmax⟩ := Finset.exists_max_image (Finset.range (l + 2)) (fun i => |e i|) ⟨0, by simp⟩
  rw [Finset.mem_range] at hk
  have hmax' : ∀ i ≤ l + 1, |e i| ≤ |e k| := fun i hi => hmax i (by rw [Finset.mem_range]; omega)
  have hp : |prev e k| ≤ |e k| := by
    cases k with
    | zero => simp [prev]
    | succ k => exact hmax' k (by omega)
  have hn : |up k * e (k + 1)| ≤ |up k| * |e k| := by
    rw [abs_mul]
    rcases Nat.lt_or_ge k (l + 1) with hlt | hge
    · exact mul_le_mul_of_nonneg_left (hmax' _ (by omega)) (abs_nonneg _)
    · obtain rfl : k = l + 1 := by omega
      simp [hlast]
  have hl : |low k * prev e k| ≤ |low k| * |e k| := by
    rw [abs_mul]
    exact mul_le_mul_of_nonneg_left hp (abs_nonneg _)
  have h1 := hres k (by omega)
  have h2 := mul_le_mul_of_nonneg_right (hdom k (by omega)) (abs_nonneg (e k))
  have h3 : |dg k * e k| ≤ |low k * prev e k + dg k * e k + up k * e (k + 1)| + |low k * prev e k| + |up k * e (k + 1)| := by
    have a1 := abs_sub (low k * prev e k + dg k * e k + up k * e (k + 1)) (low k * prev e k + up k * e (k + 1))
    have a2 := abs_add_le (low k * prev e k) (up k * e (k + 1))
    have a3 : low k * prev e k + dg k * e k + up k * e (k + 1) - (low k * prev e k + up k * e (k + 1)) = dg k * e k := by ring
    rw [a3] at a1
    linarith
  rw [abs_mul] at h3
  have h4 : |e k| ≤ ε / L := by
    rw [le_div_iff₀ hL]
    have : (L + |low k| + |up k|) * |e k| = |e k| * L + |low k| * |e k| + |up k| * |e k| := by ring
    linarith
  exact fun i hi => (hmax' i hi).trans h4

end Thomas
end Verif
