import Verif.Num.Dbl
import Mathlib.Data.Int.Log
import Mathlib.Algebra.Order.Round
import Mathlib.Tactic.Linarith
import Mathlib.Tactic.NormNum
import Mathlib.Tactic.FieldSimp
import Mathlib.Tactic.Positivity

/-!
# IEEE 754 binary64 with rounding to nearest, ties to even

A concrete `Rounding`.  All theorems about `Dbl R` hold for it; statements about accuracy, and refutations that depend on
rounding errors, are about it.
-/

namespace Verif
namespace Binary64

/-- The nearest integer, ties to even. -/
noncomputable def nearest (x : ℝ) : ℤ :=
  if Int.fract x < 1/2 then ⌊x⌋ else if 1/2 < Int.fract x then ⌊x⌋ + 1 else if Even ⌊x⌋ then ⌊x⌋ else ⌊x⌋ + 1

theorem nearest_spec (x : ℝ) : |(nearest x : ℝ) - x| ≤ 1/2 ∧ (|(nearest x : ℝ) - x| = 1/2 → Even (nearest x)) := by
  have h := Int.floor_add_fract x
  have h0 := Int.fract_nonneg x
  have h1 := Int.fract_lt_one x
  unfold nearest
  split_ifs with a b c
  · rw [abs_of_nonpos (by linarith)]
    exact ⟨by linarith, fun e => by linarith⟩
  · push_cast
    rw [abs_of_nonneg (by linarith)]
    exact ⟨by linarith, fun e => by linarith⟩
  · rw [abs_of_nonpos (by linarith)]
    exact ⟨by linarith, fun _ => c⟩
  · push_cast
    rw [abs_of_nonneg (by linarith)]
    exact ⟨by linarith, fun _ => by rw [Int.even_add_one]; exact c⟩

/-- The specification determines the result. -/
theorem nearest_unique {x : ℝ} {m : ℤ} (h1 : |(m : ℝ) - x| ≤ 1/2) (h2 : |(m : ℝ) - x| = 1/2 → Even m) : nearest x = m := by
  obtain ⟨a, b⟩ := nearest_spec x
  have h3 : |((nearest x - m : ℤ) : ℝ)| ≤ 1 := by
    push_cast
    calc |(nearest x : ℝ) - m| = |((nearest x : ℝ) - x) - ((m : ℝ) - x)| := by ring_nf
      _ ≤ |(nearest x : ℝ) - x| + |(m : ℝ) - x| := abs_sub _ _
      _ ≤ 1 := by linarith
  have h4 : |nearest x - m| ≤ 1 := by exact_mod_cast h3
  rcases lt_or_eq_of_le h4 with h5 | h5
  · have := Int.abs_lt_one_iff.mp h5
    omega
  · exfalso
    have h6 : |((nearest x - m : ℤ) : ℝ)| = 1 := by exact_mod_cast congrArg (Int.cast (R := ℝ)) h5
    have h7 : |(nearest x : ℝ) - m| ≤ |(nearest x : ℝ) - x| + |(m : ℝ) - x| := by
      calc |(nearest x : ℝ) - m| = |((nearest x : ℝ) - x) - ((m : ℝ) - x)| := by ring_nf
        _ ≤ _ := abs_sub _ _
    push_cast at h6
    have e1 := b (by linarith)
    have e2 := h2 (by linarith)
    have : Even (nearest x - m) := e1.sub e2
    rcases abs_eq (by norm_num : (0 : ℤ) ≤ 1) |>.mp h5 with h8 | h8 <;> rw [h8] at this <;> revert this <;> decide

@[simp] theorem nearest_intCast (m : ℤ) : nearest (m : ℝ) = m :=
  nearest_unique (by simp) (by simp)

theorem nearest_neg (x : ℝ) : nearest (-x) = - nearest x := by
  obtain ⟨a, b⟩ := nearest_spec x
  have e : |((-nearest x : ℤ) : ℝ) - -x| = |(nearest x : ℝ) - x| := by
    push_cast
    rw [← abs_neg]
    ring_nf
  refine nearest_unique (e ▸ a) fun h => ?_
  exact (b (e ▸ h)).neg

theorem nearest_mono : Monotone nearest := by
  intro x y h
  by_contra hc
  rw [not_le] at hc
  obtain ⟨a, a'⟩ := nearest_spec x
  obtain ⟨b, b'⟩ := nearest_spec y
  have h1 : (nearest y : ℝ) + 1 ≤ nearest x := by exact_mod_cast hc
  have := abs_le.mp a
  have := abs_le.mp b
  have e : x = y := by linarith
  rw [e] at hc
  exact lt_irrefl _ hc

/-- The exponent of the last place of the binary64 numbers around `x`: 53 significant bits, at least `-1074`. -/
noncomputable def ulpExp (x : ℝ) : ℤ := max (Int.log 2 |x| - 52) (-1074)

/-- Rounding to 53 significant bits, without overflow. -/
noncomputable def round53 (x : ℝ) : ℝ := nearest (x / 2 ^ ulpExp x) * 2 ^ ulpExp x

/-- Rounding to binary64: what would need the exponent 1024 or more overflows. -/
noncomputable def rnd (x : ℝ) : EReal :=
  if |round53 x| < 2 ^ (1024 : ℤ) then (round53 x : EReal) else if 0 < x then ⊤ else ⊥

theorem ulpExp_neg (x : ℝ) : ulpExp (-x) = ulpExp x := by
  simp [ulpExp]

theorem round53_neg (x : ℝ) : round53 (-x) = - round53 x := by
  unfold round53
  rw [ulpExp_neg, neg_div, nearest_neg]
  push_cast
  ring

@[simp] theorem round53_zero : round53 0 = 0 := by
  have : nearest 0 = 0 := by simpa using nearest_intCast 0
  simp [round53, this]

theorem ulp_pos (x : ℝ) : (0 : ℝ) < 2 ^ ulpExp x := by positivity

theorem round53_nonneg {x : ℝ} (h : 0 ≤ x) : 0 ≤ round53 x := by
  have h1 : nearest 0 ≤ nearest (x / 2 ^ ulpExp x) := nearest_mono (by positivity)
  rw [show nearest 0 = 0 by simpa using nearest_intCast 0] at h1
  have h2 : (0 : ℝ) ≤ nearest (x / 2 ^ ulpExp x) := by exact_mod_cast h1
  exact mul_nonneg h2 (ulp_pos x).le

/-- Multiples of the last place are kept. -/
theorem round53_eq_of_multiple {x : ℝ} {m : ℤ} (h : x = m * 2 ^ ulpExp x) : round53 x = x := by
  have : x / 2 ^ ulpExp x = (m : ℝ) := by
    rw [div_eq_iff (ulp_pos x).ne']
    exact h
  rw [round53, this, nearest_intCast, ← h]

/-- The rounding error is at most half a unit in the last place. -/
theorem round53_error (x : ℝ) : |round53 x - x| ≤ 2 ^ ulpExp x / 2 := by
  have h := (nearest_spec (x / 2 ^ ulpExp x)).1
  have e : round53 x - x = (nearest (x / 2 ^ ulpExp x) - x / 2 ^ ulpExp x) * 2 ^ ulpExp x := by
    rw [round53, sub_mul, div_mul_cancel₀ _ (ulp_pos x).ne']
  rw [e, abs_mul, abs_of_pos (ulp_pos x)]
  have := mul_le_mul_of_nonneg_right h (ulp_pos x).le
  linarith

theorem log_le {x : ℝ} (h : 0 < x) : (2 : ℝ) ^ Int.log 2 x ≤ x := by
  exact_mod_cast Int.zpow_log_le_self (R := ℝ) (b := 2) (by norm_num) h

theorem lt_log {x : ℝ} : x < (2 : ℝ) ^ (Int.log 2 x + 1) := by
  exact_mod_cast Int.lt_zpow_succ_log_self (R := ℝ) (b := 2) (by norm_num) x

theorem log_eq {x : ℝ} {k : ℤ} (h1 : (2 : ℝ) ^ k ≤ x) (h2 : x < (2 : ℝ) ^ (k + 1)) : Int.log 2 x = k := by
  have hx : 0 < x := lt_of_lt_of_le (by positivity) h1
  refine le_antisymm ?_ ?_
  · have := (zpow_lt_zpow_iff_right₀ (a := (2 : ℝ)) (by norm_num)).mp ((log_le hx).trans_lt h2)
    omega
  · have := (zpow_lt_zpow_iff_right₀ (a := (2 : ℝ)) (by norm_num)).mp (h1.trans_lt lt_log)
    omega

/-- Relative error at most `2⁻⁵³`, or absolute error at most `2⁻¹⁰⁷⁵` among the subnormal numbers. -/
theorem round53_relError (x : ℝ) : |round53 x - x| ≤ 2 ^ (-53 : ℤ) * |x| + 2 ^ (-1075 : ℤ) := by
  have h := round53_error x
  rcases eq_or_ne x 0 with rfl | hx
  · simp
  have hx' := abs_pos.mpr hx
  unfold ulpExp at h
  have h2 : (2 : ℝ) ^ (max (Int.log 2 |x| - 52) (-1074)) ≤ 2 ^ (Int.log 2 |x| - 52) + 2 ^ (-1074 : ℤ) := by
    have p1 : (0 : ℝ) < 2 ^ (Int.log 2 |x| - 52) := by positivity
    have p2 : (0 : ℝ) < 2 ^ (-1074 : ℤ) := by positivity
    rcases max_choice (Int.log 2 |x| - 52) (-1074) with e | e <;> rw [e] <;> linarith
  have h3 : (2 : ℝ) ^ (Int.log 2 |x| - 52) = 2 ^ Int.log 2 |x| * 2 ^ (-52 : ℤ) := by
    rw [← zpow_add₀ (by norm_num)]
    rfl
  have h4 := mul_le_mul_of_nonneg_right (log_le hx') (by positivity : (0 : ℝ) ≤ 2 ^ (-52 : ℤ))
  have e1 : (2 : ℝ) ^ (-52 : ℤ) = 2 * 2 ^ (-53 : ℤ) := by norm_num
  have e2 : (2 : ℝ) ^ (-1074 : ℤ) = 2 * 2 ^ (-1075 : ℤ) := by
    rw [show (-1074 : ℤ) = 1 + (-1075) by norm_num, zpow_add₀ (by norm_num)]
    simp
  rw [e1] at h4 h3
  rw [e2] at h2
  linarith

/-- Rounding does not leave a binade, except to its upper end. -/
theorem round53_binade {x : ℝ} (hx : 0 < x) {k : ℤ} (hk : -1074 ≤ k) :
    (x ≤ 2 ^ k → round53 x ≤ 2 ^ k) ∧ ((2 : ℝ) ^ k ≤ x → (2 : ℝ) ^ k ≤ round53 x) := by
  have hu := ulp_pos x
  have e : ∀ (h : ulpExp x ≤ k), (2 : ℝ) ^ k = ((2 ^ (k - ulpExp x).toNat : ℤ) : ℝ) * 2 ^ ulpExp x := by
    intro h
    push_cast
    rw [← zpow_natCast, Int.toNat_of_nonneg (by omega), ← zpow_add₀ (by norm_num)]
    congr 1
    ring
  constructor
  · intro h
    have hle : ulpExp x ≤ k := by
      unfold ulpExp
      rw [abs_of_pos hx]
      have := (zpow_le_zpow_iff_right₀ (a := (2 : ℝ)) (by norm_num)).mp ((log_le hx).trans h)
      omega
    rw [round53, e hle]
    refine mul_le_mul_of_nonneg_right ?_ hu.le
    have := nearest_mono (show x / 2 ^ ulpExp x ≤ ((2 ^ (k - ulpExp x).toNat : ℤ) : ℝ) by
      rw [div_le_iff₀ hu, ← e hle]
      exact h)
    rw [nearest_intCast] at this
    exact_mod_cast this
  · intro h
    rcases le_or_gt (ulpExp x) k with hle | hlt
    · rw [round53, e hle]
      refine mul_le_mul_of_nonneg_right ?_ hu.le
      have := nearest_mono (show ((2 ^ (k - ulpExp x).toNat : ℤ) : ℝ) ≤ x / 2 ^ ulpExp x by
        rw [le_div_iff₀ hu, ← e hle]
        exact h)
      rw [nearest_intCast] at this
      exact_mod_cast this
    · -- the last place is above `k`, so `x` is much larger
      have h1 : Int.log 2 |x| - 52 = ulpExp x := by
        unfold ulpExp at hlt ⊢
        omega
      have h2 : (1 : ℤ) ≤ nearest (x / 2 ^ ulpExp x) := by
        have := nearest_mono (show ((1 : ℤ) : ℝ) ≤ x / 2 ^ ulpExp x by
          rw [le_div_iff₀ hu, Int.cast_one, one_mul]
          refine le_trans ?_ (log_le hx)
          rw [abs_of_pos hx] at h1
          exact zpow_le_zpow_right₀ (by norm_num) (by omega))
        rwa [nearest_intCast] at this
      have h3 : (1 : ℝ) ≤ nearest (x / 2 ^ ulpExp x) := by exact_mod_cast h2
      rw [round53]
      calc (2 : ℝ) ^ k ≤ 2 ^ ulpExp x := zpow_le_zpow_right₀ (by norm_num) hlt.le
        _ = 1 * 2 ^ ulpExp x := (one_mul _).symm
        _ ≤ _ := mul_le_mul_of_nonneg_right h3 hu.le

theorem round53_mono_pos {x y : ℝ} (hx : 0 < x) (h : x ≤ y) : round53 x ≤ round53 y := by
  have hy := hx.trans_le h
  have hl : Int.log 2 x ≤ Int.log 2 y := by
    have := (zpow_lt_zpow_iff_right₀ (a := (2 : ℝ)) (by norm_num)).mp (((log_le hx).trans h).trans_lt lt_log)
    omega
  by_cases e : ulpExp x = ulpExp y
  · rw [round53, round53, e]
    refine mul_le_mul_of_nonneg_right ?_ (ulp_pos y).le
    exact_mod_cast nearest_mono (div_le_div_of_nonneg_right h (ulp_pos y).le)
  · have hlt : Int.log 2 x < Int.log 2 y := by
      rcases lt_or_eq_of_le hl with h' | h'
      · exact h'
      · exfalso
        apply e
        unfold ulpExp
        rw [abs_of_pos hx, abs_of_pos hy, h']
    have hk : -1074 ≤ Int.log 2 y := by
      unfold ulpExp at e
      rw [abs_of_pos hx, abs_of_pos hy] at e
      omega
    refine ((round53_binade hx hk).1 ?_).trans ((round53_binade hy hk).2 (log_le hy))
    exact lt_log.le.trans (zpow_le_zpow_right₀ (by norm_num) (by omega))

theorem round53_mono : Monotone round53 := by
  intro x y h
  rcases lt_trichotomy x 0 with hx | rfl | hx
  · rcases lt_or_ge y 0 with hy | hy
    · have := round53_mono_pos (neg_pos.mpr hy) (neg_le_neg h)
      rw [round53_neg, round53_neg] at this
      linarith
    · have := round53_nonneg (neg_pos.mpr hx).le
      rw [round53_neg] at this
      have := round53_nonneg hy
      linarith
  · rw [round53_zero]
    exact round53_nonneg h
  · exact round53_mono_pos hx h

@[simp] theorem round53_one : round53 1 = 1 := by
  have h : ulpExp 1 = -52 := by
    rw [ulpExp, abs_one, log_eq (k := 0) (by norm_num) (by norm_num)]
    rfl
  exact round53_eq_of_multiple (m := 2 ^ 52) (by rw [h]; norm_num)

theorem rnd_mono : Monotone rnd := by
  intro x y h
  have hr := round53_mono h
  have hs : ∀ z, 0 < z → 0 ≤ round53 z := fun z hz => round53_nonneg hz.le
  have hs' : ∀ z, z ≤ 0 → round53 z ≤ 0 := fun z hz => by
    have := round53_nonneg (neg_nonneg.mpr hz)
    rw [round53_neg] at this
    linarith
  unfold rnd
  split_ifs with a b c d e f
  · exact EReal.coe_le_coe_iff.mpr hr
  · exact le_top
  · exfalso
    have h1 := hs' y (not_lt.mp c)
    have h2 := hs' x (h.trans (not_lt.mp c))
    rw [abs_of_nonpos h1] at b
    rw [abs_of_nonpos h2] at a
    linarith
  · exfalso
    have h1 := hs x d
    have h2 := hs y (d.trans_le h)
    rw [abs_of_nonneg h1] at a
    rw [abs_of_nonneg h2] at e
    linarith
  · exact le_rfl
  · exfalso
    linarith
  · exact bot_le
  · exact bot_le
  · exact le_rfl

theorem rnd_neg (x : ℝ) : rnd (-x) = - rnd x := by
  unfold rnd
  rw [round53_neg, abs_neg]
  split_ifs with a b c
  · simp
  · linarith
  · simp
  · simp
  · have : x = 0 := by linarith
    rw [this] at a
    simp at a

theorem rnd_of_abs_lt {x : ℝ} (h : |round53 x| < 2 ^ (1024 : ℤ)) : rnd x = (round53 x : EReal) := if_pos h

theorem big : (1 : ℝ) < 2 ^ (1024 : ℤ) := one_lt_zpow₀ (by norm_num) (by norm_num)

theorem rnd_zero : rnd 0 = 0 := by
  rw [rnd_of_abs_lt (by simp), round53_zero]
  rfl

theorem rnd_one : rnd 1 = 1 := by
  rw [rnd_of_abs_lt (by rw [round53_one, abs_one]; exact big), round53_one]
  rfl

end Binary64

/-- IEEE 754 binary64, with a correctly rounded exponential and logarithm. -/
noncomputable def Rounding.binary64 : Rounding where
  rnd := Binary64.rnd
  mono := Binary64.rnd_mono
  zero := Binary64.rnd_zero
  one := Binary64.rnd_one
  neg := Binary64.rnd_neg
  expF x := Binary64.rnd (Real.exp x)
  exp_nonneg x := by
    have := Binary64.rnd_mono (Real.exp_pos x).le
    rwa [Binary64.rnd_zero] at this
  exp_zero := by rw [Real.exp_zero, Binary64.rnd_one]
  exp_le_one x hx := by
    have := Binary64.rnd_mono (Real.exp_le_one_iff.mpr hx)
    rwa [Binary64.rnd_one] at this
  logF x := Binary64.rnd (Real.log x)
  log_one := by rw [Real.log_one, Binary64.rnd_zero]

namespace Binary64

/-- The value of a rounding: the integer nearest to `x / 2 ^ e`, if the integers there have 53 bits. -/
theorem rnd_eq {x : ℝ} (e : ℤ) (m : ℤ) (he : -1074 ≤ e) (he' : e ≤ 970) (h1 : 2 ^ (52 : ℕ) * (2 : ℝ) ^ e ≤ |x|) (h2 : |x| < 2 ^ (53 : ℕ) * (2 : ℝ) ^ e)
    (h3 : |(m : ℝ) - x / 2 ^ e| ≤ 1/2) (h4 : |(m : ℝ) - x / 2 ^ e| = 1/2 → Even m) (hm : |m| ≤ 2 ^ 53) :
    rnd x = ((m * 2 ^ e : ℝ) : EReal) := by
  have hu : ulpExp x = e := by
    unfold ulpExp
    rw [log_eq (k := e + 52)]
    · omega
    · rw [add_comm, zpow_add₀ (by norm_num)]; exact_mod_cast h1
    · rw [show e + 52 + 1 = 53 + e by ring, zpow_add₀ (by norm_num)]; exact_mod_cast h2
  have hr : round53 x = m * 2 ^ e := by
    rw [round53, hu, nearest_unique h3 h4]
  rw [rnd_of_abs_lt, hr]
  rw [hr, abs_mul, abs_of_pos (by positivity : (0 : ℝ) < 2 ^ e)]
  have h5 : |(m : ℝ)| ≤ 2 ^ (53 : ℤ) := by exact_mod_cast hm
  calc |(m : ℝ)| * 2 ^ e ≤ 2 ^ (53 : ℤ) * 2 ^ (970 : ℤ) := by
        refine mul_le_mul h5 (zpow_le_zpow_right₀ (by norm_num) he') (by positivity) (by positivity)
    _ = 2 ^ (1023 : ℤ) := by rw [← zpow_add₀ (by norm_num)]; norm_num
    _ < 2 ^ (1024 : ℤ) := zpow_lt_zpow_right₀ (by norm_num) (by norm_num)

end Binary64
end Verif
