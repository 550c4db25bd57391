import Verif.Spec.PathDependentErrorSpec
import Verif.Props.PathError

/-!
# Rounding errors of path-dependent payoffs
-/

set_option exponentiation.threshold 3000

namespace Verif
open Spec

theorem gbmWork_mono {sigma r q T : ℝ} {n : ℕ} {z : ℕ → ℝ} (hd : 0 ≤ T / n) {j k : ℕ} (h : j ≤ k) : gbmWork sigma r q T n z j ≤ gbmWork sigma r q T n z k := by
  unfold gbmWork
  refine Finset.sum_le_sum_of_subset_of_nonneg (Finset.range_mono (by omega)) fun l _ _ => ?_
  positivity

theorem natCast_le_gbmWork {sigma r q T : ℝ} {n : ℕ} {z : ℕ → ℝ} (hd : 0 ≤ T / n) (hn : 0 < n) : (n : ℝ) ≤ gbmWork sigma r q T n z (n - 1) := by
  unfold gbmWork
  rw [show n - 1 + 1 = n by omega]
  have : ∑ l ∈ Finset.range n, (1 : ℝ) = n := by simp
  rw [← this]
  refine Finset.sum_le_sum fun l _ => ?_
  have a : 0 ≤ (|r| + |q| + sigma ^ 2 / 2) * (T / n) := by positivity
  have b : 0 ≤ |sigma| * Real.sqrt (T / n) * |z l| := by positivity
  rw [this]
  linarith

/-- The prices `p` are positive and have relative errors of at most `a`. -/
def CloseBy (a : ℝ) (n : ℕ) (p x : ℕ → ℝ) : Prop := ∀ j < n, 0 < p j ∧ |p j - x j| ≤ a * x j

/-- The exact prices are far from the limits of the format. -/
def Range300 (n : ℕ) (x : ℕ → ℝ) : Prop := ∀ j < n, Real.exp (-300) ≤ x j ∧ x j ≤ Real.exp 300

section
variable {a : ℝ} {n : ℕ} {p x : ℕ → ℝ}

theorem Range300.pos (h : Range300 n x) {j : ℕ} (hj : j < n) : 0 < x j := (Real.exp_pos _).trans_le (h j hj).1

theorem CloseBy.highest (hn : 0 < n) (h : CloseBy a n p x) (ha0 : 0 ≤ a) : |highest n p - highest n x| ≤ a * highest n x := by
  obtain ⟨j, hj, ej⟩ := highest_mem hn p
  obtain ⟨k, hk, ek⟩ := highest_mem hn x
  have h1 := le_highest hn p hk
  have h2 := le_highest hn x hj
  have a1 := (abs_le.mp (h j hj).2).2
  have a2 := (abs_le.mp (h k hk).2).1
  rw [ek] at h2 ⊢
  rw [ej] at h1 ⊢
  rw [abs_le]
  exact ⟨by linarith, by nlinarith⟩

theorem CloseBy.lowest (hn : 0 < n) (h : CloseBy a n p x) (ha : a ≤ 1) (ha0 : 0 ≤ a) : |lowest n p - lowest n x| ≤ a * lowest n x := by
  obtain ⟨j, hj, ej⟩ := lowest_mem hn p
  obtain ⟨k, hk, ek⟩ := lowest_mem hn x
  have h1 := lowest_le hn p hk
  have h2 := lowest_le hn x hj
  have a1 := (abs_le.mp (h j hj).2).1
  have a2 := (abs_le.mp (h k hk).2).2
  rw [ek] at h2 ⊢
  rw [ej] at h1 ⊢
  rw [abs_le]
  refine ⟨?_, by linarith⟩
  nlinarith

/-- A call or put on a quantity with a small relative error. -/
theorem vanilla_pays {K v X b : ℝ} (ty : PayoffType) (hX : Real.exp (-300) ≤ X) (hX2 : X ≤ Real.exp 300) (hK : |K| ≤ 2 ^ (500 : ℤ)) (h : |v - X| ≤ b * X) (hb : b ≤ 1) :
    ∃ w : ℝ, (Payoff.vanilla ty (.num K) : Payoff (Dbl .binary64)).eval1 (.num v) = .ok (.num w) ∧ 0 ≤ w ∧ w ≤ 2 ^ (510 : ℤ) ∧
      |w - vanillaValue (ty = .call) K X| ≤ valueError b K X := by
  have hX0 : 0 < X := (Real.exp_pos _).trans_le hX
  have hbX : b * X ≤ X := mul_le_of_le_one_left hX0.le hb
  obtain ⟨w, w1, w2, w3⟩ := payoff_error binary64_doubleAccurate (K := K) ty (e300'.trans hX) (hX2.trans e300) hK h hbX
  refine ⟨w, w1, w2, ?_, w3⟩
  have b1 : vanillaValue (ty = .call) K X ≤ X + |K| := by
    unfold vanillaValue
    have k1 := le_abs_self K
    have k2 := neg_abs_le K
    split <;> refine max_le (by linarith) (by positivity)
  have b2 := (abs_le.mp w3).2
  have b3 : (2 : ℝ) ^ (-51 : ℤ) * (X + |K|) ≤ 1 * (X + |K|) := mul_le_mul_of_nonneg_right (by norm_num) (by positivity)
  have c1 : (5 : ℝ) * 2 ^ (500 : ℤ) ≤ 2 ^ (510 : ℤ) := by norm_num
  have c2 := hX2.trans e300
  generalize (2 : ℝ) ^ (500 : ℤ) = t at *
  generalize (2 : ℝ) ^ (510 : ℤ) = t' at *
  generalize (2 : ℝ) ^ (-51 : ℤ) * (X + |K|) = t'' at *
  linarith

theorem range_highest (hn : 0 < n) (h : Range300 n x) : Real.exp (-300) ≤ highest n x ∧ highest n x ≤ Real.exp 300 := by
  obtain ⟨k, hk, ek⟩ := highest_mem hn x
  rw [ek]; exact h k hk

theorem range_lowest (hn : 0 < n) (h : Range300 n x) : Real.exp (-300) ≤ lowest n x ∧ lowest n x ≤ Real.exp 300 := by
  obtain ⟨k, hk, ek⟩ := lowest_mem hn x
  rw [ek]; exact h k hk

theorem path_extremes (hn : 0 < n) (hI : n ≤ INT_MAX) (p : ℕ → ℝ) (k : MC.LookbackKind) (pay : Payoff (Dbl .binary64)) :
    MC.lookbackPath k pay n (((List.range n).map p).map fun x : ℝ => (.num x : Dbl .binary64)) =
      k.payoff pay (.num (p (n - 1) : ℝ)) (.num (lowest n p : ℝ)) (.num (highest n p : ℝ)) := by
  have hl : ((List.range n).map p).length = n := by simp
  have hs := lookback_scan (R := .binary64) (isMin_lowest hn p) (isMax_highest hn p) (by rw [hl]; exact hI)
  have hne : (List.range n).map p ≠ [] := by
    rw [← List.length_pos_iff, hl]; exact hn
  have hv := vget_last_map (R := .binary64) hne
  have hlast : ((List.range n).map p).getLast hne = p (n - 1) := by
    rw [List.getLast_eq_getElem]
    simp
  rw [hl, hlast] at hv
  rw [hl] at hs
  unfold MC.lookbackPath
  exact (congrArg (· >>= _) hs).trans (by rw [Res.bind_ok]; exact (congrArg (· >>= _) hv).trans (by rw [Res.bind_ok]; rfl))

theorem fixed_pays (hn : 0 < n) (hI : n ≤ INT_MAX) {K : ℝ} (ty : PayoffType) (hK : |K| ≤ 2 ^ (500 : ℤ)) (ha0 : 0 ≤ a) (ha : a ≤ 1) (hx : Range300 n x) (h : CloseBy a n p x) :
    ∃ w : ℝ, MC.lookbackPath .fixed (.vanilla ty (.num K)) n (((List.range n).map p).map fun x : ℝ => (.num x : Dbl .binary64)) = .ok (.num w) ∧ 0 ≤ w ∧ w ≤ 2 ^ (510 : ℤ) ∧
      |w - fixedLookback (ty = .call) K n x| ≤ valueError a K (if ty = .call then highest n x else lowest n x) := by
  rw [path_extremes hn hI]
  have e : MC.LookbackKind.fixed.payoff (.vanilla ty (.num (K : ℝ)) : Payoff (Dbl .binary64)) (.num (p (n - 1) : ℝ)) (.num (lowest n p : ℝ)) (.num (highest n p : ℝ)) =
    if ty = .call then (Payoff.vanilla ty (.num (K : ℝ))).eval1 (.num (highest n p : ℝ)) else (Payoff.vanilla ty (.num (K : ℝ))).eval1 (.num (lowest n p : ℝ)) := rfl
  rw [e]
  by_cases hc : ty = .call
  · have := vanilla_pays (K := K) ty (range_highest hn hx).1 (range_highest hn hx).2 hK (h.highest hn ha0) ha
    unfold vanillaValue at this
    unfold fixedLookback
    rw [if_pos hc] at this
    rw [if_pos hc, if_pos hc, if_pos hc]
    exact this
  · have := vanilla_pays (K := K) ty (range_lowest hn hx).1 (range_lowest hn hx).2 hK (h.lowest hn ha ha0) ha
    unfold vanillaValue at this
    unfold fixedLookback
    rw [if_neg hc] at this
    rw [if_neg hc, if_neg hc, if_neg hc]
    exact this

/-- The difference of two prices. -/
theorem spread_pays {u v X Y : ℝ} (huv : v ≤ u) (hY : 0 < v) (hX : Real.exp (-300) ≤ X) (hX2 : X ≤ Real.exp 300) (hY1 : Real.exp (-300) ≤ Y) (hY2 : Y ≤ Real.exp 300)
    (h1 : |u - X| ≤ a * X) (h2 : |v - Y| ≤ a * Y) (ha : a ≤ 1) :
    ∃ w : ℝ, Fl.max (.num u - .num v) (lit 0) = (.num (w : ℝ) : Dbl .binary64) ∧ 0 ≤ w ∧ w ≤ 2 ^ (510 : ℤ) ∧ |w - (X - Y)| ≤ (a + 2 ^ (-51 : ℤ)) * (X + Y) := by
  have es : (.num (u : EReal) - .num (v : EReal) : Dbl .binary64) = .num (Rounding.binary64.rnd (u - v)) := by
    rw [Dbl.sub_def, Dbl.neg_num, sub_eq_add_neg, ← Dbl.add_coe, EReal.coe_neg]
  have hX0 : 0 < X := (Real.exp_pos _).trans_le hX
  have hu : u ≤ 2 * X := by have := (abs_le.mp h1).2; nlinarith
  have c2 := hX2.trans e300
  have c1 : (2 : ℝ) * 2 ^ (500 : ℤ) ≤ 2 ^ (1000 : ℤ) := by norm_num
  have c3 : (2 : ℝ) ^ (-1075 : ℤ) ≤ 2 ^ (-53 : ℤ) * 2 ^ (-500 : ℤ) := by norm_num
  have c4 : (2 : ℝ) ^ (-53 : ℤ) * 2 ^ (-500 : ℤ) ≤ 2 ^ (-53 : ℤ) * X := mul_le_mul_of_nonneg_left (e300'.trans hX) (by positivity)
  have c5 : (2 : ℝ) ^ (-51 : ℤ) = 4 * 2 ^ (-53 : ℤ) := by norm_num
  have c6 : (5 : ℝ) * 2 ^ (500 : ℤ) ≤ 2 ^ (510 : ℤ) := by norm_num
  have c7 : (2 : ℝ) ^ (-53 : ℤ) ≤ 1 := by norm_num
  have c8 : (0 : ℝ) < 2 ^ (-53 : ℤ) := by positivity
  have c9 : (0 : ℝ) < 2 ^ (-1075 : ℤ) := by positivity
  obtain ⟨w, w1, w2, w3, w4⟩ := binary64_doubleAccurate.round.nonneg (by linarith : 0 ≤ u - v) (by linarith)
  have hY0 : 0 < Y := (Real.exp_pos _).trans_le hY1
  refine ⟨w, ?_, w2, ?_, ?_⟩
  · rw [es, w1]
    exact Dbl.max_zero_of_nonneg (EReal.coe_nonneg.mpr w2)
  · generalize (2 : ℝ) ^ (500 : ℤ) = t at *
    generalize (2 : ℝ) ^ (510 : ℤ) = t' at *
    generalize (2 : ℝ) ^ (-53 : ℤ) = U at *
    generalize (2 : ℝ) ^ (-1075 : ℤ) = η at *
    have d3 : (1 + U) * (u - v) ≤ 2 * (2 * X) := mul_le_mul (by linarith) (by linarith) (by linarith) (by norm_num)
    have d4 : U * X ≤ 1 * X := mul_le_mul_of_nonneg_right c7 hX0.le
    linarith
  · rw [c5]
    generalize (2 : ℝ) ^ (-53 : ℤ) = U at *
    generalize (2 : ℝ) ^ (-1075 : ℤ) = η at *
    have d1 := abs_le.mp h1
    have d2 := abs_le.mp h2
    have d3 : U * (u - v) ≤ U * (2 * X) := mul_le_mul_of_nonneg_left (by linarith) c8.le
    have d4 : 0 ≤ U * Y := by positivity
    rw [abs_le]
    constructor <;> nlinarith

theorem floating_pays (hn : 0 < n) (hI : n ≤ INT_MAX) (ty : PayoffType) (ha0 : 0 ≤ a) (ha : a ≤ 1) (hx : Range300 n x) (h : CloseBy a n p x) :
    ∃ w : ℝ, MC.lookbackPath .floating (.floatingLookback ty) n (((List.range n).map p).map fun x : ℝ => (.num x : Dbl .binary64)) = .ok (.num w) ∧ 0 ≤ w ∧ w ≤ 2 ^ (510 : ℤ) ∧
      |w - floatingLookback (ty = .call) n x| ≤ (a + 2 ^ (-51 : ℤ)) * (x (n - 1) + if ty = .call then lowest n x else highest n x) := by
  rw [path_extremes hn hI]
  have hl : n - 1 < n := by omega
  have q0 : 0 < lowest n p := by
    obtain ⟨k, hk, ek⟩ := lowest_mem hn p
    rw [ek]; exact (h k hk).1
  have e : MC.LookbackKind.floating.payoff (.floatingLookback ty : Payoff (Dbl .binary64)) (.num (p (n - 1) : ℝ)) (.num (lowest n p : ℝ)) (.num (highest n p : ℝ)) =
    if ty = .call then (if ty = .call then .ok (Fl.max (.num (p (n - 1) : ℝ) - .num (lowest n p : ℝ)) (lit 0)) else .ok (Fl.max (.num (lowest n p : ℝ) - .num (p (n - 1) : ℝ)) (lit 0)))
    else (if ty = .call then .ok (Fl.max (.num (p (n - 1) : ℝ) - .num (highest n p : ℝ)) (lit 0)) else .ok (Fl.max (.num (highest n p : ℝ) - .num (p (n - 1) : ℝ)) (lit 0))) := rfl
  rw [e]
  by_cases hc : ty = .call
  · obtain ⟨w, w1, w2, w3, w4⟩ := spread_pays (lowest_le hn p hl) q0 (hx _ hl).1 (hx _ hl).2 (range_lowest hn hx).1 (range_lowest hn hx).2 (h _ hl).2 (h.lowest hn ha ha0) ha
    refine ⟨w, ?_, w2, w3, ?_⟩
    · simp only [if_pos hc]
      exact congrArg Res.ok w1
    · simpa only [if_pos hc, floatingLookback] using w4
  · obtain ⟨w, w1, w2, w3, w4⟩ := spread_pays (le_highest hn p hl) (h _ hl).1 (range_highest hn hx).1 (range_highest hn hx).2 (hx _ hl).1 (hx _ hl).2 (h.highest hn ha0) (h _ hl).2 ha
    refine ⟨w, ?_, w2, w3, ?_⟩
    · simp only [if_neg hc]
      exact congrArg Res.ok w1
    · simp only [if_neg hc, floatingLookback]
      rwa [add_comm (x (n - 1))]

/-! ## Averages -/

theorem asian_scan (k : MC.AsianKind) (hI : n ≤ INT_MAX) (p : ℕ → ℝ) (pay : Dbl .binary64 → Res (Dbl .binary64)) :
    MC.asianPath k pay n (((List.range n).map p).map fun x : ℝ => (.num x : Dbl .binary64)) =
      pay (k.average ((((List.range n).map p).map fun x : ℝ => (.num x : Dbl .binary64)).foldl (fun a x => a + k.term x) (lit 0)) n) := by
  unfold MC.asianPath
  have hl : (((List.range n).map p).map fun x : ℝ => (.num x : Dbl .binary64)).length = n := by simp
  have := MC.scan_fold (body := fun (a : Dbl .binary64) x => (a + k.term x, false)) (by intros; rfl) (((List.range n).map p).map fun x : ℝ => (.num x : Dbl .binary64)) n 0 (lit 0)
    (by omega) (by omega)
  rw [this, List.drop_zero, Res.bind_ok]

theorem range_mean (hn : 0 < n) (h : Range300 n x) : Real.exp (-300) ≤ meanOf n x ∧ meanOf n x ≤ Real.exp 300 := by
  have hn' : (0 : ℝ) < n := by exact_mod_cast hn
  unfold meanOf
  rw [le_div_iff₀ hn', div_le_iff₀ hn']
  constructor
  · have := Finset.card_nsmul_le_sum (Finset.range n) x _ fun j hj => (h j (Finset.mem_range.mp hj)).1
    simpa [mul_comm] using this
  · have := Finset.sum_le_card_nsmul (Finset.range n) x _ fun j hj => (h j (Finset.mem_range.mp hj)).2
    simpa [mul_comm] using this

theorem CloseBy.mean (hn : 0 < n) (h : CloseBy a n p x) : |meanOf n p - meanOf n x| ≤ a * meanOf n x := by
  have hn' : (0 : ℝ) < n := by exact_mod_cast hn
  unfold meanOf
  rw [← sub_div, ← Finset.sum_sub_distrib, abs_div, abs_of_pos hn', ← mul_div_assoc, Finset.mul_sum]
  gcongr
  refine (Finset.abs_sum_le_sum_abs _ _).trans (Finset.sum_le_sum fun j hj => (h j (Finset.mem_range.mp hj)).2)

/-- The computed arithmetic mean. -/
theorem arithmetic_average (hn : 0 < n) (hI : n ≤ INT_MAX) (ha0 : 0 ≤ a) (ha : a ≤ 1) (hx : Range300 n x) (h : CloseBy a n p x) :
    ∃ v : ℝ, MC.AsianKind.arithmetic.average ((((List.range n).map p).map fun x : ℝ => (.num x : Dbl .binary64)).foldl (fun a x => a + MC.AsianKind.arithmetic.term x) (lit 0)) n =
      .num v ∧ |v - meanOf n x| ≤ (a + (n + 2) * 2 ^ (-51 : ℤ)) * meanOf n x := by
  have hn' : (1 : ℝ) ≤ n := by exact_mod_cast hn
  have hn2 : (n : ℝ) ≤ 2 ^ 31 := by
    have : n ≤ 2 ^ 31 := hI.trans (by norm_num [INT_MAX])
    exact_mod_cast this
  have hm := h.mean hn
  obtain ⟨r1, r2⟩ := range_mean hn hx
  have hs : ((List.range n).map p).sum = n * meanOf n p := by
    rw [meanOf, mul_div_cancel₀ _ (by linarith)]
    rfl
  have hl : ((List.range n).map p).length = n := by simp
  have hp0 : ∀ y ∈ (List.range n).map p, 0 ≤ y := by
    intro y hy
    obtain ⟨j, hj, rfl⟩ := List.mem_map.mp hy
    exact (h j (List.mem_range.mp hj)).1.le
  have hm0 : 0 ≤ meanOf n p := div_nonneg (Finset.sum_nonneg fun j hj => (h j (Finset.mem_range.mp hj)).1.le) (by linarith)
  have hX0 : 0 < meanOf n x := (Real.exp_pos _).trans_le r1
  have q1 := r1
  have q2 := r2.trans e300
  have q3 := e300'.trans r1
  have hm2 : meanOf n p ≤ 2 * meanOf n x := by
    have := (abs_le.mp hm).2
    nlinarith
  have hu0 : (0 : ℝ) < 2 ^ (-53 : ℤ) := by positivity
  have hη0 : (0 : ℝ) < 2 ^ (-1075 : ℤ) := by positivity
  have hnu : (n : ℝ) * 2 ^ (-53 : ℤ) ≤ 1 / 2 ^ 20 := by
    calc (n : ℝ) * 2 ^ (-53 : ℤ) ≤ 2 ^ 31 * 2 ^ (-53 : ℤ) := mul_le_mul_of_nonneg_right hn2 hu0.le
      _ ≤ _ := by norm_num
  have hnu2 : 2 * (n : ℝ) * 2 ^ (-53 : ℤ) ≤ 1 := by
    rw [mul_assoc]
    norm_num at hnu ⊢
    linarith only [hnu]
  have hP := one_add_pow_le hu0.le n hnu2
  have hQ := one_sub_pow_ge (u := (2 : ℝ) ^ (-53 : ℤ)) (by norm_num) n
  have hη : (2 : ℝ) ^ (-1075 : ℤ) ≤ 2 ^ (-55 : ℤ) * meanOf n x := by
    calc (2 : ℝ) ^ (-1075 : ℤ) ≤ 2 ^ (-55 : ℤ) * 2 ^ (-500 : ℤ) := by norm_num
      _ ≤ _ := mul_le_mul_of_nonneg_left q3 (by positivity)
  have h55 : (2 : ℝ) ^ (-55 : ℤ) = 2 ^ (-53 : ℤ) / 4 := by norm_num
  have h51 : (2 : ℝ) ^ (-51 : ℤ) = 4 * 2 ^ (-53 : ℤ) := by norm_num
  have hM : (1 + 2 ^ (-53 : ℤ)) ^ n * (n * meanOf n p + n * (2 : ℝ) ^ (-1075 : ℤ)) ≤ 2 ^ (1000 : ℤ) := by
    calc (1 + 2 ^ (-53 : ℤ)) ^ n * (n * meanOf n p + n * (2 : ℝ) ^ (-1075 : ℤ)) ≤ 2 * (2 ^ 31 * (2 * 2 ^ (500 : ℤ)) + 2 ^ 31 * 1) := by
          gcongr
          · exact hP.trans (by linarith only [hnu2])
          · linarith only [hm2, q2]
          · exact zpow_le_one_of_nonpos₀ (by norm_num) (by norm_num)
      _ ≤ _ := by norm_num
  obtain ⟨y, y1, y2, y3, y4⟩ := sum_error binary64_doubleAccurate.round hu0.le (by norm_num) hη0.le ((List.range n).map p) hp0 (by rw [hs, hl]; exact hM)
  rw [hs, hl] at y3 y4
  have hnn : (0 : ℝ) < n := by linarith
  have t1 : y / n ≤ (1 + 2 ^ (-53 : ℤ)) ^ n * (meanOf n p + 2 ^ (-1075 : ℤ)) := by
    rw [div_le_iff₀ hnn]
    exact y3.trans (le_of_eq (by ring))
  have t2 : (1 - 2 ^ (-53 : ℤ)) ^ n * meanOf n p - 2 ^ (-1075 : ℤ) ≤ y / n := by
    rw [le_div_iff₀ hnn]
    exact le_trans (le_of_eq (by ring)) y4
  have hbig : y / n ≤ 2 ^ (1000 : ℤ) := by
    refine (div_le_self y2 hn').trans (y3.trans hM)
  obtain ⟨v, v1, v2, v3, v4⟩ := binary64_doubleAccurate.round.nonneg (div_nonneg y2 hnn.le) hbig
  refine ⟨v, ?_, ?_⟩
  · have e : (((List.range n).map p).map fun x : ℝ => (.num x : Dbl .binary64)).foldl (fun a x => a + MC.AsianKind.arithmetic.term x) (lit 0) = .num y := by
      rw [← y1, Dbl.lit_zero]
      rfl
    rw [e]
    show (Dbl.num (y : EReal) / lit (n : ℚ) : Dbl .binary64) = _
    rw [Dbl.lit_def, Rat.cast_natCast, binary64_doubleAccurate.int n (hI.trans (by norm_num [INT_MAX])), Dbl.div_coe _ hnn.ne', v1]
  · obtain ⟨m1, m2⟩ := abs_le.mp hm
    rw [h51]
    rw [h55] at hη
    have A1 : (1 + 2 ^ (-53 : ℤ)) ^ n * (meanOf n p + 2 ^ (-1075 : ℤ)) ≤ (1 + 2 * n * 2 ^ (-53 : ℤ)) * (meanOf n p + 2 ^ (-1075 : ℤ)) :=
      mul_le_mul_of_nonneg_right hP (by positivity)
    have A2 : (1 - n * 2 ^ (-53 : ℤ)) * meanOf n p ≤ (1 - 2 ^ (-53 : ℤ)) ^ n * meanOf n p := mul_le_mul_of_nonneg_right hQ hm0
    generalize (1 + 2 ^ (-53 : ℤ)) ^ n * (meanOf n p + 2 ^ (-1075 : ℤ)) = B1 at *
    generalize (1 - 2 ^ (-53 : ℤ)) ^ n * meanOf n p = B2 at *
    have hu1 : (2 : ℝ) ^ (-53 : ℤ) ≤ 1 / 8 := by norm_num
    clear hP hQ hM h55 h51 hs y1 y3 y4
    generalize (2 : ℝ) ^ (-53 : ℤ) = U at *
    generalize (2 : ℝ) ^ (-1075 : ℤ) = η at *
    generalize meanOf n p = m at *
    generalize meanOf n x = X at *
    generalize y / n = Y at *
    have k1 : (n : ℝ) * U * m ≤ n * U * (2 * X) := mul_le_mul_of_nonneg_left hm2 (by positivity)
    have k2 : U * m ≤ U * (2 * X) := mul_le_mul_of_nonneg_left hm2 hu0.le
    have k3 : (n : ℝ) * U * η ≤ 1 / 8 * η := mul_le_mul_of_nonneg_right (hnu.trans (by norm_num)) hη0.le
    have k0 : 0 ≤ (n : ℝ) * U * X := by positivity
    have k5 : 0 ≤ U * X := by positivity
    have u1 : Y ≤ m + 4 * (n * U * X) + 2 * η := by nlinarith only [t1, A1, k1, k3, hη0]
    have u2 : m - 2 * (n * U * X) - η ≤ Y := by nlinarith only [t2, A2, k1]
    have hY : U * Y ≤ U * (3 * X) := by
      refine mul_le_mul_of_nonneg_left ?_ hu0.le
      have : (n : ℝ) * U * X ≤ 1 / 2 ^ 20 * X := mul_le_mul_of_nonneg_right hnu hX0.le
      have h3 : U / 4 * X ≤ 1 / 32 * X := mul_le_mul_of_nonneg_right (by linarith) hX0.le
      norm_num at this
      linarith
    rw [abs_le]
    constructor <;> nlinarith only [u1, u2, hY, hη, k0, k5, m1, m2, v3, v4, hη0]

theorem arithmetic_pays (hn : 0 < n) (hI : n ≤ INT_MAX) {K W : ℝ} (ty : PayoffType) (hK : |K| ≤ 2 ^ (500 : ℤ)) (hW : n ≤ W) (hW2 : W ≤ 2 ^ 40) (hx : Range300 n x)
    (h : CloseBy (2 ^ (-49 : ℤ) * W) n p x) :
    ∃ w : ℝ, MC.asianPath .arithmetic (Payoff.vanilla ty (.num K)).eval1 n (((List.range n).map p).map fun x : ℝ => (.num x : Dbl .binary64)) = .ok (.num w) ∧ 0 ≤ w ∧ w ≤ 2 ^ (510 : ℤ) ∧
      |w - vanillaValue (ty = .call) K (meanOf n x)| ≤ valueError (2 ^ (-48 : ℤ) * W) K (meanOf n x) := by
  have hn' : (1 : ℝ) ≤ n := by exact_mod_cast hn
  have b1 : (2 : ℝ) ^ (-49 : ℤ) * W ≤ 1 := (mul_le_mul_of_nonneg_left hW2 (by positivity)).trans (by norm_num)
  have b2 : (2 : ℝ) ^ (-48 : ℤ) * W ≤ 1 := (mul_le_mul_of_nonneg_left hW2 (by positivity)).trans (by norm_num)
  obtain ⟨r1, r2⟩ := range_mean hn hx
  obtain ⟨v, v1, v2⟩ := arithmetic_average hn hI (mul_nonneg (by positivity) (by linarith)) b1 hx h
  rw [asian_scan .arithmetic hI, v1]
  refine vanilla_pays ty r1 r2 hK (v2.trans (mul_le_mul_of_nonneg_right ?_ ((Real.exp_pos _).trans_le r1).le)) b2
  have e1 : (2 : ℝ) ^ (-51 : ℤ) = 2 ^ (-49 : ℤ) / 4 := by norm_num
  have e2 : (2 : ℝ) ^ (-48 : ℤ) = 2 * 2 ^ (-49 : ℤ) := by norm_num
  have e3 : (0 : ℝ) < 2 ^ (-49 : ℤ) := by positivity
  rw [e1, e2]
  generalize (2 : ℝ) ^ (-49 : ℤ) = U at *
  nlinarith

theorem abs_log_of_range {y : ℝ} (h : Real.exp (-300) ≤ y ∧ y ≤ Real.exp 300) : |Real.log y| ≤ 300 := by
  have h0 : 0 < y := (Real.exp_pos _).trans_le h.1
  rw [abs_le]
  exact ⟨(Real.le_log_iff_exp_le h0).mpr h.1, (Real.log_le_iff_le_exp h0).mpr h.2⟩

theorem Dbl.log_coe {y : ℝ} (hy : 0 < y) : Fl.log (.num y : Dbl .binary64) = .num (Rounding.binary64.rnd (Real.log y)) := by
  show (if y < 0 then Dbl.nan else if y = 0 then .num ⊥ else .num (Rounding.binary64.logF y) : Dbl .binary64) = _
  rw [if_neg hy.le.not_gt, if_neg hy.ne']
  rfl

/-- A rounded logarithm. -/
theorem log_error {y X b : ℝ} (hX : Real.exp (-300) ≤ X ∧ X ≤ Real.exp 300) (hb : b ≤ 1 / 2) (h : |y - X| ≤ b * X) :
    ∃ l : ℝ, Fl.log (.num y : Dbl .binary64) = .num l ∧ |l - Real.log X| ≤ 2 * b + 2 ^ (-44 : ℤ) := by
  have hX0 : 0 < X := (Real.exp_pos _).trans_le hX.1
  obtain ⟨hy, h1⟩ := abs_log_le hX0 hb h
  have h2 := abs_log_of_range hX
  have h3 : |Real.log y| ≤ 301 := by
    have := abs_add_le (Real.log y - Real.log X) (Real.log X)
    rw [sub_add_cancel] at this
    linarith
  obtain ⟨l, l1, l2⟩ := binary64_doubleAccurate.round (Real.log y) (h3.trans (by norm_num))
  refine ⟨l, by rw [Dbl.log_coe hy, l1], ?_⟩
  have := abs_sub_le l (Real.log y) (Real.log X)
  have h4 : (2 : ℝ) ^ (-53 : ℤ) * |Real.log y| + 2 ^ (-1075 : ℤ) ≤ 2 ^ (-44 : ℤ) := by
    have a1 : (2 : ℝ) ^ (-53 : ℤ) * |Real.log y| ≤ 2 ^ (-53 : ℤ) * 301 := mul_le_mul_of_nonneg_left h3 (by positivity)
    have a2 : (2 : ℝ) ^ (-53 : ℤ) * 301 + 2 ^ (-1075 : ℤ) ≤ 2 ^ (-44 : ℤ) := by norm_num
    exact (add_le_add_left a1 _).trans a2
  generalize (2 : ℝ) ^ (-44 : ℤ) = t at *
  linarith

theorem log_sum_error {D : ℝ} (hI : n ≤ INT_MAX) {b : ℝ} (hb0 : 0 ≤ b) (hb : b ≤ 1 / 4) (hx : Range300 n x) (h : CloseBy b n p x)
    (hD : D = 2 * b + 2 ^ (-44 : ℤ) * (n + 1)) : ∀ k ≤ n,
    ∃ y : ℝ, (((List.range k).map p).map fun x : ℝ => (.num x : Dbl .binary64)).foldl (fun a x => a + MC.AsianKind.geometric.term x) (lit 0) = .num y ∧
      |y - ∑ j ∈ Finset.range k, Real.log (x j)| ≤ k * D
  | 0, _ => ⟨0, by simp [Dbl.lit_zero], by simp⟩
  | k + 1, hk => by
    obtain ⟨y, y1, y2⟩ := log_sum_error hI hb0 hb hx h hD k (by omega)
    obtain ⟨l, l1, l2⟩ := log_error (hx k (by omega)) (by linarith) (h k (by omega)).2
    have hn2 : (n : ℝ) ≤ 2 ^ 31 := by
      have : n ≤ 2 ^ 31 := hI.trans (by norm_num [INT_MAX])
      exact_mod_cast this
    have hk' : (k : ℝ) + 1 ≤ n := by exact_mod_cast hk
    have hk0 : (0 : ℝ) ≤ k := Nat.cast_nonneg k
    have hD1 : D ≤ 1 := by
      rw [hD]
      have : (2 : ℝ) ^ (-44 : ℤ) * (n + 1) ≤ 2 ^ (-44 : ℤ) * (2 ^ 31 + 1) := mul_le_mul_of_nonneg_left (by linarith) (by positivity)
      have h2 : (2 : ℝ) ^ (-44 : ℤ) * (2 ^ 31 + 1) ≤ 1 / 2 := by norm_num
      exact (add_le_add (by linarith only [hb] : 2 * b ≤ 1 / 2) (this.trans h2)).trans (by norm_num)
    have hD0 : 0 ≤ D := by rw [hD]; positivity
    have hlD : 2 * b + 2 ^ (-44 : ℤ) ≤ D := by
      rw [hD]
      have : (2 : ℝ) ^ (-44 : ℤ) * 1 ≤ 2 ^ (-44 : ℤ) * (n + 1) := mul_le_mul_of_nonneg_left (by linarith) (by positivity)
      linarith only [this]
    have hsum : |∑ j ∈ Finset.range (k + 1), Real.log (x j)| ≤ (k + 1) * 300 := by
      refine (Finset.abs_sum_le_sum_abs _ _).trans ?_
      have := Finset.sum_le_card_nsmul (Finset.range (k + 1)) (fun j => |Real.log (x j)|) 300 fun j hj => abs_log_of_range (hx j (by have := Finset.mem_range.mp hj; omega))
      simpa using this
    have hd : |y + l - ∑ j ∈ Finset.range (k + 1), Real.log (x j)| ≤ k * D + (2 * b + 2 ^ (-44 : ℤ)) := by
      rw [Finset.sum_range_succ, add_sub_add_comm]
      exact (abs_add_le _ _).trans (add_le_add y2 l2)
    have hsz : |y + l| ≤ 301 * n := by
      have := abs_add_le (y + l - ∑ j ∈ Finset.range (k + 1), Real.log (x j)) (∑ j ∈ Finset.range (k + 1), Real.log (x j))
      rw [sub_add_cancel] at this
      have e1 : (k : ℝ) * D ≤ k * 1 := mul_le_mul_of_nonneg_left hD1 hk0
      linarith
    obtain ⟨v, v1, v2⟩ := binary64_doubleAccurate.round (y + l) (hsz.trans (by
      calc (301 : ℝ) * n ≤ 301 * 2 ^ 31 := by gcongr
        _ ≤ _ := by norm_num))
    refine ⟨v, ?_, ?_⟩
    · rw [List.range_succ, List.map_append, List.map_append, List.foldl_append, y1]
      show (.num (y : EReal) + Fl.log (.num (p k : ℝ)) : Dbl .binary64) = _
      rw [l1, Dbl.add_coe, v1]
    · have := abs_sub_le v (y + l) (∑ j ∈ Finset.range (k + 1), Real.log (x j))
      have h4 : (2 : ℝ) ^ (-53 : ℤ) * |y + l| + 2 ^ (-1075 : ℤ) ≤ 2 ^ (-44 : ℤ) * n := by
        have a1 : (2 : ℝ) ^ (-53 : ℤ) * |y + l| ≤ 2 ^ (-53 : ℤ) * (301 * n) := mul_le_mul_of_nonneg_left hsz (by positivity)
        have a2 : (2 : ℝ) ^ (-1075 : ℤ) ≤ 2 ^ (-53 : ℤ) := by norm_num
        have a3 : (2 : ℝ) ^ (-53 : ℤ) * 1 ≤ 2 ^ (-53 : ℤ) * n := mul_le_mul_of_nonneg_left (by linarith) (by positivity)
        have a4 : (2 : ℝ) ^ (-44 : ℤ) = 512 * 2 ^ (-53 : ℤ) := by norm_num
        have a5 : (0 : ℝ) < 2 ^ (-53 : ℤ) := by positivity
        rw [a4]
        generalize (2 : ℝ) ^ (-53 : ℤ) = U at *
        generalize (2 : ℝ) ^ (-1075 : ℤ) = η at *
        nlinarith only [a1, a2, a3, a5]
      push_cast
      rw [hD] at hd ⊢
      generalize (2 : ℝ) ^ (-44 : ℤ) = t at *
      nlinarith only [this, h4, hd, v2]

theorem log_geomMeanOf (hn : 0 < n) (hx : Range300 n x) : geomMeanOf n x = Real.exp ((∑ j ∈ Finset.range n, Real.log (x j)) / n) := by
  have h0 : ∀ j ∈ Finset.range n, 0 < x j := fun j hj => hx.pos (Finset.mem_range.mp hj)
  unfold geomMeanOf
  rw [Real.rpow_def_of_pos (Finset.prod_pos h0), Real.log_prod (fun j hj => (h0 j hj).ne')]
  congr 1
  ring

theorem range_geomMean (hn : 0 < n) (hx : Range300 n x) : Real.exp (-300) ≤ geomMeanOf n x ∧ geomMeanOf n x ≤ Real.exp 300 := by
  have hn' : (0 : ℝ) < n := by exact_mod_cast hn
  have hsum : |∑ j ∈ Finset.range n, Real.log (x j)| ≤ n * 300 := by
    refine (Finset.abs_sum_le_sum_abs _ _).trans ?_
    have := Finset.sum_le_card_nsmul (Finset.range n) (fun j => |Real.log (x j)|) 300 fun j hj => abs_log_of_range (hx j (Finset.mem_range.mp hj))
    simpa using this
  obtain ⟨s1, s2⟩ := abs_le.mp hsum
  rw [log_geomMeanOf hn hx, Real.exp_le_exp, Real.exp_le_exp, le_div_iff₀ hn', div_le_iff₀ hn']
  constructor <;> linarith

/-- The computed geometric mean. -/
theorem geometric_average (hn : 0 < n) (hI : n ≤ INT_MAX) {W : ℝ} (hW : n ≤ W) (hW2 : W ≤ 2 ^ 40) (hx : Range300 n x) (h : CloseBy (2 ^ (-49 : ℤ) * W) n p x) :
    ∃ v : ℝ, MC.AsianKind.geometric.average ((((List.range n).map p).map fun x : ℝ => (.num x : Dbl .binary64)).foldl (fun a x => a + MC.AsianKind.geometric.term x) (lit 0)) n =
      .num v ∧ |v - geomMeanOf n x| ≤ 2 ^ (-40 : ℤ) * W * geomMeanOf n x := by
  have hn' : (1 : ℝ) ≤ n := by exact_mod_cast hn
  have hnn : (0 : ℝ) < n := by linarith
  have hW0 : 0 ≤ W := by linarith
  have b1 : (2 : ℝ) ^ (-49 : ℤ) * W ≤ 1 / 4 := (mul_le_mul_of_nonneg_left hW2 (by positivity)).trans (by norm_num)
  obtain ⟨y, y1, y2⟩ := log_sum_error hI (by positivity) b1 hx h rfl n le_rfl
  have hE : |y / n - (∑ j ∈ Finset.range n, Real.log (x j)) / n| ≤ 2 * (2 ^ (-49 : ℤ) * W) + 2 ^ (-44 : ℤ) * (n + 1) := by
    rw [← sub_div, abs_div, abs_of_pos hnn, div_le_iff₀ hnn, mul_comm]
    exact y2
  obtain ⟨r1, r2⟩ := range_geomMean hn hx
  rw [log_geomMeanOf hn hx] at r1 r2 ⊢
  rw [Real.exp_le_exp] at r1 r2
  generalize (∑ j ∈ Finset.range n, Real.log (x j)) / n = L at *
  have hE1 : |y / n - L| ≤ 2 ^ (-42 : ℤ) * W - 2 ^ (-44 : ℤ) := by
    refine hE.trans ?_
    have e1 : (2 : ℝ) ^ (-42 : ℤ) = 128 * 2 ^ (-49 : ℤ) := by norm_num
    have e2 : (2 : ℝ) ^ (-44 : ℤ) = 32 * 2 ^ (-49 : ℤ) := by norm_num
    have e4 : (0 : ℝ) < 2 ^ (-49 : ℤ) := by positivity
    rw [e1, e2]
    generalize (2 : ℝ) ^ (-49 : ℤ) = U at *
    nlinarith only [hW, hn', e4, mul_le_mul_of_nonneg_left hW e4.le, mul_le_mul_of_nonneg_left hn' e4.le]
  have b2 : (2 : ℝ) ^ (-42 : ℤ) * W ≤ 1 / 4 := (mul_le_mul_of_nonneg_left hW2 (by positivity)).trans (by norm_num)
  have e1 : (2 : ℝ) ^ (-40 : ℤ) * W = 4 * (2 ^ (-42 : ℤ) * W) := by norm_num; ring
  have e2 : (2 : ℝ) ^ (-52 : ℤ) ≤ 1 / 2 * (2 ^ (-42 : ℤ) * W) := by
    have h1 : (2 : ℝ) ^ (-42 : ℤ) * 1 ≤ 2 ^ (-42 : ℤ) * W := mul_le_mul_of_nonneg_left (by linarith only [hn', hW]) (by positivity)
    have h2 : (2 : ℝ) ^ (-52 : ℤ) ≤ 1 / 2 * (2 ^ (-42 : ℤ) * 1) := by norm_num
    exact h2.trans (mul_le_mul_of_nonneg_left h1 (by norm_num))
  rw [e1]
  have hp43 : (0 : ℝ) < 2 ^ (-44 : ℤ) := by positivity
  have a2 : (2 : ℝ) ^ (-53 : ℤ) * 301 + 2 ^ (-1075 : ℤ) ≤ 2 ^ (-44 : ℤ) := by norm_num
  clear e1 hE
  generalize (2 : ℝ) ^ (-42 : ℤ) * W = c at *
  have hsz : |y / n| ≤ 301 := by
    have := abs_add_le (y / n - L) L
    rw [sub_add_cancel] at this
    have hL : |L| ≤ 300 := abs_le.mpr ⟨r1, r2⟩
    generalize (2 : ℝ) ^ (-44 : ℤ) = t at *
    linarith only [this, hL, hE1, b2, hp43]
  obtain ⟨d, d1, d2⟩ := binary64_doubleAccurate.round (y / n) (hsz.trans (by norm_num))
  have hd : |d - L| ≤ c := by
    have := abs_sub_le d (y / n) L
    have a1 : (2 : ℝ) ^ (-53 : ℤ) * |y / n| ≤ 2 ^ (-53 : ℤ) * 301 := mul_le_mul_of_nonneg_left hsz (by positivity)
    generalize (2 : ℝ) ^ (-44 : ℤ) = t at *
    generalize (2 : ℝ) ^ (-53 : ℤ) = t' at *
    generalize (2 : ℝ) ^ (-1075 : ℤ) = t'' at *
    linarith only [this, d2, a1, a2, hE1]
  have hds : |d| ≤ 650 := by
    have := abs_add_le (d - L) L
    rw [sub_add_cancel] at this
    have hL : |L| ≤ 300 := abs_le.mpr ⟨r1, r2⟩
    linarith only [this, hL, hd, b2]
  obtain ⟨v, v1, v2⟩ := binary64_doubleAccurate.exp d hds
  have e0 : (0 : ℝ) < 2 ^ (-52 : ℤ) := by positivity
  refine ⟨v, ?_, ?_⟩
  · rw [y1]
    show Fl.exp (Dbl.num (y : EReal) / lit (n : ℚ) : Dbl .binary64) = _
    rw [Dbl.lit_def, Rat.cast_natCast, binary64_doubleAccurate.int n (hI.trans (by norm_num [INT_MAX])), Dbl.div_coe _ hnn.ne', d1, Dbl.exp_coe, v1]
  · have ee : Real.exp d = Real.exp L * Real.exp (d - L) := by rw [← Real.exp_add]; ring_nf
    obtain ⟨k1, k2⟩ := abs_le.mp hd
    have f1 : Real.exp (d - L) ≤ 1 + 2 * c :=
      (Real.exp_le_exp.mpr k2).trans (exp_le_of_small ((abs_nonneg _).trans hd) (by linarith only [b2]))
    have f2 : 1 - c ≤ Real.exp (d - L) := by
      have := Real.add_one_le_exp (d - L)
      linarith only [this, k1]
    have hL0 := Real.exp_pos L
    rw [ee] at v2
    clear hp43 hE1 d2 y2 a2
    generalize (2 : ℝ) ^ (-52 : ℤ) = U at *
    generalize Real.exp (d - L) = g at *
    generalize Real.exp L = G at *
    have hg : g ≤ 3 / 2 := by linarith only [f1, b2]
    have m1 : U * (G * g) ≤ 1 / 2 * c * (G * (3 / 2)) := by
      refine mul_le_mul e2 (mul_le_mul_of_nonneg_left hg hL0.le) (mul_nonneg hL0.le ?_) (by linarith only [e0, e2])
      linarith only [f2, b2]
    have m2 := mul_le_mul_of_nonneg_left f1 hL0.le
    have m3 := mul_le_mul_of_nonneg_left f2 hL0.le
    have m4 : 0 ≤ c * G := mul_nonneg (by linarith only [e0, e2]) hL0.le
    obtain ⟨w1, w2⟩ := abs_le.mp v2
    rw [abs_le]
    constructor <;> nlinarith only [w1, w2, m1, m2, m3, m4]

theorem geometric_pays (hn : 0 < n) (hI : n ≤ INT_MAX) {K W : ℝ} (ty : PayoffType) (hK : |K| ≤ 2 ^ (500 : ℤ)) (hW : n ≤ W) (hW2 : W ≤ 2 ^ 40) (hx : Range300 n x)
    (h : CloseBy (2 ^ (-49 : ℤ) * W) n p x) :
    ∃ w : ℝ, MC.asianPath .geometric (Payoff.vanilla ty (.num K)).eval1 n (((List.range n).map p).map fun x : ℝ => (.num x : Dbl .binary64)) = .ok (.num w) ∧ 0 ≤ w ∧ w ≤ 2 ^ (510 : ℤ) ∧
      |w - vanillaValue (ty = .call) K (geomMeanOf n x)| ≤ valueError (2 ^ (-40 : ℤ) * W) K (geomMeanOf n x) := by
  have b2 : (2 : ℝ) ^ (-40 : ℤ) * W ≤ 1 := (mul_le_mul_of_nonneg_left hW2 (by positivity)).trans (by norm_num)
  obtain ⟨r1, r2⟩ := range_geomMean hn hx
  obtain ⟨v, v1, v2⟩ := geometric_average hn hI hW hW2 hx h
  rw [asian_scan .geometric hI, v1]
  exact vanilla_pays ty r1 r2 hK v2 b2

/-! ## Barriers -/

theorem barrierTouched_iff {B X v b : ℝ} (d : BarrierDirection) (h : |v - X| ≤ b * X) (hc : b * X < |X - B|) :
    (OptionModel.barrierTouched (.num B) d (.num v : Dbl .binary64) = true) ↔ (match d with | .up => B ≤ X | .down => X ≤ B) := by
  obtain ⟨h1, h2⟩ := abs_le.mp h
  cases d with
  | up =>
    have e : OptionModel.barrierTouched (.num B) .up (.num v : Dbl .binary64) = Fl.le (.num B : Dbl .binary64) (.num v) := rfl
    rw [e, Dbl.le_num, EReal.coe_le_coe_iff]
    rcases lt_abs.mp hc with h3 | h3 <;> constructor <;> intro <;> linarith
  | down =>
    have e : OptionModel.barrierTouched (.num B) .down (.num v : Dbl .binary64) = Fl.le (.num v : Dbl .binary64) (.num B) := rfl
    rw [e, Dbl.le_num, EReal.coe_le_coe_iff]
    rcases lt_abs.mp hc with h3 | h3 <;> constructor <;> intro <;> linarith

theorem any_touched {B : ℝ} (d : BarrierDirection) (h : CloseBy a n p x) (hc : ClearOf B a n x) :
    (((List.range n).map p).map fun x : ℝ => (.num x : Dbl .binary64)).any (OptionModel.barrierTouched (.num B) d) = true ↔ Crossed B d n x := by
  rw [List.any_eq_true]
  unfold Crossed
  constructor
  · rintro ⟨y, hy, ht⟩
    obtain ⟨z, hz, rfl⟩ := List.mem_map.mp hy
    obtain ⟨j, hj, rfl⟩ := List.mem_map.mp hz
    have hj' := List.mem_range.mp hj
    exact ⟨j, hj', (barrierTouched_iff d (h j hj').2 (hc j hj')).mp ht⟩
  · rintro ⟨j, hj, ht⟩
    exact ⟨_, List.mem_map.mpr ⟨_, List.mem_map.mpr ⟨j, List.mem_range.mpr hj, rfl⟩, rfl⟩, (barrierTouched_iff d (h j hj).2 (hc j hj)).mpr ht⟩

theorem path_last (hn : 0 < n) (p : ℕ → ℝ) : vget (((List.range n).map p).map fun x : ℝ => (.num x : Dbl .binary64)) (upred n) = .ok (.num (p (n - 1) : ℝ)) := by
  have hl : ((List.range n).map p).length = n := by simp
  have hne : (List.range n).map p ≠ [] := by
    rw [← List.length_pos_iff, hl]; exact hn
  have hv := vget_last_map (R := .binary64) hne
  have hlast : ((List.range n).map p).getLast hne = p (n - 1) := by
    rw [List.getLast_eq_getElem]
    simp
  rw [hl, hlast] at hv
  exact hv

theorem knockIn_pays (hn : 0 < n) (hI : n ≤ INT_MAX) {K B : ℝ} (d : BarrierDirection) (ty : PayoffType) (hK : |K| ≤ 2 ^ (500 : ℤ)) (ha : a ≤ 1)
    (hx : Range300 n x) (h : CloseBy a n p x) (hc : ClearOf B a n x) :
    ∃ w : ℝ, MC.barrierPath .knockIn (OptionModel.knockInIsActive (.num B) d) (Payoff.vanilla ty (.num K)).eval1 n (((List.range n).map p).map fun x : ℝ => (.num x : Dbl .binary64)) =
      .ok (.num w) ∧ 0 ≤ w ∧ w ≤ 2 ^ (510 : ℤ) ∧ |w - knockInValue (ty = .call) K B d n x| ≤ valueError a K (x (n - 1)) := by
  have hl : (((List.range n).map p).map fun x : ℝ => (.num x : Dbl .binary64)).length = n := by simp
  have hs := MC.scan_knockIn (OptionModel.barrierTouched (.num B) d) (((List.range n).map p).map fun x : ℝ => (.num x : Dbl .binary64)) (by rw [hl]; exact hI)
  rw [hl] at hs
  have hl1 : n - 1 < n := by omega
  obtain ⟨w, w1, w2, w3, w4⟩ := vanilla_pays (K := K) ty (hx _ hl1).1 (hx _ hl1).2 hK (h _ hl1).2 ha
  have he : 0 ≤ valueError a K (x (n - 1)) := (abs_nonneg _).trans w4
  unfold MC.barrierPath
  have e : OptionModel.knockInIsActive (.num B) d = OptionModel.barrierTouched (.num B : Dbl .binary64) d := rfl
  rw [e, hs, Res.bind_ok, path_last hn, Res.bind_ok]
  unfold knockInValue
  by_cases hC : Crossed B d n x
  · rw [(any_touched d h hc).mpr hC, if_pos hC]
    exact ⟨w, w1, w2, w3, w4⟩
  · have : (((List.range n).map p).map fun x : ℝ => (.num x : Dbl .binary64)).any (OptionModel.barrierTouched (.num B) d) = false := by
      rw [← Bool.not_eq_true, any_touched d h hc]; exact hC
    rw [this, if_neg hC]
    exact ⟨0, congrArg Res.ok Dbl.lit_zero, le_rfl, by positivity, by simpa using he⟩

theorem knockOut_pays (hn : 0 < n) (hI : n ≤ INT_MAX) {K B : ℝ} (d : BarrierDirection) (ty : PayoffType) (hK : |K| ≤ 2 ^ (500 : ℤ)) (ha : a ≤ 1)
    (hx : Range300 n x) (h : CloseBy a n p x) (hc : ClearOf B a n x) :
    ∃ w : ℝ, MC.barrierPath .knockOut (OptionModel.knockOutIsActive (.num B) d) (Payoff.vanilla ty (.num K)).eval1 n (((List.range n).map p).map fun x : ℝ => (.num x : Dbl .binary64)) =
      .ok (.num w) ∧ 0 ≤ w ∧ w ≤ 2 ^ (510 : ℤ) ∧ |w - knockOutValue (ty = .call) K B d n x| ≤ valueError a K (x (n - 1)) := by
  have hl : (((List.range n).map p).map fun x : ℝ => (.num x : Dbl .binary64)).length = n := by simp
  have hs := MC.scan_knockOut (OptionModel.knockOutIsActive (.num B) d) (((List.range n).map p).map fun x : ℝ => (.num x : Dbl .binary64)) n 0 (by omega) (by omega)
  have e : (fun y => !(OptionModel.knockOutIsActive (.num B) d y)) = OptionModel.barrierTouched (.num B : Dbl .binary64) d := by
    funext y
    exact Bool.not_not _
  rw [e, List.drop_zero] at hs
  have hl1 : n - 1 < n := by omega
  obtain ⟨w, w1, w2, w3, w4⟩ := vanilla_pays (K := K) ty (hx _ hl1).1 (hx _ hl1).2 hK (h _ hl1).2 ha
  have he : 0 ≤ valueError a K (x (n - 1)) := (abs_nonneg _).trans w4
  unfold MC.barrierPath
  rw [hs, Res.bind_ok, path_last hn, Res.bind_ok]
  unfold knockOutValue
  by_cases hC : Crossed B d n x
  · rw [(any_touched d h hc).mpr hC, if_pos hC]
    exact ⟨0, congrArg Res.ok Dbl.lit_zero, le_rfl, by positivity, by simpa using he⟩
  · have : (((List.range n).map p).map fun x : ℝ => (.num x : Dbl .binary64)).any (OptionModel.barrierTouched (.num B) d) = false := by
      rw [← Bool.not_eq_true, any_touched d h hc]; exact hC
    rw [this, if_neg hC]
    exact ⟨w, w1, w2, w3, w4⟩

/-! ## Digital options -/

theorem lit_one_dbl : (lit 1 : Dbl .binary64) = .num ((1 : ℝ) : EReal) := Dbl.lit_one

theorem digital_pays {K v X b : ℝ} (ty : PayoffType) (h : |v - X| ≤ b * X) (hc : b * X < |X - K|) :
    ∃ w : ℝ, (Payoff.digital ty (.num K) : Payoff (Dbl .binary64)).eval1 (.num v) = .ok (.num w) ∧ 0 ≤ w ∧ w ≤ 2 ^ (510 : ℤ) ∧
      |w - digitalValue (ty = .call) K X| ≤ 0 := by
  obtain ⟨h1, h2⟩ := abs_le.mp h
  have hbig : (1 : ℝ) ≤ 2 ^ (510 : ℤ) := one_le_zpow₀ (by norm_num) (by norm_num)
  have key : ∀ (c : Bool) (P : Prop) [Decidable P], (c = true ↔ P) → ∃ w : ℝ, (if c = true then lit 1 else lit 0 : Dbl .binary64) = .num w ∧ 0 ≤ w ∧ w ≤ 2 ^ (510 : ℤ) ∧
      |w - if P then 1 else 0| ≤ 0 := by
    intro c P _ hP
    by_cases hp : P
    · rw [if_pos (hP.mpr hp), if_pos hp]
      exact ⟨1, lit_one_dbl, by norm_num, hbig, by simp⟩
    · rw [if_neg (fun h => hp (hP.mp h)), if_neg hp]
      exact ⟨0, Dbl.lit_zero, le_rfl, by linarith, by simp⟩
  unfold digitalValue Payoff.eval1
  by_cases hcall : ty = .call
  · obtain ⟨w, w1, w2⟩ := key (Fl.gt (.num v : Dbl .binary64) (.num K)) (K < X) (by
      rw [Fl.gt, Dbl.lt_num, EReal.coe_lt_coe_iff]
      rcases lt_abs.mp hc with h3 | h3 <;> constructor <;> intro <;> linarith)
    refine ⟨w, ?_, by rw [if_pos hcall]; exact w2⟩
    simp only [if_pos hcall]
    exact congrArg Res.ok w1
  · obtain ⟨w, w1, w2⟩ := key (Fl.gt (.num K : Dbl .binary64) (.num v)) (X < K) (by
      rw [Fl.gt, Dbl.lt_num, EReal.coe_lt_coe_iff]
      rcases lt_abs.mp hc with h3 | h3 <;> constructor <;> intro <;> linarith)
    refine ⟨w, ?_, by rw [if_neg hcall]; exact w2⟩
    simp only [if_neg hcall]
    exact congrArg Res.ok w1

theorem doubleDigital_pays {L U v X b : ℝ} (h : |v - X| ≤ b * X) (hL : b * X < |X - L|) (hU : b * X < |X - U|) :
    ∃ w : ℝ, (Payoff.doubleDigital (.num L) (.num U) : Payoff (Dbl .binary64)).eval1 (.num v) = .ok (.num w) ∧ 0 ≤ w ∧ w ≤ 2 ^ (510 : ℤ) ∧
      |w - doubleDigitalValue L U X| ≤ 0 := by
  obtain ⟨h1, h2⟩ := abs_le.mp h
  have hbig : (1 : ℝ) ≤ 2 ^ (510 : ℤ) := one_le_zpow₀ (by norm_num) (by norm_num)
  have e : (Fl.le (.num L : Dbl .binary64) (.num v) && Fl.le (.num v : Dbl .binary64) (.num U)) = true ↔ (L ≤ X ∧ X ≤ U) := by
    rw [Bool.and_eq_true, Dbl.le_num, Dbl.le_num, EReal.coe_le_coe_iff, EReal.coe_le_coe_iff]
    rcases lt_abs.mp hL with h3 | h3 <;> rcases lt_abs.mp hU with h4 | h4 <;> constructor <;> rintro ⟨_, _⟩ <;> constructor <;> linarith
  unfold doubleDigitalValue Payoff.eval1
  by_cases hp : L ≤ X ∧ X ≤ U
  · refine ⟨1, ?_, by norm_num, hbig, by rw [if_pos hp]; simp⟩
    simp only [if_pos (e.mpr hp)]
    exact congrArg Res.ok lit_one_dbl
  · refine ⟨0, ?_, le_rfl, by linarith, by rw [if_neg hp]; simp⟩
    simp only [if_neg (fun h => hp (e.mp h))]
    exact congrArg Res.ok Dbl.lit_zero

end
end Verif
