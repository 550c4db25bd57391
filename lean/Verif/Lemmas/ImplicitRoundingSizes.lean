import Verif.Lemmas.ImplicitRoundingPrice
import Verif.Props.FdmDoublePrice
import Verif.Spec.ImplicitDoubleSpec

/-!
# Implicit Euler prices of calls and puts in double precision
-/

set_option exponentiation.threshold 3000

namespace Verif
open Spec

namespace Fdm

section
variable {o : OptObj (Dbl .binary64)} {m : Market (Dbl .binary64)} {d : StockData (Dbl .binary64)} {σ r c K S T X : ℝ} {J N : ℕ}

/-- The rounding errors of the whole run, added up. -/
theorem implicit_total (G : ModerateImplicit σ r c K S T X J N) {n : ℕ} (hn : n ≤ N) {e : ℝ} (he : e ≤ N * (X + K) / 2 ^ 36) :
    (n : ℝ) * ((1 + T / (N - 1) * (σ ^ 2 * (J : ℝ) ^ 2 + r)) * (2 * (4 * (X + K))) / 2 ^ 41) + e ≤ 4 * (X + K) ∧
    2 * ((n : ℝ) * ((1 + T / (N - 1) * (σ ^ 2 * (J : ℝ) ^ 2 + r)) * (2 * (4 * (X + K))) / 2 ^ 41) + e) + 2 ^ (-45 : ℤ) * (J * (4 * (X + K))) ≤ implicitRounding σ r K T X J N := by
  obtain ⟨m1, m2, m3⟩ := grid_M G.toGridSizes
  obtain ⟨k1, k2, k3⟩ := grid_k G.toGridSizes
  have m0 : 0 < X + K := lt_of_lt_of_le (by positivity) m1
  have hN2 : (N : ℝ) ≤ 2 ^ 20 := by exact_mod_cast G.levels.2
  have hN1 : (2 : ℝ) ≤ N := by exact_mod_cast G.levels.1
  have hnN : (n : ℝ) ≤ N := by exact_mod_cast hn
  have hn0 : (0 : ℝ) ≤ n := Nat.cast_nonneg n
  have hr0 := G.rate.1
  have hQ : 0 ≤ σ ^ 2 * (J : ℝ) ^ 2 + r := by positivity
  have hNk : ((N : ℝ) - 1) * (T / ((N : ℝ) - 1)) = T := by
    have : (N : ℝ) - 1 ≠ 0 := by linarith
    field_simp
  have hl := G.load
  rw [implicitRounding, show (2 : ℝ) ^ (-45 : ℤ) * (J * (4 * (X + K))) = 1 / 2 ^ 45 * (J * (4 * (X + K))) by norm_num]
  clear m3 m1
  generalize T / ((N : ℝ) - 1) = k at *
  generalize σ ^ 2 * (J : ℝ) ^ 2 + r = Q at *
  have hP : 0 ≤ k * Q := by positivity
  have s1 : (n : ℝ) * (1 + k * Q) ≤ 2 ^ 37 := by
    calc (n : ℝ) * (1 + k * Q) ≤ 2 ^ 20 * (1 + 2 ^ 16) := by gcongr; exact hnN.trans hN2
      _ ≤ 2 ^ 37 := by norm_num
  have s2 : (n : ℝ) * (1 + k * Q) ≤ N + 2 * (T * Q) := by
    calc (n : ℝ) * (1 + k * Q) ≤ N * (1 + k * Q) := by gcongr
      _ = N + N * k * Q := by ring
      _ ≤ N + 2 * T * Q := by
        have := mul_le_mul_of_nonneg_right (by linarith : (N : ℝ) ≤ 2 * (N - 1)) k1.le
        have := mul_le_mul_of_nonneg_right (by linarith : N * k ≤ 2 * T) hQ
        linarith
      _ = N + 2 * (T * Q) := by ring
  have e1 : (n : ℝ) * ((1 + k * Q) * (2 * (4 * (X + K))) / 2 ^ 41) = n * (1 + k * Q) * (X + K) / 2 ^ 38 := by ring
  have s3 := mul_le_mul_of_nonneg_right s1 m0.le
  have s4 := mul_le_mul_of_nonneg_right s2 m0.le
  have s5 : (N : ℝ) * (X + K) ≤ 2 ^ 20 * (X + K) := mul_le_mul_of_nonneg_right hN2 m0.le
  have s6 : 0 ≤ (N : ℝ) * (X + K) := by positivity
  have s7 : 0 ≤ (J : ℝ) * (X + K) := by positivity
  have s8 : 0 ≤ T * Q * (X + K) := by positivity
  rw [e1]
  constructor <;> linarith

/-- The discount factor, as computed. -/
theorem discount_late (hrk : r * (T / ((N : ℝ) - 1)) ≤ 1) (G : GridSizes σ r c K S T X J N) {dt : Dbl .binary64} (hdt : Nr 0 1 (T / ((N : ℝ) - 1)) dt (T / ((N : ℝ) - 1))) {i : ℕ} (hi : i ≤ N) :
    ∃ y : ℝ, Fl.exp (-.num r * (.num T - times dt i)) = .num y ∧ |y - Real.exp (-r * (T - i * (T / ((N : ℝ) - 1))))| ≤ N / 2 ^ 38 ∧
      -r * (T - i * (T / ((N : ℝ) - 1))) ≤ 1 := by
  obtain ⟨k1, k2, k3⟩ := grid_k G
  obtain ⟨t, et, ht⟩ := times_error G hdt hi
  have hN2 : (N : ℝ) ≤ 2 ^ 20 := by exact_mod_cast G.levels.2
  have hN1 : (2 : ℝ) ≤ N := by exact_mod_cast G.levels.1
  have hNk : ((N : ℝ) - 1) * (T / ((N : ℝ) - 1)) = T := by
    have : (N : ℝ) - 1 ≠ 0 := by linarith
    field_simp
  have hr0 := G.rate.1
  have hrT := G.discount
  have hi1 : (i : ℝ) ≤ N := by exact_mod_cast hi
  have hik : (i : ℝ) * (T / ((N : ℝ) - 1)) ≤ T + T / ((N : ℝ) - 1) := by
    have := mul_le_mul_of_nonneg_right hi1 k1.le
    linarith
  have hi0 : 0 ≤ (i : ℝ) * (T / ((N : ℝ) - 1)) := by positivity
  generalize (i : ℝ) * (T / ((N : ℝ) - 1)) = τ at *
  generalize T / ((N : ℝ) - 1) = k at *
  have tiny : (2 : ℝ) ^ (-165 : ℤ) ≤ T / 2 ^ 100 := by
    rw [le_div_iff₀ (by norm_num)]
    exact le_trans (by norm_num) G.maturity.1
  have ht' : |t - τ| ≤ N * (T / 2 ^ 49) := by
    refine ht.trans ?_
    have := mul_le_mul_of_nonneg_right hi1 (by positivity : 0 ≤ T / 2 ^ 49)
    linarith
  have hNT : N * (T / 2 ^ 49) ≤ T / 2 ^ 29 := by
    have := mul_le_mul_of_nonneg_right hN2 (by positivity : 0 ≤ T / 2 ^ 49)
    linarith
  obtain ⟨a1, a2⟩ := abs_le.mp ht'
  -- the subtraction
  have sz : |T - t| ≤ 2 * T := by
    rw [abs_le]
    constructor <;> linarith
  obtain ⟨w, ew, hw⟩ := (Nr.rnd (x := T - t) (sz.trans ((by linarith [G.maturity.2] : 2 * T ≤ 2 * 2 ^ 10).trans (by norm_num)))).error (by omega) (by norm_num)
  have hw' : |w - (T - τ)| ≤ N * (T / 2 ^ 48) := by
    have h1 : |w - (T - t)| ≤ 2 * T / 2 ^ 52 + T / 2 ^ 100 := by
      refine hw.trans (add_le_add ?_ tiny)
      rw [show 2 * ((1 : ℕ) : ℝ) * (2 : ℝ) ^ (-53 : ℤ) * |T - t| = |T - t| / 2 ^ 52 by norm_num; ring]
      exact div_le_div_of_nonneg_right sz (by norm_num)
    have e : w - (T - τ) = (w - (T - t)) - (t - τ) := by ring
    rw [e]
    refine (abs_sub _ _).trans ?_
    have := mul_le_mul_of_nonneg_right hN1 (by positivity : 0 ≤ T / 2 ^ 49)
    linarith
  -- the product
  have hrw : |r * w - r * (T - τ)| ≤ N / 2 ^ 42 := by
    rw [← mul_sub, abs_mul, abs_of_nonneg hr0]
    calc r * |w - (T - τ)| ≤ r * (N * (T / 2 ^ 48)) := mul_le_mul_of_nonneg_left hw' hr0
      _ = r * T * (N / 2 ^ 48) := by ring
      _ ≤ 64 * (N / 2 ^ 48) := mul_le_mul_of_nonneg_right hrT (by positivity)
      _ = N / 2 ^ 42 := by ring
  have hrt0 : -1 ≤ r * (T - τ) := by
    have := mul_le_mul_of_nonneg_left (by linarith : -k ≤ T - τ) hr0
    linarith
  have hrt1 : r * (T - τ) ≤ 64 := le_trans (mul_le_mul_of_nonneg_left (by linarith) hr0) hrT
  have hNs : (N : ℝ) / 2 ^ 42 ≤ 1 / 2 ^ 22 := by linarith
  obtain ⟨c1, c2⟩ := abs_le.mp (hrw.trans hNs)
  have sz2 : |-r * w| ≤ 65 := by
    rw [neg_mul, abs_neg, abs_le]
    constructor <;> linarith
  obtain ⟨a, ea, ha⟩ := (Nr.rnd (x := -r * w) (sz2.trans (by norm_num))).error (by omega) (by norm_num)
  have ha' : |a - -r * (T - τ)| ≤ N / 2 ^ 41 - 1 / 2 ^ 44 := by
    have h1 : |a - -r * w| ≤ 65 / 2 ^ 52 + 1 / 2 ^ 100 := by
      refine ha.trans (add_le_add ?_ (by norm_num))
      rw [show 2 * ((1 : ℕ) : ℝ) * (2 : ℝ) ^ (-53 : ℤ) * |-r * w| = |-r * w| / 2 ^ 52 by norm_num; ring]
      exact div_le_div_of_nonneg_right sz2 (by norm_num)
    have e : a - -r * (T - τ) = (a - -r * w) - (r * w - r * (T - τ)) := by ring
    rw [e]
    refine (abs_sub _ _).trans ?_
    norm_num at h1 hrw ⊢
    linarith
  have hN41 : (N : ℝ) / 2 ^ 41 ≤ 1 / 2 ^ 21 := by linarith
  have ha1 : |a - -r * (T - τ)| ≤ 1 := ha'.trans (by norm_num at *; linarith)
  obtain ⟨d1, d2⟩ := abs_le.mp ha1
  obtain ⟨y, ey, hy⟩ := binary64_doubleAccurate.exp a (by
    rw [abs_le]
    constructor <;> linarith)
  refine ⟨y, ?_, ?_, by linarith⟩
  · have en : (-.num (r : EReal) : Dbl .binary64) = .num ((-r : ℝ) : EReal) := by rw [EReal.coe_neg]; rfl
    rw [et, Dbl.sub_coe, ew, en, Dbl.mul_coe, ea, Dbl.exp_coe, ey]
  · have hb0 : -r * (T - τ) ≤ 1 := by linarith
    generalize -r * (T - τ) = b at *
    clear hw ha ht tiny
    have E1 : Real.exp b ≤ 3 := (Real.exp_le_exp.mpr hb0).trans (Real.exp_one_lt_d9.le.trans (by norm_num))
    have E0 := Real.exp_pos b
    have ediff : |Real.exp a - Real.exp b| ≤ 6 * (N / 2 ^ 41 - 1 / 2 ^ 44) := by
      have e : Real.exp a - Real.exp b = Real.exp b * (Real.exp (a - b) - 1) := by
        rw [mul_sub, ← Real.exp_add, mul_one, add_sub_cancel]
      rw [e, abs_mul, abs_of_pos E0]
      have := Real.abs_exp_sub_one_le ha1
      calc Real.exp b * |Real.exp (a - b) - 1| ≤ 3 * (2 * |a - b|) :=
            mul_le_mul E1 this (abs_nonneg _) (by norm_num)
        _ ≤ 6 * (N / 2 ^ 41 - 1 / 2 ^ 44) := by linarith
    have ea2 : Real.exp a ≤ 9 := by
      have h1 := (abs_le.mp ediff).2
      have h2 : (N : ℝ) / 2 ^ 41 ≤ 1 := hN41.trans (by norm_num)
      have h3 : (0 : ℝ) ≤ 1 / 2 ^ 44 := by positivity
      linarith only [h1, h2, h3, E1]
    have h1 : |y - Real.exp a| ≤ 9 / 2 ^ 52 := by
      refine hy.trans ?_
      rw [show (2 : ℝ) ^ (-52 : ℤ) = 1 / 2 ^ 52 by norm_num]
      linarith only [ea2]
    have h2 := abs_sub_le y (Real.exp a) (Real.exp b)
    linarith only [h1, h2, ediff, hN1]

/-- The right boundary value of a call, as computed. -/
theorem right_late (hrk : r * (T / ((N : ℝ) - 1)) ≤ 1) (G : GridSizes σ r c K S T X J N) {dt x : Dbl .binary64} (hdt : Nr 0 1 (T / ((N : ℝ) - 1)) dt (T / ((N : ℝ) - 1))) (hx : Nr 1 2 X x X) {i : ℕ}
    (hi : i ≤ N) : ∃ y : ℝ, x - .num K * Fl.exp (-.num r * (.num T - times dt i)) = .num y ∧
      |y - (X - K * Real.exp (-r * (T - i * (T / ((N : ℝ) - 1)))))| ≤ N * (X + K) / 2 ^ 36 ∧ |X - K * Real.exp (-r * (T - i * (T / ((N : ℝ) - 1))))| ≤ X + 3 * K := by
  obtain ⟨y, ey, hy, h0⟩ := discount_late hrk G hdt hi
  obtain ⟨m1, m2, m3⟩ := grid_M G
  have hK := G.strike.1
  have hX : 0 < X := lt_of_lt_of_le (by norm_num) G.width.1
  have hN2 : (N : ℝ) ≤ 2 ^ 20 := by exact_mod_cast G.levels.2
  have hN1 : (2 : ℝ) ≤ N := by exact_mod_cast G.levels.1
  have E1 : Real.exp (-r * (T - i * (T / ((N : ℝ) - 1)))) ≤ 3 := (Real.exp_le_exp.mpr h0).trans (Real.exp_one_lt_d9.le.trans (by norm_num))
  have E0 := Real.exp_pos (-r * (T - i * (T / ((N : ℝ) - 1))))
  rw [ey]
  generalize Real.exp (-r * (T - i * (T / ((N : ℝ) - 1)))) = b at *
  have hKb0 : 0 ≤ K * b := by positivity
  have hKb1 : K * b ≤ 3 * K := by
    have := mul_le_mul_of_nonneg_left E1 hK.le
    linarith
  have hKy : |K * y - K * b| ≤ K * (N / 2 ^ 38) := by
    rw [← mul_sub, abs_mul, abs_of_pos hK]
    exact mul_le_mul_of_nonneg_left hy hK.le
  have hKN : K * (N / 2 ^ 38) ≤ K / 2 ^ 18 := by
    have := mul_le_mul_of_nonneg_left (by linarith : (N : ℝ) / 2 ^ 38 ≤ 1 / 2 ^ 18) hK.le
    linarith
  obtain ⟨a1, a2⟩ := abs_le.mp (hKy.trans hKN)
  have sz1 : |K * y| ≤ 4 * K := by rw [abs_le]; constructor <;> linarith
  obtain ⟨p, ep, hp⟩ := (Nr.rnd (x := K * y) (sz1.trans ((by linarith : 4 * K ≤ 4 * (X + K)).trans ((by linarith : 4 * (X + K) ≤ 4 * 2 ^ 20).trans (by norm_num))))).error (by omega) (by norm_num)
  have hp' : |p - K * y| ≤ 4 * K / 2 ^ 52 + (X + K) / 2 ^ 100 := by
    refine hp.trans (add_le_add ?_ m3)
    rw [show 2 * ((1 : ℕ) : ℝ) * (2 : ℝ) ^ (-53 : ℤ) * |K * y| = |K * y| / 2 ^ 52 by norm_num; ring]
    exact div_le_div_of_nonneg_right sz1 (by norm_num)
  obtain ⟨z, ez, hz⟩ := hx.error (by omega) (by norm_num)
  have hz' : |z - X| ≤ X / 2 ^ 51 + (X + K) / 2 ^ 100 := by
    refine hz.trans (add_le_add (le_of_eq ?_) m3)
    norm_num
    ring
  clear hp hz
  obtain ⟨b1, b2⟩ := abs_le.mp hp'
  obtain ⟨c1, c2⟩ := abs_le.mp hz'
  have sz2 : |z - p| ≤ 5 * (X + K) := by rw [abs_le]; constructor <;> linarith
  obtain ⟨w, ew, hw⟩ := (Nr.rnd (x := z - p) (sz2.trans ((by linarith : 5 * (X + K) ≤ 5 * 2 ^ 20).trans (by norm_num)))).error (by omega) (by norm_num)
  have hw' : |w - (z - p)| ≤ 5 * (X + K) / 2 ^ 52 + (X + K) / 2 ^ 100 := by
    refine hw.trans (add_le_add ?_ m3)
    rw [show 2 * ((1 : ℕ) : ℝ) * (2 : ℝ) ^ (-53 : ℤ) * |z - p| = |z - p| / 2 ^ 52 by norm_num; ring]
    exact div_le_div_of_nonneg_right sz2 (by norm_num)
  clear hw m3
  obtain ⟨d1, d2⟩ := abs_le.mp hw'
  obtain ⟨f1, f2⟩ := abs_le.mp hKy
  refine ⟨w, ?_, ?_, ?_⟩
  · rw [Dbl.mul_coe, ep, ez, Dbl.sub_coe, ew]
  · have n1 := mul_le_mul_of_nonneg_right hN1 (by linarith : 0 ≤ X + K)
    have n2 : K * (N / 2 ^ 38) ≤ N * (X + K) / 2 ^ 38 := by
      have := mul_nonneg (by linarith : (0 : ℝ) ≤ N) hX.le
      linarith
    rw [abs_le]
    constructor <;> linarith
  · rw [abs_le]
    constructor <;> linarith

variable (hd : BlackScholes.stock o m = .ok d) (hp' : d.price = .num S) (hσ' : d.sigma = .num σ) (hr' : m.r = .num r) (hc' : d.coupon.getD (lit 0) = .num c)

include hd hσ' hr' hc' in
/-- Puts. -/
theorem implicit_put_rounding (ho : o.payoff = .vanilla .put (.num K)) (G : ModerateImplicit σ r c K S T X J N) (junk : ℕ → Dbl .binary64) :
    ∃ s, construct (.implicit thomas) (.num X) J (.num T) N (BlackScholes.pde o m) junk = .ok s ∧ ∃ n, (n = N - 1 ∨ n = N) ∧
      ∀ fuel, N < fuel → ∀ p, Describes p (putProblem σ r c K) → ∀ (junk' : ℕ → ℝ) (s' : Fdm ℝ),
        construct (.implicit thomas) X J (n * (T / (N - 1))) (n + 1) p junk' = .ok s' → ∀ fuel', n + 1 ≤ fuel' → ∃ y y' : ℝ,
          (calculatePrice (.implicit thomas) .linear (BlackScholes.pde o m) (.ok (.num S)) fuel s).1 = .ok (.num y) ∧
          (calculatePrice (.implicit thomas) .linear p (.ok S) fuel' s').1 = .ok y' ∧ |y - y'| ≤ implicitRounding σ r K T X J N := by
  obtain ⟨h1, h2, h3, h4⟩ := grid_h G.toGridSizes
  obtain ⟨k1, k2, k3⟩ := grid_k G.toGridSizes
  obtain ⟨m1, m2, m3⟩ := grid_M G.toGridSizes
  have hK := G.strike.1
  have hX : 0 < X := lt_of_lt_of_le (by norm_num) G.width.1
  have hN1 := G.levels.1
  obtain ⟨s, v, hs, hg, ht, hsol, hold, hv⟩ := construct_double (o := o) (m := m) G.toGridSizes (.implicit thomas) junk (w := fun j => max (K - j * (X / ((J : ℝ) - 1))) 0)
    (e := (X + K) / 2 ^ 49) (fun j hj x hx => by
      obtain ⟨v, e, hv⟩ := (payoff_double G.toGridSizes hj hx).1
      exact ⟨v, by simp [BlackScholes.pde, Payoff.eval1, ho, e, -Dbl.lit_zero], hv⟩)
  obtain ⟨n, hn, hloop⟩ := steps_moderate G.toGridSizes hs
  have hn0 : 0 < n := by omega
  have hnr : (0 : ℝ) < n := by exact_mod_cast hn0
  obtain ⟨t1, t2⟩ := implicit_total G (n := n) (e := (X + K) / 2 ^ 49) (by omega) (by
    have : (1 : ℝ) ≤ N := by exact_mod_cast (by omega : 1 ≤ N)
    have := le_mul_of_one_le_left (by linarith : 0 ≤ X + K) this
    linarith)
  refine ⟨s, hs, n, hn, fun fuel hf p hp junk' s' hs' fuel' hf' => ?_⟩
  obtain ⟨y, y', e1, e2, e3⟩ := implicitPrice_double hd hσ' hr' hc' k1 G.rate.1 G.drift le_rfl G.load (by rw [abs_of_pos G.vol.1]; exact G.vol.2) G.rate.2
    (k2.trans G.maturity.2) h1 h2 G.inner G.nodes.2 hg ht hsol hold hp put_coefficients (put_dominates G.drift G.rate.1 J h3.le) (X := X) (T := n * (T / (N - 1))) (M := 4 * (X + K)) (e := (X + K) / 2 ^ 49) (S := S) hn0 rfl
    (by push_cast; rw [add_sub_cancel_right, mul_div_cancel_left₀ _ hnr.ne']) (m1.trans (by linarith)) ((by linarith : 4 * (X + K) ≤ 4 * 2 ^ 20).trans (by norm_num)) t1 hv
    (fun j hj => by
      change |max (K - _) 0| ≤ _
      rw [abs_of_nonneg (le_max_right _ _)]
      exact max_le (by have : (0 : ℝ) ≤ j * (X / ((J : ℝ) - 1)) := by positivity
                       linarith) (by linarith))
    (fun i _ => ⟨K, by simp [BlackScholes.pde, BlackScholes.boundaryLeft, BlackScholes.strike, Payoff.clone, Payoff.payoffType, ho], by
      change |K - K| ≤ _
      rw [sub_self, abs_zero]
      positivity⟩)
    (fun i _ => by
      change |K| ≤ _
      rw [abs_of_pos hK]
      linarith)
    (fun i _ => ⟨0, by simp [BlackScholes.pde, BlackScholes.boundaryRight, BlackScholes.strike, Payoff.clone, Payoff.payoffType, ho], by
      change |(0 : ℝ) - 0| ≤ _
      rw [sub_self, abs_zero]
      positivity⟩)
    (fun i _ => by
      change |(0 : ℝ)| ≤ _
      rw [abs_zero]
      linarith)
    (hloop fuel hf) (by linarith [G.spot.1]) G.spot.2 hs' hf'
  exact ⟨y, y', e1, e2, e3.trans t2⟩

include hd hσ' hr' hc' in
/-- Calls. -/
theorem implicit_call_rounding (ho : o.payoff = .vanilla .call (.num K)) (hT' : o.T = .num T) (hrk : r * (T / ((N : ℝ) - 1)) ≤ 1) (G : ModerateImplicit σ r c K S T X J N) (junk : ℕ → Dbl .binary64) :
    ∃ s, construct (.implicit thomas) (.num X) J (.num T) N (BlackScholes.pde o m) junk = .ok s ∧ ∃ n, (n = N - 1 ∨ n = N) ∧
      ∀ fuel, N < fuel → ∀ p, Describes p (callProblem σ r c K T) → ∀ (junk' : ℕ → ℝ) (s' : Fdm ℝ),
        construct (.implicit thomas) X J (n * (T / (N - 1))) (n + 1) p junk' = .ok s' → ∀ fuel', n + 1 ≤ fuel' → ∃ y y' : ℝ,
          (calculatePrice (.implicit thomas) .linear (BlackScholes.pde o m) (.ok (.num S)) fuel s).1 = .ok (.num y) ∧
          (calculatePrice (.implicit thomas) .linear p (.ok S) fuel' s').1 = .ok y' ∧ |y - y'| ≤ implicitRounding σ r K T X J N := by
  obtain ⟨h1, h2, h3, h4⟩ := grid_h G.toGridSizes
  obtain ⟨k1, k2, k3⟩ := grid_k G.toGridSizes
  obtain ⟨m1, m2, m3⟩ := grid_M G.toGridSizes
  have hK := G.strike.1
  have hX : 0 < X := lt_of_lt_of_le (by norm_num) G.width.1
  have hN1 := G.levels.1
  have hN1' : (1 : ℝ) ≤ N := by exact_mod_cast (by omega : 1 ≤ N)
  have he : (X + K) / 2 ^ 49 ≤ N * (X + K) / 2 ^ 36 := by
    have := le_mul_of_one_le_left (by linarith : 0 ≤ X + K) hN1'
    linarith
  obtain ⟨s, v, hs, hg, ht, hsol, hold, hv⟩ := construct_double (o := o) (m := m) G.toGridSizes (.implicit thomas) junk (w := fun j => max (j * (X / ((J : ℝ) - 1)) - K) 0)
    (e := N * (X + K) / 2 ^ 36) (fun j hj x hx => by
      obtain ⟨v, e, hv⟩ := (payoff_double G.toGridSizes hj hx).2
      exact ⟨v, by simp [BlackScholes.pde, Payoff.eval1, ho, e, -Dbl.lit_zero], hv.trans he⟩)
  obtain ⟨n, hn, hloop⟩ := steps_moderate G.toGridSizes hs
  have hn0 : 0 < n := by omega
  have hnr : (0 : ℝ) < n := by exact_mod_cast hn0
  obtain ⟨t1, t2⟩ := implicit_total G (n := n) (e := N * (X + K) / 2 ^ 36) (by omega) le_rfl
  have hpos : 0 ≤ N * (X + K) / 2 ^ 36 := le_trans (by positivity) he
  have hlast := node_double h1 h2 G.nodes.2 hg.dx (j := J - 1) (by have := G.nodes.1; omega)
  rw [grid_last G.toGridSizes] at hlast
  refine ⟨s, hs, n, hn, fun fuel hf p hp junk' s' hs' fuel' hf' => ?_⟩
  have q1 : ∀ x, (callProblem σ r c K T).initial x = max (x - K) 0 := fun _ => rfl
  have q2 : ∀ t, (callProblem σ r c K T).left t 0 = 0 := fun _ => rfl
  have q3 : ∀ t, (callProblem σ r c K T).right t X = X - K * Real.exp (-r * (T - t)) := fun _ => rfl
  have hτ : ∀ i : ℕ, (i : ℝ) * (T / ((N : ℝ) - 1)) + T / ((N : ℝ) - 1) = ((i + 1 : ℕ) : ℝ) * (T / ((N : ℝ) - 1)) := fun i => by push_cast; ring
  obtain ⟨y, y', e1, e2, e3⟩ := implicitPrice_double hd hσ' hr' hc' k1 G.rate.1 G.drift le_rfl G.load (by rw [abs_of_pos G.vol.1]; exact G.vol.2) G.rate.2
    (k2.trans G.maturity.2) h1 h2 G.inner G.nodes.2 hg ht hsol hold hp call_coefficients (call_dominates G.drift G.rate.1 J h3.le) (X := X) (T := n * (T / (N - 1))) (M := 4 * (X + K)) (e := N * (X + K) / 2 ^ 36) (S := S) hn0 rfl
    (by push_cast; rw [add_sub_cancel_right, mul_div_cancel_left₀ _ hnr.ne']) (m1.trans (by linarith)) ((by linarith : 4 * (X + K) ≤ 4 * 2 ^ 20).trans (by norm_num)) t1 (fun j hj => by rw [q1]; exact hv j hj)
    (fun j hj => by
      rw [q1, abs_of_nonneg (le_max_right _ _)]
      exact max_le (by have := h4 j hj
                       linarith) (by linarith))
    (fun i _ => ⟨0, by simp [BlackScholes.pde, BlackScholes.boundaryLeft, BlackScholes.strike, Payoff.clone, Payoff.payoffType, ho], by
      rw [q2, sub_self, abs_zero]
      exact hpos⟩)
    (fun i _ => by
      rw [q2, abs_zero]
      linarith)
    (fun i hi => by
      obtain ⟨y, e, hy, -⟩ := right_late hrk G.toGridSizes hg.dt hlast (i := i + 1) (by omega)
      refine ⟨y, ?_, by rw [q3, hτ]; exact hy⟩
      rw [← e]
      simp [BlackScholes.pde, BlackScholes.boundaryRight, BlackScholes.strike, Payoff.clone, Payoff.payoffType, ho, hr', hT'])
    (fun i hi => by
      rw [q3, hτ]
      exact (right_late hrk G.toGridSizes hg.dt hlast (i := i + 1) (by omega)).choose_spec.2.2.trans (by linarith))
    (hloop fuel hf) (by linarith [G.spot.1]) G.spot.2 hs' hf'
  exact ⟨y, y', e1, e2, e3.trans t2⟩

end

end Fdm
end Verif
