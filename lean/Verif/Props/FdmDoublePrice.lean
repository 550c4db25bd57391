import Verif.Lemmas.FdmRoundingPrice
import Verif.Spec.FdmDoubleSpec

/-!
# Property C85: finite difference prices of calls and puts in double precision
-/

set_option exponentiation.threshold 3000

namespace Verif
open Spec

namespace Fdm

theorem max_zero_double (y : ℝ) : Fl.max (.num (y : EReal)) (lit 0) = (.num ((max y 0 : ℝ) : EReal) : Dbl .binary64) := by
  rw [Dbl.lit_zero, Dbl.max_num]
  congr 1

theorem abs_max_zero_sub (a b : ℝ) : |max a 0 - max b 0| ≤ |a - b| := abs_max_sub_max_le_abs a b 0

section
variable {o : OptObj (Dbl .binary64)} {m : Market (Dbl .binary64)} {d : StockData (Dbl .binary64)} {σ r c K S T X : ℝ} {J N : ℕ}

/-- The step size in space. -/
theorem grid_h (G : GridSizes σ r c K S T X J N) : 2 ^ (-30 : ℤ) ≤ X / ((J : ℝ) - 1) ∧ J * (X / ((J : ℝ) - 1)) ≤ 2 ^ 20 ∧
    0 < X / ((J : ℝ) - 1) ∧ ∀ j < J, j * (X / ((J : ℝ) - 1)) ≤ X := by
  have hJ : (2 : ℝ) ≤ J := by exact_mod_cast G.nodes.1
  have hJ2 : (J : ℝ) ≤ 2 ^ 20 := by exact_mod_cast G.nodes.2
  have hJ1 : (0 : ℝ) < J - 1 := by linarith
  have hX : 0 < X := lt_of_lt_of_le (by norm_num) G.width.1
  refine ⟨?_, ?_, div_pos hX hJ1, fun j hj => ?_⟩
  · rw [le_div_iff₀ hJ1]
    calc (2 : ℝ) ^ (-30 : ℤ) * (J - 1) ≤ 2 ^ (-30 : ℤ) * 2 ^ 20 := by gcongr; linarith
      _ = 1 / 2 ^ 10 := by norm_num
      _ ≤ X := G.width.1
  · rw [mul_div_assoc', div_le_iff₀ hJ1]
    have := G.width.2
    nlinarith
  · rw [mul_div_assoc', div_le_iff₀ hJ1, mul_comm]
    have : (j : ℝ) + 1 ≤ J := by exact_mod_cast hj
    exact mul_le_mul_of_nonneg_left (by linarith) hX.le

/-- The step size in time. -/
theorem grid_k (G : GridSizes σ r c K S T X J N) : 0 < T / ((N : ℝ) - 1) ∧ T / ((N : ℝ) - 1) ≤ T ∧ 0 < T := by
  have hN : (2 : ℝ) ≤ N := by exact_mod_cast G.levels.1
  have hT : 0 < T := lt_of_lt_of_le (by norm_num) G.maturity.1
  exact ⟨div_pos hT (by linarith), div_le_self hT.le (by linarith), hT⟩

/-- What the constructor computes, for any property `P` of the payoffs at the computed nodes. -/
theorem construct_grid (G : GridSizes σ r c K S T X J N) (sc : Scheme (Dbl .binary64)) (junk : ℕ → Dbl .binary64) {P : ℕ → ℝ → Prop}
    (hv : ∀ j < J, ∀ x : Dbl .binary64, Nr 1 2 (j * (X / ((J : ℝ) - 1))) x (j * (X / ((J : ℝ) - 1))) →
      ∃ v : ℝ, (BlackScholes.pde o m).initialCondition x = .ok (.num v) ∧ P j v) :
    ∃ (s : Fdm (Dbl .binary64)) (v : ℕ → ℝ), construct sc (.num X) J (.num T) N (BlackScholes.pde o m) junk = .ok s ∧
      DoubleGrid J (X / ((J : ℝ) - 1)) (T / ((N : ℝ) - 1)) s ∧ s.tPrev = lit 0 ∧ s.solved = false ∧ s.oldPrices = vec J (fun j => .num (v j)) ∧
      ∀ j < J, P j (v j) := by
  obtain ⟨h1, h2, h3, h4⟩ := grid_h G
  obtain ⟨k1, k2, k3⟩ := grid_k G
  have hJn := G.nodes
  have hNn := G.levels
  have quot : ∀ (a : ℝ) (n : ℕ), 2 ≤ n → n ≤ 2 ^ 20 → 0 ≤ a → a ≤ 2 ^ 19 →
      Nr 0 1 (a / ((n : ℝ) - 1)) (.num a / lit (ulpred n : ℚ) : Dbl .binary64) (a / ((n : ℝ) - 1)) := by
    intro a n hn hn2 ha ha2
    have hr : (2 : ℝ) ≤ n := by exact_mod_cast hn
    have e : ((n - 1 : ℕ) : ℝ) = n - 1 := by rw [Nat.cast_sub (by omega)]; norm_num
    have b : |a / ((n : ℝ) - 1)| = a / ((n : ℝ) - 1) := abs_of_nonneg (div_nonneg ha (by linarith))
    have := Nr.rnd (x := a / ((n : ℝ) - 1)) (by
      rw [b]
      exact (div_le_self ha (by linarith)).trans (ha2.trans (by norm_num)))
    rw [b] at this
    rw [ulpred_pos (by omega), Dbl.lit_def]
    rw [show Rounding.binary64.rnd (((n - 1 : ℕ) : ℚ) : ℝ) = ((n - 1 : ℕ) : ℝ) by
      rw [Rat.cast_natCast]
      exact Binary64.rnd_natCast (by omega), Dbl.div_coe _ (by rw [e]; linarith), e]
    exact this
  have qx := quot X J hJn.1 hJn.2 (le_trans (by norm_num) G.width.1) G.width.2
  have qt := quot T N hNn.1 hNn.2 k3.le (G.maturity.2.trans (by norm_num))
  have key : ∀ j, ∃ v : ℝ, j < J → (BlackScholes.pde o m).initialCondition (lit (j : ℚ) * (.num X / lit (ulpred J : ℚ))) = .ok (.num v) ∧ P j v := by
    intro j
    by_cases hj : j < J
    · obtain ⟨v, a⟩ := hv j hj _ (node_double h1 h2 hJn.2 qx hj)
      exact ⟨v, fun _ => a⟩
    · exact ⟨0, fun h => absurd h hj⟩
  choose v hv using key
  have ev := each_vec (f := (BlackScholes.pde o m).initialCondition) (n := J) (g := fun j : ℕ => (lit (j : ℚ) : Dbl .binary64) * (.num X / lit (ulpred J : ℚ)))
    (w := fun j => .num (v j)) (fun i hi => (hv i hi).1)
  unfold construct constructBase
  dsimp only
  unfold vec at ev
  rw [ev]
  have hJ : ¬ (J < 2 ∨ INT_MAX < J - 2) := by
    unfold INT_MAX
    omega
  cases sc with
  | explicit => exact ⟨_, v, rfl, ⟨hJn.1, rfl, qx, rfl, qt, rfl, by simp⟩, rfl, rfl, rfl, fun j hj => (hv j hj).2⟩
  | implicit solver => exact ⟨_, v, if_neg hJ, ⟨hJn.1, rfl, qx, rfl, qt, rfl, by simp⟩, rfl, rfl, rfl, fun j hj => (hv j hj).2⟩
  | crankNicolson solver => exact ⟨_, v, if_neg hJ, ⟨hJn.1, rfl, qx, rfl, qt, rfl, by simp⟩, rfl, rfl, rfl, fun j hj => (hv j hj).2⟩

/-- What the constructor computes. -/
theorem construct_double (G : GridSizes σ r c K S T X J N) (sc : Scheme (Dbl .binary64)) (junk : ℕ → Dbl .binary64) {w : ℕ → ℝ} {e : ℝ}
    (hv : ∀ j < J, ∀ x : Dbl .binary64, Nr 1 2 (j * (X / ((J : ℝ) - 1))) x (j * (X / ((J : ℝ) - 1))) →
      ∃ v : ℝ, (BlackScholes.pde o m).initialCondition x = .ok (.num v) ∧ |v - w j| ≤ e) :
    ∃ (s : Fdm (Dbl .binary64)) (v : ℕ → ℝ), construct sc (.num X) J (.num T) N (BlackScholes.pde o m) junk = .ok s ∧
      DoubleGrid J (X / ((J : ℝ) - 1)) (T / ((N : ℝ) - 1)) s ∧ s.tPrev = lit 0 ∧ s.solved = false ∧ s.oldPrices = vec J (fun j => .num (v j)) ∧
      ∀ j < J, |v j - w j| ≤ e :=
  construct_grid G sc junk (P := fun j v => |v - w j| ≤ e) hv

/-- Nodes on the grid, and the last one. -/
theorem grid_last (G : GridSizes σ r c K S T X J N) : ((J - 1 : ℕ) : ℝ) * (X / ((J : ℝ) - 1)) = X := by
  have hJ : (2 : ℝ) ≤ J := by exact_mod_cast G.nodes.1
  have hJ1 : (J : ℝ) - 1 ≠ 0 := by linarith
  rw [Nat.cast_sub (by have := G.nodes.1; omega), Nat.cast_one]
  field_simp

/-- The size of the data. -/
theorem grid_M (G : GridSizes σ r c K S T X J N) : 2 ^ (-20 : ℤ) ≤ X + K ∧ X + K ≤ 2 ^ 20 ∧ 2 ^ (-165 : ℤ) ≤ (X + K) / 2 ^ 100 := by
  have a : 1 / 2 ^ 10 ≤ X + K := by linarith [G.width.1, G.strike.1]
  refine ⟨le_trans (by norm_num) a, ?_, ?_⟩
  · have := G.width.2
    have := G.strike.2
    norm_num at *
    linarith
  · rw [le_div_iff₀ (by norm_num)]
    exact le_trans (by norm_num) a

/-- A payoff at a node: `a - b` or `b - a`. -/
theorem payoff_double (G : GridSizes σ r c K S T X J N) {j : ℕ} (hj : j < J) {x : Dbl .binary64} (hx : Nr 1 2 (j * (X / ((J : ℝ) - 1))) x (j * (X / ((J : ℝ) - 1)))) :
    (∃ v : ℝ, Fl.max (.num K - x) (lit 0) = .num v ∧ |v - max (K - j * (X / ((J : ℝ) - 1))) 0| ≤ (X + K) / 2 ^ 49) ∧
      ∃ v : ℝ, Fl.max (x - .num K) (lit 0) = .num v ∧ |v - max (j * (X / ((J : ℝ) - 1)) - K) 0| ≤ (X + K) / 2 ^ 49 := by
  obtain ⟨h1, h2, h3, h4⟩ := grid_h G
  obtain ⟨m1, m2, m3⟩ := grid_M G
  have hK := G.strike.1
  have hxX := h4 j hj
  have hx0 : 0 ≤ (j : ℝ) * (X / ((J : ℝ) - 1)) := by positivity
  generalize (j : ℝ) * (X / ((J : ℝ) - 1)) = z at *
  have k1 := (Nr.exact K).weaken (d' := 1) (k' := 2) (by omega) (by omega)
  rw [abs_of_pos hK] at k1
  have big : X + K ≤ 2 ^ 100 := m2.trans (by norm_num)
  have fin : 2 * ((2 + 1 : ℕ) : ℝ) * 2 ^ (-53 : ℤ) * (K + z) + 2 ^ (-165 : ℤ) ≤ (X + K) / 2 ^ 49 := by
    have a : 2 * ((2 + 1 : ℕ) : ℝ) * 2 ^ (-53 : ℤ) * (K + z) ≤ 2 * ((2 + 1 : ℕ) : ℝ) * 2 ^ (-53 : ℤ) * (X + K) :=
      mul_le_mul_of_nonneg_left (by linarith) (by positivity)
    refine (add_le_add a m3).trans ?_
    have : 2 * ((2 + 1 : ℕ) : ℝ) * 2 ^ (-53 : ℤ) * (X + K) + (X + K) / 2 ^ 100 = (2 * ((2 + 1 : ℕ) : ℝ) * 2 ^ (-53 : ℤ) + 1 / 2 ^ 100) * (X + K) := by ring
    rw [this]
    calc (2 * ((2 + 1 : ℕ) : ℝ) * 2 ^ (-53 : ℤ) + 1 / 2 ^ 100) * (X + K) ≤ 1 / 2 ^ 49 * (X + K) :=
          mul_le_mul_of_nonneg_right (by norm_num) (by linarith)
      _ = (X + K) / 2 ^ 49 := by ring
  constructor
  · obtain ⟨v, e, hv⟩ := (k1.sub hx (by omega) (by norm_num) (by linarith) (by linarith)).error (by omega) (by norm_num)
    refine ⟨max v 0, by rw [e, max_zero_double], (abs_max_zero_sub _ _).trans (hv.trans fin)⟩
  · obtain ⟨v, e, hv⟩ := (hx.sub k1 (by omega) (by norm_num) (by linarith) (by linarith)).error (by omega) (by norm_num)
    refine ⟨max v 0, by rw [e, max_zero_double], (abs_max_zero_sub _ _).trans (hv.trans ?_)⟩
    rw [add_comm z K]
    exact fin

/-- The sum of all errors. -/
theorem total_error (G : GridSizes σ r c K S T X J N) {n : ℕ} (hn : n ≤ N) {e : ℝ} (he : e ≤ N * (X + K) / 2 ^ 38) :
    (n : ℝ) * (2 ^ (-45 : ℤ) * (2 * (X + K)) + 2 ^ (-165 : ℤ)) + e ≤ X + K ∧
      2 * (n * (2 ^ (-45 : ℤ) * (2 * (X + K)) + 2 ^ (-165 : ℤ)) + e) + 2 ^ (-45 : ℤ) * (J * (X + K)) ≤ fdmRounding K X J N := by
  obtain ⟨m1, m2, m3⟩ := grid_M G
  have m0 : 0 < X + K := lt_of_lt_of_le (by positivity) m1
  have hN2 : (N : ℝ) ≤ 2 ^ 20 := by exact_mod_cast G.levels.2
  have hnN : (n : ℝ) ≤ N := by exact_mod_cast hn
  have s1 : (2 : ℝ) ^ (-45 : ℤ) * (2 * (X + K)) + 2 ^ (-165 : ℤ) ≤ (X + K) / 2 ^ 43 := by
    refine (add_le_add le_rfl m3).trans ?_
    rw [show (2 : ℝ) ^ (-45 : ℤ) = 1 / 2 ^ 45 by norm_num]
    linarith
  have s2 : (n : ℝ) * (2 ^ (-45 : ℤ) * (2 * (X + K)) + 2 ^ (-165 : ℤ)) ≤ N * ((X + K) / 2 ^ 43) :=
    mul_le_mul hnN s1 (by positivity) (by positivity)
  have s3 : (N : ℝ) * (X + K) ≤ 2 ^ 20 * (X + K) := mul_le_mul_of_nonneg_right hN2 m0.le
  have s4 : 0 ≤ (N : ℝ) * (X + K) := by positivity
  have s5 : 0 ≤ (J : ℝ) * (X + K) := by positivity
  rw [fdmRounding, show (2 : ℝ) ^ (-45 : ℤ) * (J * (X + K)) = 1 / 2 ^ 45 * (J * (X + K)) by norm_num]
  generalize (n : ℝ) * (2 ^ (-45 : ℤ) * (2 * (X + K)) + 2 ^ (-165 : ℤ)) = A at *
  constructor <;> linarith

/-- The time loop makes `n` steps, where `n` is `N - 1` or `N`; the exact run with that many steps ends at `n` times the step. -/
theorem steps_moderate (G : GridSizes σ r c K S T X J N) {sc : Scheme (Dbl .binary64)} {p : Pde (Dbl .binary64)} {xDom : Dbl .binary64} {junk : ℕ → Dbl .binary64} {s : Fdm (Dbl .binary64)}
    (h : construct sc xDom J (.num T) N p junk = .ok s) :
    ∃ n, (n = N - 1 ∨ n = N) ∧ ∀ fuel, N < fuel → timeLoop sc p fuel s = Eff.forN (fun _ => step sc p) n () s := by
  obtain ⟨n, h1, -, -, h2⟩ := steps_double (T := T) (le_trans (by norm_num) G.maturity.1) (G.maturity.2.trans (by norm_num)) G.levels.1
    (G.levels.2.trans (by norm_num)) h
  exact ⟨n, h1, h2⟩

/-- The times, as computed. -/
theorem times_error (G : GridSizes σ r c K S T X J N) {dt : Dbl .binary64} (hdt : Nr 0 1 (T / ((N : ℝ) - 1)) dt (T / ((N : ℝ) - 1))) {i : ℕ} (hi : i ≤ N) :
    ∃ y : ℝ, times dt i = .num y ∧ |y - i * (T / ((N : ℝ) - 1))| ≤ i * (T / 2 ^ 49) := by
  obtain ⟨k1, k2, k3⟩ := grid_k G
  have hN2 : (N : ℝ) ≤ 2 ^ 20 := by exact_mod_cast G.levels.2
  have hN1 : (2 : ℝ) ≤ N := by exact_mod_cast G.levels.1
  have hNk : ((N : ℝ) - 1) * (T / ((N : ℝ) - 1)) = T := by
    have : (N : ℝ) - 1 ≠ 0 := by linarith
    field_simp
  obtain ⟨δ, eδ, hδ⟩ := hdt.error (by omega) (by norm_num)
  generalize T / ((N : ℝ) - 1) = k at *
  have tiny : (2 : ℝ) ^ (-165 : ℤ) ≤ T / 2 ^ 100 := by
    rw [le_div_iff₀ (by norm_num)]
    exact le_trans (by norm_num) G.maturity.1
  have hδ' : |δ - k| ≤ T / 2 ^ 51 := by
    refine hδ.trans ((add_le_add le_rfl tiny).trans ?_)
    rw [show 2 * ((1 : ℕ) : ℝ) * (2 : ℝ) ^ (-53 : ℤ) * k = k / 2 ^ 52 by norm_num; ring]
    linarith
  induction i with
  | zero => exact ⟨0, by simp [times], by simp⟩
  | succ i ih =>
    obtain ⟨y, ey, hy⟩ := ih (by omega)
    have hi1 : (i : ℝ) + 1 ≤ N := by exact_mod_cast hi
    have hik : (i : ℝ) * k ≤ T := by
      rw [← hNk]
      exact mul_le_mul_of_nonneg_right (by linarith) k1.le
    have hi0 : (0 : ℝ) ≤ i * k := by positivity
    have hiT : (i : ℝ) * (T / 2 ^ 49) ≤ T / 2 ^ 20 := by
      have := mul_le_mul_of_nonneg_right (by linarith : (i : ℝ) ≤ 2 ^ 20) (by positivity : 0 ≤ T / 2 ^ 49)
      linarith
    obtain ⟨a1, a2⟩ := abs_le.mp (hy.trans hiT)
    obtain ⟨b1, b2⟩ := abs_le.mp hδ'
    have sz : |y + δ| ≤ 3 * T := by
      rw [abs_le]
      constructor <;> linarith
    obtain ⟨z, ez, hz⟩ := (Nr.rnd (x := y + δ) (sz.trans ((by linarith [G.maturity.2] : 3 * T ≤ 3 * 2 ^ 10).trans (by norm_num)))).error (by omega) (by norm_num)
    refine ⟨z, ?_, ?_⟩
    · rw [times, ey, eδ, Dbl.add_coe, ez]
    · have hz' : |z - (y + δ)| ≤ 3 * T / 2 ^ 52 + T / 2 ^ 100 := by
        refine hz.trans (add_le_add ?_ tiny)
        rw [show 2 * ((1 : ℕ) : ℝ) * (2 : ℝ) ^ (-53 : ℤ) * |y + δ| = |y + δ| / 2 ^ 52 by norm_num; ring]
        exact div_le_div_of_nonneg_right sz (by norm_num)
      have e : z - ((i + 1 : ℕ) : ℝ) * k = (z - (y + δ)) + (y - i * k) + (δ - k) := by push_cast; ring
      rw [e]
      refine (abs_add_three _ _ _).trans ?_
      push_cast
      linarith

/-- The discount factor, as computed. -/
theorem discount_error (G : GridSizes σ r c K S T X J N) {dt : Dbl .binary64} (hdt : Nr 0 1 (T / ((N : ℝ) - 1)) dt (T / ((N : ℝ) - 1))) {i : ℕ} (hi : i < N) :
    ∃ y : ℝ, Fl.exp (-.num r * (.num T - times dt i)) = .num y ∧ |y - Real.exp (-r * (T - i * (T / ((N : ℝ) - 1))))| ≤ N / 2 ^ 40 ∧
      0 ≤ T - i * (T / ((N : ℝ) - 1)) := by
  obtain ⟨k1, k2, k3⟩ := grid_k G
  obtain ⟨t, et, ht⟩ := times_error G hdt hi.le
  have hN2 : (N : ℝ) ≤ 2 ^ 20 := by exact_mod_cast G.levels.2
  have hN1 : (2 : ℝ) ≤ N := by exact_mod_cast G.levels.1
  have hNk : ((N : ℝ) - 1) * (T / ((N : ℝ) - 1)) = T := by
    have : (N : ℝ) - 1 ≠ 0 := by linarith
    field_simp
  have hr0 := G.rate.1
  have hrT := G.discount
  have hi1 : (i : ℝ) + 1 ≤ N := by exact_mod_cast hi
  have hik : (i : ℝ) * (T / ((N : ℝ) - 1)) ≤ T := by
    conv_rhs => rw [← hNk]
    exact mul_le_mul_of_nonneg_right (by linarith) k1.le
  have hi0 : 0 ≤ (i : ℝ) * (T / ((N : ℝ) - 1)) := by positivity
  generalize (i : ℝ) * (T / ((N : ℝ) - 1)) = τ at *
  have tiny : (2 : ℝ) ^ (-165 : ℤ) ≤ T / 2 ^ 100 := by
    rw [le_div_iff₀ (by norm_num)]
    exact le_trans (by norm_num) G.maturity.1
  have ht' : |t - τ| ≤ N * (T / 2 ^ 49) - T / 2 ^ 49 := by
    refine ht.trans ?_
    have := mul_le_mul_of_nonneg_right hi1 (by positivity : 0 ≤ T / 2 ^ 49)
    linarith
  have hNT : N * (T / 2 ^ 49) ≤ T / 2 ^ 29 := by
    have := mul_le_mul_of_nonneg_right hN2 (by positivity : 0 ≤ T / 2 ^ 49)
    linarith
  obtain ⟨a1, a2⟩ := abs_le.mp ht'
  -- the subtraction
  have sz : |T - t| ≤ 2 * T := by
    rw [abs_le]
    constructor <;> linarith
  obtain ⟨w, ew, hw⟩ := (Nr.rnd (x := T - t) (sz.trans ((by linarith [G.maturity.2] : 2 * T ≤ 2 * 2 ^ 10).trans (by norm_num)))).error (by omega) (by norm_num)
  have hw' : |w - (T - τ)| ≤ N * (T / 2 ^ 48) := by
    have h1 : |w - (T - t)| ≤ 2 * T / 2 ^ 52 + T / 2 ^ 100 := by
      refine hw.trans (add_le_add ?_ tiny)
      rw [show 2 * ((1 : ℕ) : ℝ) * (2 : ℝ) ^ (-53 : ℤ) * |T - t| = |T - t| / 2 ^ 52 by norm_num; ring]
      exact div_le_div_of_nonneg_right sz (by norm_num)
    have e : w - (T - τ) = (w - (T - t)) - (t - τ) := by ring
    rw [e]
    refine (abs_sub _ _).trans ?_
    have := mul_nonneg (by linarith : (0 : ℝ) ≤ N) (by positivity : 0 ≤ T / 2 ^ 49)
    linarith
  -- the product
  have hrw : |r * w - r * (T - τ)| ≤ N / 2 ^ 42 := by
    rw [← mul_sub, abs_mul, abs_of_nonneg hr0]
    calc r * |w - (T - τ)| ≤ r * (N * (T / 2 ^ 48)) := mul_le_mul_of_nonneg_left hw' hr0
      _ = r * T * (N / 2 ^ 48) := by ring
      _ ≤ 64 * (N / 2 ^ 48) := mul_le_mul_of_nonneg_right hrT (by positivity)
      _ = N / 2 ^ 42 := by ring
  have hrt0 : 0 ≤ r * (T - τ) := mul_nonneg hr0 (by linarith)
  have hrt1 : r * (T - τ) ≤ 64 := le_trans (mul_le_mul_of_nonneg_left (by linarith) hr0) hrT
  have hNs : (N : ℝ) / 2 ^ 42 ≤ 1 / 2 ^ 22 := by linarith
  obtain ⟨c1, c2⟩ := abs_le.mp (hrw.trans hNs)
  have sz2 : |-r * w| ≤ 65 := by
    rw [neg_mul, abs_neg, abs_le]
    constructor <;> linarith
  obtain ⟨a, ea, ha⟩ := (Nr.rnd (x := -r * w) (sz2.trans (by norm_num))).error (by omega) (by norm_num)
  have ha' : |a - -r * (T - τ)| ≤ N / 2 ^ 41 - 1 / 2 ^ 44 := by
    have h1 : |a - -r * w| ≤ 65 / 2 ^ 52 + 1 / 2 ^ 100 := by
      refine ha.trans (add_le_add ?_ (by norm_num))
      rw [show 2 * ((1 : ℕ) : ℝ) * (2 : ℝ) ^ (-53 : ℤ) * |-r * w| = |-r * w| / 2 ^ 52 by norm_num; ring]
      exact div_le_div_of_nonneg_right sz2 (by norm_num)
    have e : a - -r * (T - τ) = (a - -r * w) - (r * w - r * (T - τ)) := by ring
    rw [e]
    refine (abs_sub _ _).trans ?_
    norm_num at h1 hrw ⊢
    linarith
  have hN41 : (N : ℝ) / 2 ^ 41 ≤ 1 / 2 ^ 21 := by linarith
  have ha1 : |a - -r * (T - τ)| ≤ 1 := ha'.trans (by norm_num at *; linarith)
  obtain ⟨d1, d2⟩ := abs_le.mp ha1
  obtain ⟨y, ey, hy⟩ := binary64_doubleAccurate.exp a (by
    rw [abs_le]
    constructor <;> linarith)
  refine ⟨y, ?_, ?_, by linarith⟩
  · have en : (-.num (r : EReal) : Dbl .binary64) = .num ((-r : ℝ) : EReal) := by rw [EReal.coe_neg]; rfl
    rw [et, Dbl.sub_coe, ew, en, Dbl.mul_coe, ea, Dbl.exp_coe, ey]
  · have hb0 : -r * (T - τ) ≤ 0 := by linarith
    generalize -r * (T - τ) = b at *
    clear hw ha ht tiny
    have E1 : Real.exp b ≤ 1 := Real.exp_le_one_iff.mpr hb0
    have E0 := Real.exp_pos b
    have ediff : |Real.exp a - Real.exp b| ≤ 2 * (N / 2 ^ 41 - 1 / 2 ^ 44) := by
      have e : Real.exp a - Real.exp b = Real.exp b * (Real.exp (a - b) - 1) := by
        rw [mul_sub, ← Real.exp_add, mul_one, add_sub_cancel]
      rw [e, abs_mul, abs_of_pos E0]
      have := Real.abs_exp_sub_one_le ha1
      calc Real.exp b * |Real.exp (a - b) - 1| ≤ 1 * (2 * |a - b|) :=
            mul_le_mul E1 this (abs_nonneg _) zero_le_one
        _ ≤ 2 * (N / 2 ^ 41 - 1 / 2 ^ 44) := by linarith
    have ea2 : Real.exp a ≤ 3 := by
      have h1 := (abs_le.mp ediff).2
      have h2 : (N : ℝ) / 2 ^ 41 ≤ 1 := hN41.trans (by norm_num)
      have h3 : (0 : ℝ) ≤ 1 / 2 ^ 44 := by positivity
      linarith only [h1, h2, h3, E1]
    have h1 : |y - Real.exp a| ≤ 3 / 2 ^ 52 := by
      refine hy.trans ?_
      rw [show (2 : ℝ) ^ (-52 : ℤ) = 1 / 2 ^ 52 by norm_num]
      linarith only [ea2]
    have h2 := abs_sub_le y (Real.exp a) (Real.exp b)
    linarith only [h1, h2, ediff]

/-- The right boundary value of a call, as computed. -/
theorem right_error (G : GridSizes σ r c K S T X J N) {dt x : Dbl .binary64} (hdt : Nr 0 1 (T / ((N : ℝ) - 1)) dt (T / ((N : ℝ) - 1))) (hx : Nr 1 2 X x X) {i : ℕ}
    (hi : i < N) : ∃ y : ℝ, x - .num K * Fl.exp (-.num r * (.num T - times dt i)) = .num y ∧
      |y - (X - K * Real.exp (-r * (T - i * (T / ((N : ℝ) - 1)))))| ≤ N * (X + K) / 2 ^ 38 ∧ |X - K * Real.exp (-r * (T - i * (T / ((N : ℝ) - 1))))| ≤ X + K := by
  obtain ⟨y, ey, hy, h0⟩ := discount_error G hdt hi
  obtain ⟨m1, m2, m3⟩ := grid_M G
  have hK := G.strike.1
  have hX : 0 < X := lt_of_lt_of_le (by norm_num) G.width.1
  have hN2 : (N : ℝ) ≤ 2 ^ 20 := by exact_mod_cast G.levels.2
  have hN1 : (2 : ℝ) ≤ N := by exact_mod_cast G.levels.1
  have hb0 : -r * (T - i * (T / ((N : ℝ) - 1))) ≤ 0 := by
    have := mul_nonneg G.rate.1 h0
    linarith
  have E1 := Real.exp_le_one_iff.mpr hb0
  have E0 := Real.exp_pos (-r * (T - i * (T / ((N : ℝ) - 1))))
  rw [ey]
  generalize Real.exp (-r * (T - i * (T / ((N : ℝ) - 1)))) = b at *
  have hKb0 : 0 ≤ K * b := by positivity
  have hKb1 : K * b ≤ K := mul_le_of_le_one_right hK.le E1
  have hKy : |K * y - K * b| ≤ K * (N / 2 ^ 40) := by
    rw [← mul_sub, abs_mul, abs_of_pos hK]
    exact mul_le_mul_of_nonneg_left hy hK.le
  have hKN : K * (N / 2 ^ 40) ≤ K / 2 ^ 20 := by
    have := mul_le_mul_of_nonneg_left (by linarith : (N : ℝ) / 2 ^ 40 ≤ 1 / 2 ^ 20) hK.le
    linarith
  obtain ⟨a1, a2⟩ := abs_le.mp (hKy.trans hKN)
  have sz1 : |K * y| ≤ 2 * K := by rw [abs_le]; constructor <;> linarith
  obtain ⟨p, ep, hp⟩ := (Nr.rnd (x := K * y) (sz1.trans ((by linarith : 2 * K ≤ 2 * (X + K)).trans ((by linarith : 2 * (X + K) ≤ 2 * 2 ^ 20).trans (by norm_num))))).error (by omega) (by norm_num)
  have hp' : |p - K * y| ≤ 2 * K / 2 ^ 52 + (X + K) / 2 ^ 100 := by
    refine hp.trans (add_le_add ?_ m3)
    rw [show 2 * ((1 : ℕ) : ℝ) * (2 : ℝ) ^ (-53 : ℤ) * |K * y| = |K * y| / 2 ^ 52 by norm_num; ring]
    exact div_le_div_of_nonneg_right sz1 (by norm_num)
  obtain ⟨z, ez, hz⟩ := hx.error (by omega) (by norm_num)
  have hz' : |z - X| ≤ X / 2 ^ 51 + (X + K) / 2 ^ 100 := by
    refine hz.trans (add_le_add (le_of_eq ?_) m3)
    norm_num
    ring
  clear hp hz
  obtain ⟨b1, b2⟩ := abs_le.mp hp'
  obtain ⟨c1, c2⟩ := abs_le.mp hz'
  have sz2 : |z - p| ≤ 3 * (X + K) := by rw [abs_le]; constructor <;> linarith
  obtain ⟨w, ew, hw⟩ := (Nr.rnd (x := z - p) (sz2.trans ((by linarith : 3 * (X + K) ≤ 3 * 2 ^ 20).trans (by norm_num)))).error (by omega) (by norm_num)
  have hw' : |w - (z - p)| ≤ 3 * (X + K) / 2 ^ 52 + (X + K) / 2 ^ 100 := by
    refine hw.trans (add_le_add ?_ m3)
    rw [show 2 * ((1 : ℕ) : ℝ) * (2 : ℝ) ^ (-53 : ℤ) * |z - p| = |z - p| / 2 ^ 52 by norm_num; ring]
    exact div_le_div_of_nonneg_right sz2 (by norm_num)
  clear hw m3
  obtain ⟨d1, d2⟩ := abs_le.mp hw'
  obtain ⟨f1, f2⟩ := abs_le.mp hKy
  refine ⟨w, ?_, ?_, ?_⟩
  · rw [Dbl.mul_coe, ep, ez, Dbl.sub_coe, ew]
  · have n1 := mul_le_mul_of_nonneg_right hN1 (by linarith : 0 ≤ X + K)
    have n2 : K * (N / 2 ^ 40) ≤ N * (X + K) / 2 ^ 40 := by
      have := mul_nonneg (by linarith : (0 : ℝ) ≤ N) hX.le
      linarith
    rw [abs_le]
    constructor <;> linarith
  · rw [abs_le]
    constructor <;> linarith

variable (hd : BlackScholes.stock o m = .ok d) (hp' : d.price = .num S) (hσ' : d.sigma = .num σ) (hr' : m.r = .num r) (hc' : d.coupon.getD (lit 0) = .num c)

include hd hσ' hr' hc' in
/-- Puts. -/
theorem put_rounding (ho : o.payoff = .vanilla .put (.num K)) (G : ModerateGrid σ r c K S T X J N) (junk : ℕ → Dbl .binary64) :
    ∃ s, construct .explicit (.num X) J (.num T) N (BlackScholes.pde o m) junk = .ok s ∧ ∃ n, (n = N - 1 ∨ n = N) ∧
      ∀ fuel, N < fuel → ∀ p, Describes p (putProblem σ r c K) → ∀ (junk' : ℕ → ℝ) (s' : Fdm ℝ),
        construct .explicit X J (n * (T / (N - 1))) (n + 1) p junk' = .ok s' → ∀ fuel', n + 1 ≤ fuel' → ∃ y y' : ℝ,
          (calculatePrice .explicit .linear (BlackScholes.pde o m) (.ok (.num S)) fuel s).1 = .ok (.num y) ∧
          (calculatePrice .explicit .linear p (.ok S) fuel' s').1 = .ok y' ∧ |y - y'| ≤ fdmRounding K X J N := by
  obtain ⟨h1, h2, h3, h4⟩ := grid_h G.toGridSizes
  obtain ⟨k1, k2, k3⟩ := grid_k G.toGridSizes
  obtain ⟨m1, m2, m3⟩ := grid_M G.toGridSizes
  have hK := G.strike.1
  have hX : 0 < X := lt_of_lt_of_le (by norm_num) G.width.1
  have hN1 := G.levels.1
  obtain ⟨s, v, hs, hg, ht, hsol, hold, hv⟩ := construct_double (o := o) (m := m) G.toGridSizes .explicit junk (w := fun j => max (K - j * (X / ((J : ℝ) - 1))) 0)
    (e := (X + K) / 2 ^ 49) (fun j hj x hx => by
      obtain ⟨v, e, hv⟩ := (payoff_double G.toGridSizes hj hx).1
      exact ⟨v, by simp [BlackScholes.pde, Payoff.eval1, ho, e, -Dbl.lit_zero], hv⟩)
  obtain ⟨n, hn, hloop⟩ := steps_moderate G.toGridSizes hs
  have hn0 : 0 < n := by omega
  have hnr : (0 : ℝ) < n := by exact_mod_cast hn0
  obtain ⟨t1, t2⟩ := total_error G.toGridSizes (n := n) (e := (X + K) / 2 ^ 49) (by omega) (by
    have : (1 : ℝ) ≤ N := by exact_mod_cast (by omega : 1 ≤ N)
    have := le_mul_of_one_le_left (by linarith : 0 ≤ X + K) this
    linarith)
  refine ⟨s, hs, n, hn, fun fuel hf p hp junk' s' hs' fuel' hf' => ?_⟩
  obtain ⟨y, y', e1, e2, e3⟩ := price_double hd hσ' hr' hc' k1 G.rate.1 G.drift G.weights (by rw [abs_of_pos G.vol.1]; exact G.vol.2) G.rate.2
    (k2.trans G.maturity.2) h1 h2 G.nodes.2 hg ht hsol hold hp put_coefficients (X := X) (T := n * (T / (N - 1))) (M := X + K) (e := (X + K) / 2 ^ 49) (S := S) hn0 rfl
    (by push_cast; rw [add_sub_cancel_right, mul_div_cancel_left₀ _ hnr.ne']) m1 (m2.trans (by norm_num)) t1 hv
    (fun j hj => by
      change |max (K - _) 0| ≤ _
      rw [abs_of_nonneg (le_max_right _ _)]
      exact max_le (by have : (0 : ℝ) ≤ j * (X / ((J : ℝ) - 1)) := by positivity
                       linarith) (by linarith))
    (fun i _ => ⟨K, by simp [BlackScholes.pde, BlackScholes.boundaryLeft, BlackScholes.strike, Payoff.clone, Payoff.payoffType, ho], by
      change |K - K| ≤ _
      rw [sub_self, abs_zero]
      positivity⟩)
    (fun i _ => by
      change |K| ≤ _
      rw [abs_of_pos hK]
      linarith)
    (fun i _ => ⟨0, by simp [BlackScholes.pde, BlackScholes.boundaryRight, BlackScholes.strike, Payoff.clone, Payoff.payoffType, ho], by
      change |(0 : ℝ) - 0| ≤ _
      rw [sub_self, abs_zero]
      positivity⟩)
    (fun i _ => by
      change |(0 : ℝ)| ≤ _
      rw [abs_zero]
      linarith)
    (hloop fuel hf) (by linarith [G.spot.1]) G.spot.2 hs' hf'
  exact ⟨y, y', e1, e2, e3.trans t2⟩

include hd hσ' hr' hc' in
/-- Calls. -/
theorem call_rounding (ho : o.payoff = .vanilla .call (.num K)) (hT' : o.T = .num T) (G : ModerateGrid σ r c K S T X J N) (junk : ℕ → Dbl .binary64) :
    ∃ s, construct .explicit (.num X) J (.num T) N (BlackScholes.pde o m) junk = .ok s ∧ ∃ n, (n = N - 1 ∨ n = N) ∧
      ∀ fuel, N < fuel → ∀ (p : Pde ℝ) (q : Problem), Describes p q → BlackScholesCoefficients q σ r c → (∀ x, q.initial x = max (x - K) 0) → (∀ t, q.left t 0 = 0) →
        (∀ t ≤ T, q.right t X = X - K * Real.exp (-r * (T - t))) → ∀ (junk' : ℕ → ℝ) (s' : Fdm ℝ),
        construct .explicit X J (n * (T / (N - 1))) (n + 1) p junk' = .ok s' → ∀ fuel', n + 1 ≤ fuel' → ∃ y y' : ℝ,
          (calculatePrice .explicit .linear (BlackScholes.pde o m) (.ok (.num S)) fuel s).1 = .ok (.num y) ∧
          (calculatePrice .explicit .linear p (.ok S) fuel' s').1 = .ok y' ∧ |y - y'| ≤ fdmRounding K X J N := by
  obtain ⟨h1, h2, h3, h4⟩ := grid_h G.toGridSizes
  obtain ⟨k1, k2, k3⟩ := grid_k G.toGridSizes
  obtain ⟨m1, m2, m3⟩ := grid_M G.toGridSizes
  have hK := G.strike.1
  have hX : 0 < X := lt_of_lt_of_le (by norm_num) G.width.1
  have hN1 := G.levels.1
  have hN1' : (1 : ℝ) ≤ N := by exact_mod_cast (by omega : 1 ≤ N)
  have he : (X + K) / 2 ^ 49 ≤ N * (X + K) / 2 ^ 38 := by
    have := le_mul_of_one_le_left (by linarith : 0 ≤ X + K) hN1'
    linarith
  obtain ⟨s, v, hs, hg, ht, hsol, hold, hv⟩ := construct_double (o := o) (m := m) G.toGridSizes .explicit junk (w := fun j => max (j * (X / ((J : ℝ) - 1)) - K) 0)
    (e := N * (X + K) / 2 ^ 38) (fun j hj x hx => by
      obtain ⟨v, e, hv⟩ := (payoff_double G.toGridSizes hj hx).2
      exact ⟨v, by simp [BlackScholes.pde, Payoff.eval1, ho, e, -Dbl.lit_zero], hv.trans he⟩)
  obtain ⟨n, hn, hloop⟩ := steps_moderate G.toGridSizes hs
  have hn0 : 0 < n := by omega
  have hnr : (0 : ℝ) < n := by exact_mod_cast hn0
  obtain ⟨t1, t2⟩ := total_error G.toGridSizes (n := n) (e := N * (X + K) / 2 ^ 38) (by omega) le_rfl
  have hpos : 0 ≤ N * (X + K) / 2 ^ 38 := le_trans (by positivity) he
  have hlast := node_double h1 h2 G.nodes.2 hg.dx (j := J - 1) (by have := G.nodes.1; omega)
  rw [grid_last G.toGridSizes] at hlast
  refine ⟨s, hs, n, hn, fun fuel hf p q hp hq q1 q2 q3 junk' s' hs' fuel' hf' => ?_⟩
  have hR : ∀ i < n, i * (T / ((N : ℝ) - 1)) ≤ T := fun i hi => by
    have := (discount_error G.toGridSizes hg.dt (i := i) (by omega)).choose_spec.2.2
    linarith
  obtain ⟨y, y', e1, e2, e3⟩ := price_double hd hσ' hr' hc' k1 G.rate.1 G.drift G.weights (by rw [abs_of_pos G.vol.1]; exact G.vol.2) G.rate.2
    (k2.trans G.maturity.2) h1 h2 G.nodes.2 hg ht hsol hold hp hq (X := X) (T := n * (T / (N - 1))) (M := X + K) (e := N * (X + K) / 2 ^ 38) (S := S) hn0 rfl
    (by push_cast; rw [add_sub_cancel_right, mul_div_cancel_left₀ _ hnr.ne']) m1 (m2.trans (by norm_num)) t1 (fun j hj => by rw [q1]; exact hv j hj)
    (fun j hj => by
      rw [q1, abs_of_nonneg (le_max_right _ _)]
      exact max_le (by have := h4 j hj
                       linarith) (by linarith))
    (fun i _ => ⟨0, by simp [BlackScholes.pde, BlackScholes.boundaryLeft, BlackScholes.strike, Payoff.clone, Payoff.payoffType, ho], by
      rw [q2, sub_self, abs_zero]
      exact hpos⟩)
    (fun i _ => by
      rw [q2, abs_zero]
      linarith)
    (fun i hi => by
      obtain ⟨y, e, hy, -⟩ := right_error G.toGridSizes hg.dt hlast (i := i) (by omega)
      refine ⟨y, ?_, by rw [q3 _ (hR i hi)]; exact hy⟩
      rw [← e]
      simp [BlackScholes.pde, BlackScholes.boundaryRight, BlackScholes.strike, Payoff.clone, Payoff.payoffType, ho, hr', hT'])
    (fun i hi => by
      rw [q3 _ (hR i hi)]
      exact (right_error G.toGridSizes hg.dt hlast (i := i) (by omega)).choose_spec.2.2)
    (hloop fuel hf) (by linarith [G.spot.1]) G.spot.2 hs' hf'
  exact ⟨y, y', e1, e2, e3.trans t2⟩

end

/-- The problem of a call in which the last boundary value is kept after expiry. -/
noncomputable def lateCall (σ r c K T : ℝ) : Problem := { callProblem σ r c K T with right := fun t x => x - K * Real.exp (-r * max (T - t) 0) }

/-- The end of a run with `N - 1` or `N` steps. -/
theorem end_time {T : ℝ} {N n : ℕ} (hN : 2 ≤ N) (hn : n = N - 1 ∨ n = N) :
    (n * (T / ((N : ℝ) - 1)) = T ∨ n * (T / ((N : ℝ) - 1)) = T + T / ((N : ℝ) - 1)) := by
  have hN1 : (2 : ℝ) ≤ N := by exact_mod_cast hN
  have : (N : ℝ) - 1 ≠ 0 := by linarith
  rcases hn with rfl | rfl
  · left
    rw [Nat.cast_sub (by omega), Nat.cast_one]
    field_simp
  · right
    field_simp
    ring

end Fdm

open Fdm

section
variable (o : OptObj (Dbl .binary64)) (m : Market (Dbl .binary64)) (d : StockData (Dbl .binary64)) (hd : BlackScholes.stock o m = .ok d) (σ r c K S T X : ℝ) (J N : ℕ)
  (hσ : d.sigma = .num σ) (hr : m.r = .num r) (hc : d.coupon.getD (lit 0) = .num c) (hS : d.price = .num S) (hT : o.T = .num T)
  (G : ModerateGrid σ r c K S T X J N) (junk : ℕ → Dbl .binary64)
include hd hσ hr hc hS hT G

/-- **C85.** Explicit Euler with linear interpolation, European put, in double precision: the result of `calculatePrice()` is within
`fdmRounding` of the result of exact arithmetic with the same number of time steps.  The time loop makes `N - 1` or `N` steps (`C53_double_partial`), and the run in exact
arithmetic is told to make as many: it ends at `n` times the time step. -/
theorem C85_roundingPut (ho : o.payoff = .vanilla .put (.num K)) (o' : OptObj ℝ) (m' : Market ℝ) (d' : StockData ℝ) (hd' : BlackScholes.stock o' m' = .ok d')
    (ho' : o'.payoff = .vanilla .put K) (hσ' : d'.sigma = σ) (hr' : m'.r = r) (hc' : d'.coupon.getD 0 = c) (hS' : d'.price = S) (junk' : ℕ → ℝ) :
    ∃ s, construct .explicit (.num X) J o.T N (BlackScholes.pde o m) junk = .ok s ∧ ∃ n, (n = N - 1 ∨ n = N) ∧
      ∃ s', construct .explicit X J (n * (T / (N - 1))) (n + 1) (BlackScholes.pde o' m') junk' = .ok s' ∧ ∀ fuel fuel', N < fuel → n + 1 ≤ fuel' → ∃ y y' : ℝ,
        (calculatePrice .explicit .linear (BlackScholes.pde o m) (FdmWorld.spot o m) fuel s).1 = .ok (.num y) ∧
        (calculatePrice .explicit .linear (BlackScholes.pde o' m') (FdmWorld.spot o' m') fuel' s').1 = .ok y' ∧ |y - y'| ≤ fdmRounding K X J N := by
  obtain ⟨s, hs, n, hn, h⟩ := put_rounding hd hσ hr hc ho G junk
  subst hσ' hr' hc' hS'
  have hp := put_describes hd' ho'
  obtain ⟨s', hs'⟩ := construct_explicit (xDom := X) (tDom := n * (T / (N - 1))) (J := J) (N := n + 1) hp junk'
  refine ⟨s, by rw [hT]; exact hs, n, hn, s', hs', fun fuel fuel' hf hf' => ?_⟩
  rw [spot_ok hd', show FdmWorld.spot o m = .ok (.num d'.price) by rw [FdmWorld.spot, hd, Res.bind_ok, hS]; rfl]
  exact h fuel hf _ hp junk' s' hs' fuel' hf'

/-- **C85.** The same for a European call. -/
theorem C85_roundingCall (ho : o.payoff = .vanilla .call (.num K)) (o' : OptObj ℝ) (m' : Market ℝ) (d' : StockData ℝ) (hd' : BlackScholes.stock o' m' = .ok d')
    (ho' : o'.payoff = .vanilla .call K) (hσ' : d'.sigma = σ) (hr' : m'.r = r) (hc' : d'.coupon.getD 0 = c) (hS' : d'.price = S) (hT' : o'.T = T) (junk' : ℕ → ℝ) :
    ∃ s, construct .explicit (.num X) J o.T N (BlackScholes.pde o m) junk = .ok s ∧ ∃ n, (n = N - 1 ∨ n = N) ∧
      ∃ s', construct .explicit X J (n * (T / (N - 1))) (n + 1) (BlackScholes.pde o' m') junk' = .ok s' ∧ ∀ fuel fuel', N < fuel → n + 1 ≤ fuel' → ∃ y y' : ℝ,
        (calculatePrice .explicit .linear (BlackScholes.pde o m) (FdmWorld.spot o m) fuel s).1 = .ok (.num y) ∧
        (calculatePrice .explicit .linear (BlackScholes.pde o' m') (FdmWorld.spot o' m') fuel' s').1 = .ok y' ∧ |y - y'| ≤ fdmRounding K X J N := by
  obtain ⟨s, hs, n, hn, h⟩ := call_rounding hd hσ hr hc ho hT G junk
  subst hσ' hr' hc' hS' hT'
  have hp := call_describes hd' ho'
  obtain ⟨s', hs'⟩ := construct_explicit (xDom := X) (tDom := n * (o'.T / (N - 1))) (J := J) (N := n + 1) hp junk'
  refine ⟨s, by rw [hT]; exact hs, n, hn, s', hs', fun fuel fuel' hf hf' => ?_⟩
  rw [spot_ok hd', show FdmWorld.spot o m = .ok (.num d'.price) by rw [FdmWorld.spot, hd, Res.bind_ok, hS]; rfl]
  exact h fuel hf _ _ hp call_coefficients (fun _ => rfl) (fun _ => rfl) (fun _ _ => rfl) junk' s' hs' fuel' hf'

/-- **C85.** Explicit Euler with linear interpolation, European put, in double precision: `calculatePrice()` returns a number within `putGridError` plus `fdmRounding` of the
Black-Scholes price, for the maturity at which the computed time loop ends: `T`, or one time step later. -/
theorem C85_put (ho : o.payoff = .vanilla .put (.num K)) (δ : ℝ) (hδ : 0 < δ) :
    ∃ s, construct .explicit (.num X) J o.T N (BlackScholes.pde o m) junk = .ok s ∧ ∃ T', (T' = T ∨ T' = T + T / (N - 1)) ∧ ∀ fuel, N < fuel → ∃ y : ℝ,
      (calculatePrice .explicit .linear (BlackScholes.pde o m) (FdmWorld.spot o m) fuel s).1 = .ok (.num y) ∧
      |y - blackScholesPut S σ r c T' K| ≤ putGridError σ r c T' K S X (X / (J - 1)) (T / (N - 1)) δ + fdmRounding K X J N := by
  obtain ⟨s, hs, n, hn, h⟩ := put_rounding hd hσ hr hc ho G junk
  obtain ⟨h1, h2, h3, h4⟩ := grid_h G.toGridSizes
  obtain ⟨k1, k2, k3⟩ := grid_k G.toGridSizes
  have hN := G.levels.1
  have hn0 : 0 < n := by omega
  have hnr : (0 : ℝ) < n := by exact_mod_cast hn0
  have hX : 0 < X := lt_of_lt_of_le (by norm_num) G.width.1
  have hK := G.strike.1
  have hr0 := G.rate.1
  have hS0 : 0 < S := by linarith [G.spot.1]
  have hTn : 0 < n * (T / ((N : ℝ) - 1)) := mul_pos hnr k1
  have ek : n * (T / ((N : ℝ) - 1)) / (((n + 1 : ℕ) : ℝ) - 1) = T / ((N : ℝ) - 1) := by
    push_cast
    rw [add_sub_cancel_right, mul_div_cancel_left₀ _ hnr.ne']
  obtain ⟨s', hs', hy'⟩ := explicit_price (δ := δ) (A := 0) (B := 0) (BL := K) (BR := K) (valuesPde_describes (putProblem σ r c K)) put_coefficients hr0 hX hTn (N := n + 1)
    (put_dominates G.drift hr0 J h3.le) (by rw [ek]; exact G.step) hK.le hδ (fun x _ => by simp [putProblem]) .linear G.nodes.1 (G.nodes.2.trans (by norm_num)) (by omega) hK.le hK.le
    (fun t j _ h2 => weights_ok put_coefficients h3 (by rw [ek]; exact k1.le) (by rw [ek]; exact G.weights) t j h2)
    (fun t _ t' ht' => by
      obtain ⟨a, b⟩ := put_value (σ := σ) (c := c) hδ hK.le hr0 ht'.1 0
      change |K - _| ≤ K
      rw [abs_le]; constructor <;> linarith)
    (fun t _ t' ht' => by
      obtain ⟨a, b⟩ := put_value (σ := σ) (c := c) hδ hK.le hr0 ht'.1 X
      change |0 - _| ≤ K
      rw [abs_le]; constructor <;> linarith) (fun _ => 0) hS0 (by linarith [G.spot.2]) G.spot.1
  refine ⟨s, by rw [hT]; exact hs, n * (T / (N - 1)), end_time hN hn, fun fuel hf => ?_⟩
  obtain ⟨y, y', e1, e2, e3⟩ := h fuel hf _ (valuesPde_describes _) _ s' hs' (n + 1) le_rfl
  obtain ⟨z, z1, z2⟩ := hy' (n + 1) le_rfl
  obtain rfl : y' = z := Res.ok.inj (e2.symm.trans z1)
  refine ⟨y, by rw [show FdmWorld.spot o m = .ok (.num S) by rw [FdmWorld.spot, hd, Res.bind_ok, hS]; rfl]; exact e1, ?_⟩
  rw [ek, optionValue_put hS0 G.vol.1 hTn hK] at z2
  have z3 : |y' - blackScholesPut S σ r c (n * (T / (N - 1))) K| ≤ putGridError σ r c (n * (T / (N - 1))) K S X (X / (J - 1)) (T / (N - 1)) δ := by
    simpa [putGridError] using z2
  have := abs_sub_le y y' (blackScholesPut S σ r c (n * (T / (N - 1))) K)
  linarith

/-- **C85.** The same for a European call. -/
theorem C85_call (ho : o.payoff = .vanilla .call (.num K)) (δ : ℝ) (hδ : 0 < δ) :
    ∃ s, construct .explicit (.num X) J o.T N (BlackScholes.pde o m) junk = .ok s ∧ ∃ T', (T' = T ∨ T' = T + T / (N - 1)) ∧ ∀ fuel, N < fuel → ∃ y : ℝ,
      (calculatePrice .explicit .linear (BlackScholes.pde o m) (FdmWorld.spot o m) fuel s).1 = .ok (.num y) ∧
      |y - blackScholesCall S σ r c T' K| ≤ callGridError σ r c T' K S X (X / (J - 1)) (T / (N - 1)) δ + fdmRounding K X J N := by
  obtain ⟨s, hs, n, hn, h⟩ := call_rounding hd hσ hr hc ho hT G junk
  obtain ⟨h1, h2, h3, h4⟩ := grid_h G.toGridSizes
  obtain ⟨k1, k2, k3⟩ := grid_k G.toGridSizes
  have hN := G.levels.1
  have hn0 : 0 < n := by omega
  have hnr : (0 : ℝ) < n := by exact_mod_cast hn0
  have hX : 0 < X := lt_of_lt_of_le (by norm_num) G.width.1
  have hK := G.strike.1
  have hr0 := G.rate.1
  have hS0 : 0 < S := by linarith [G.spot.1]
  have hTn : 0 < n * (T / ((N : ℝ) - 1)) := mul_pos hnr k1
  have ek : n * (T / ((N : ℝ) - 1)) / (((n + 1 : ℕ) : ℝ) - 1) = T / ((N : ℝ) - 1) := by
    push_cast
    rw [add_sub_cancel_right, mul_div_cancel_left₀ _ hnr.ne']
  have hexp : 0 ≤ Real.exp (|c| * (n * (T / (N - 1)))) - 1 := by
    have := Real.one_le_exp (mul_nonneg (abs_nonneg c) hTn.le)
    linarith
  have hq : BlackScholesCoefficients (lateCall σ r c K T) σ r c := ⟨fun _ _ => rfl, fun _ _ => rfl, fun _ _ => rfl, fun _ _ => rfl⟩
  obtain ⟨s', hs', hy'⟩ := explicit_price (δ := δ) (A := 1) (B := -K) (BL := K) (BR := X * (Real.exp (|c| * (n * (T / (N - 1)))) - 1) + 2 * K)
    (valuesPde_describes (lateCall σ r c K T)) hq hr0 hX hTn (N := n + 1)
    (call_dominates (K := K) (T := T) G.drift hr0 J h3.le) (by rw [ek]; exact G.step) hK.le hδ (fun x _ => by
      change max (x - K) 0 = _
      rcases le_total x K with hx | hx
      · rw [max_eq_right (by linarith), max_eq_left (by linarith)]; ring
      · rw [max_eq_left (by linarith), max_eq_right (by linarith)]; ring) .linear G.nodes.1 (G.nodes.2.trans (by norm_num)) (by omega) hK.le (by positivity)
    (fun t j _ h2 => weights_ok hq h3 (by rw [ek]; exact k1.le) (by rw [ek]; exact G.weights) t j h2)
    (fun t _ t' ht' => by
      have := call_left_value (σ := σ) (c := c) hδ hK.le hr0 ht'.1
      change |0 - _| ≤ K
      rwa [zero_sub, abs_neg])
    (fun t ht t' ht' => by
      have := call_right_error (σ := σ) (c := c) hδ hK.le hr0 ht'.1 hX.le ht'.2 (t' := n * (T / (N - 1)) - max (T - t) 0) (by linarith [le_max_right (T - t) 0])
      rw [sub_sub_cancel] at this
      exact this) (fun _ => 0) hS0 (by linarith [G.spot.2]) G.spot.1
  refine ⟨s, by rw [hT]; exact hs, n * (T / (N - 1)), end_time hN hn, fun fuel hf => ?_⟩
  obtain ⟨y, y', e1, e2, e3⟩ := h fuel hf _ _ (valuesPde_describes _) hq (fun _ => rfl) (fun _ => rfl) (fun t ht => by
    change X - K * Real.exp (-r * max (T - t) 0) = _
    rw [max_eq_left (by linarith)]) _ s' hs' (n + 1) le_rfl
  obtain ⟨z, z1, z2⟩ := hy' (n + 1) le_rfl
  obtain rfl : y' = z := Res.ok.inj (e2.symm.trans z1)
  refine ⟨y, by rw [show FdmWorld.spot o m = .ok (.num S) by rw [FdmWorld.spot, hd, Res.bind_ok, hS]; rfl]; exact e1, ?_⟩
  rw [ek] at z2
  have z3 : |y' - blackScholesCall S σ r c (n * (T / (N - 1))) K| ≤ callGridError σ r c (n * (T / (N - 1))) K S X (X / (J - 1)) (T / (N - 1)) δ := by
    rw [← optionValue_call hS0 G.vol.1 hTn hK, optionValue_parity hTn.le]
    simpa [callGridError, abs_of_pos hK, sub_eq_add_neg] using z2
  have := abs_sub_le y y' (blackScholesCall S σ r c (n * (T / (N - 1))) K)
  linarith

end

/-! ## A case -/

namespace FdmDoubleExample

/-- One stock: `S = 100`, `sigma = 1/4`, `r = 1/16`, no dividends. -/
noncomputable def market : Market (Dbl .binary64) := ⟨[⟨.num ((100 : ℝ) : EReal), .num ((1 / 4 : ℝ) : EReal), none⟩], [("A", 0)], .num ((1 / 16 : ℝ) : EReal), [], [], []⟩

/-- A European option with strike 100 and one year to maturity. -/
def option (ty : PayoffType) : OptObj (Dbl .binary64) := ⟨.european, "A", .vanilla ty (.num ((100 : ℝ) : EReal)), .num ((1 : ℝ) : EReal), none⟩

theorem stock (ty : PayoffType) : BlackScholes.stock (option ty) market = .ok ⟨.num ((100 : ℝ) : EReal), .num ((1 / 4 : ℝ) : EReal), none⟩ := rfl

theorem grid : ModerateGrid (1 / 4) (1 / 16) 0 100 100 1 500 101 1001 := by
  refine ⟨?_, ?_⟩
  · constructor <;> norm_num
  · norm_num

/-- The hypotheses are met by 101 nodes on `[0, 500]` and 1001 time levels; the rounding error is less than 0.00001. -/
example : (∃ s, construct .explicit (.num ((500 : ℝ) : EReal)) 101 (option .put).T 1001 (BlackScholes.pde (option .put) market) (fun _ => lit 0) = .ok s ∧
    ∃ T' : ℝ, (T' = 1 ∨ T' = 1 + 1 / ((1001 : ℕ) - 1)) ∧ ∀ fuel, 1001 < fuel → ∃ y : ℝ,
      (calculatePrice .explicit .linear (BlackScholes.pde (option .put) market) (FdmWorld.spot (option .put) market) fuel s).1 = .ok (.num y) ∧
      |y - blackScholesPut 100 (1 / 4) (1 / 16) 0 T' 100| ≤
        putGridError (1 / 4) (1 / 16) 0 T' 100 100 500 (500 / ((101 : ℕ) - 1)) (1 / ((1001 : ℕ) - 1)) 1 + fdmRounding 100 500 101 1001) ∧
    fdmRounding 100 500 101 1001 < 1 / 100000 :=
  ⟨C85_put (option .put) market _ (stock _) (1 / 4) (1 / 16) 0 100 100 1 500 101 1001 rfl rfl Dbl.lit_zero rfl rfl grid _ rfl 1 one_pos, by norm_num [fdmRounding]⟩

example : ∃ s, construct .explicit (.num ((500 : ℝ) : EReal)) 101 (option .call).T 1001 (BlackScholes.pde (option .call) market) (fun _ => lit 0) = .ok s ∧
    ∃ T' : ℝ, (T' = 1 ∨ T' = 1 + 1 / ((1001 : ℕ) - 1)) ∧ ∀ fuel, 1001 < fuel → ∃ y : ℝ,
      (calculatePrice .explicit .linear (BlackScholes.pde (option .call) market) (FdmWorld.spot (option .call) market) fuel s).1 = .ok (.num y) ∧
      |y - blackScholesCall 100 (1 / 4) (1 / 16) 0 T' 100| ≤
        callGridError (1 / 4) (1 / 16) 0 T' 100 100 500 (500 / ((101 : ℕ) - 1)) (1 / ((1001 : ℕ) - 1)) 1 + fdmRounding 100 500 101 1001 :=
  C85_call (option .call) market _ (stock _) (1 / 4) (1 / 16) 0 100 100 1 500 101 1001 rfl rfl Dbl.lit_zero rfl rfl grid _ rfl 1 one_pos

/-- The same market in exact arithmetic. -/
noncomputable def exactMarket : Market ℝ := ⟨[⟨100, 1 / 4, none⟩], [("A", 0)], 1 / 16, [], [], []⟩

noncomputable def exactOption (ty : PayoffType) : OptObj ℝ := ⟨.european, "A", .vanilla ty 100, 1, none⟩

/-- The hypotheses about the exact objects. -/
example : ∃ s, construct .explicit (.num ((500 : ℝ) : EReal)) 101 (option .put).T 1001 (BlackScholes.pde (option .put) market) (fun _ => lit 0) = .ok s ∧
    ∃ n : ℕ, (n = 1001 - 1 ∨ n = 1001) ∧ ∃ s', construct .explicit 500 101 ((n : ℝ) * (1 / ((1001 : ℕ) - 1))) (n + 1) (BlackScholes.pde (exactOption .put) exactMarket) (fun _ => (0 : ℝ)) = .ok s' ∧
      ∀ fuel fuel', 1001 < fuel → n + 1 ≤ fuel' → ∃ y y' : ℝ,
        (calculatePrice .explicit .linear (BlackScholes.pde (option .put) market) (FdmWorld.spot (option .put) market) fuel s).1 = .ok (.num y) ∧
        (calculatePrice .explicit .linear (BlackScholes.pde (exactOption .put) exactMarket) (FdmWorld.spot (exactOption .put) exactMarket) fuel' s').1 = .ok y' ∧
        |y - y'| ≤ fdmRounding 100 500 101 1001 :=
  C85_roundingPut (option .put) market _ (stock _) (1 / 4) (1 / 16) 0 100 100 1 500 101 1001 rfl rfl Dbl.lit_zero rfl rfl grid _ rfl (exactOption .put) exactMarket
    ⟨100, 1 / 4, none⟩ rfl rfl rfl rfl rfl rfl _

example : ∃ s, construct .explicit (.num ((500 : ℝ) : EReal)) 101 (option .call).T 1001 (BlackScholes.pde (option .call) market) (fun _ => lit 0) = .ok s ∧
    ∃ n : ℕ, (n = 1001 - 1 ∨ n = 1001) ∧ ∃ s', construct .explicit 500 101 ((n : ℝ) * (1 / ((1001 : ℕ) - 1))) (n + 1) (BlackScholes.pde (exactOption .call) exactMarket) (fun _ => (0 : ℝ)) = .ok s' ∧
      ∀ fuel fuel', 1001 < fuel → n + 1 ≤ fuel' → ∃ y y' : ℝ,
        (calculatePrice .explicit .linear (BlackScholes.pde (option .call) market) (FdmWorld.spot (option .call) market) fuel s).1 = .ok (.num y) ∧
        (calculatePrice .explicit .linear (BlackScholes.pde (exactOption .call) exactMarket) (FdmWorld.spot (exactOption .call) exactMarket) fuel' s').1 = .ok y' ∧
        |y - y'| ≤ fdmRounding 100 500 101 1001 :=
  C85_roundingCall (option .call) market _ (stock _) (1 / 4) (1 / 16) 0 100 100 1 500 101 1001 rfl rfl Dbl.lit_zero rfl rfl grid _ rfl (exactOption .call) exactMarket
    ⟨100, 1 / 4, none⟩ rfl rfl rfl rfl rfl rfl rfl _

end FdmDoubleExample
end Verif
