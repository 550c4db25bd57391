import Verif.Lemmas.FdmPrice
import Verif.Model.FdmWorld
import Verif.Props.Session

/-!
# Property C83: finite difference prices of calls and puts against the Black-Scholes formula
-/

namespace Verif
open Spec MeasureTheory ProbabilityTheory

namespace Fdm
open Set

/-- The payoff of a put, extended to negative prices. -/
noncomputable def tent (K y : ℝ) : ℝ := max (K - |y|) 0

variable {σ r c K δ : ℝ}

theorem continuous_tent : Continuous (tent K) := by unfold tent; fun_prop

theorem tent_lipschitz (x y : ℝ) : |tent K x - tent K y| ≤ 1 * |x - y| := by
  have h := abs_max_sub_max_le_abs (K - |x|) (K - |y|) 0
  have h2 := abs_abs_sub_abs_le x y
  unfold tent
  rw [one_mul]
  refine h.trans (le_trans (le_of_eq ?_) h2)
  rw [← abs_neg]
  congr 1
  ring

theorem tent_mem (hK : 0 ≤ K) (y : ℝ) : tent K y ∈ Icc 0 K := ⟨le_max_right _ _, max_le (by linarith [abs_nonneg y]) hK⟩

theorem abs_tent_le (hK : 0 ≤ K) (y : ℝ) : |tent K y| ≤ K := by rw [abs_of_nonneg (tent_mem hK y).1]; exact (tent_mem hK y).2

theorem tent_eq_zero (y : ℝ) (hy : K ≤ |y|) : tent K y = 0 := max_eq_right (by linarith)

theorem tent_of_nonneg {y : ℝ} (hy : 0 ≤ y) : tent K y = max (K - y) 0 := by rw [tent, abs_of_nonneg hy]

/-- The payoff of a put with the kink rounded off. -/
noncomputable def rounded (δ K : ℝ) : ℝ → ℝ := Smoothing.smooth δ (tent K)

/-- The rounded payoff is smooth. -/
noncomputable def roundedPayoff (hδ : 0 < δ) (hK : 0 ≤ K) : SmoothPayoff (rounded δ K) (K + 4 * δ) K 1 (1 / δ) (1 / δ / δ) (1 / δ / δ / δ) :=
  Smoothing.smoothPayoff hδ continuous_tent tent_lipschitz (abs_tent_le hK) tent_eq_zero

theorem rounded_close (hδ : 0 < δ) (y : ℝ) : |rounded δ K y - tent K y| ≤ 4 * δ := by
  have := Smoothing.smooth_close hδ (continuous_tent (K := K)) tent_lipschitz zero_le_one y
  rwa [mul_one] at this

theorem rounded_mem (hδ : 0 < δ) (hK : 0 ≤ K) (y : ℝ) : rounded δ K y ∈ Icc 0 K := Smoothing.smooth_mem hδ continuous_tent (tent_mem hK) y

theorem continuous_rounded (hδ : 0 < δ) (hK : 0 ≤ K) : Continuous (rounded δ K) := (roundedPayoff hδ hK).continuous.1

theorem optionValue_rounded (hδ : 0 < δ) (hK : 0 ≤ K) (hr : 0 ≤ r) {t : ℝ} (ht : 0 ≤ t) (x : ℝ) : optionValue (rounded δ K) σ r c t x ∈ Icc 0 K := by
  constructor
  · exact mul_nonneg (Real.exp_pos _).le (integral_nonneg fun z => (rounded_mem hδ hK _).1)
  · exact (le_abs_self _).trans (abs_optionValue_le (fun y => by rw [abs_of_nonneg (rounded_mem hδ hK y).1]; exact (rounded_mem hδ hK y).2) hr ht x)

theorem optionValue_zero (g : ℝ → ℝ) (x : ℝ) : optionValue g σ r c 0 x = g x := by
  simp [optionValue, terminalPrice]

/-- The effect of rounding on the price. -/
theorem optionValue_rounded_close (hδ : 0 < δ) (hK : 0 ≤ K) (hr : 0 ≤ r) {t x : ℝ} (ht : 0 ≤ t) (hx : 0 ≤ x) :
    |optionValue (rounded δ K) σ r c t x - optionValue (putPayoff K) σ r c t x| ≤ 4 * δ := by
  have e : optionValue (putPayoff K) σ r c t x = optionValue (tent K) σ r c t x := by
    unfold optionValue
    congr 1
    refine integral_congr_ae (ae_of_all _ fun z => ?_)
    dsimp only
    rw [putPayoff, tent_of_nonneg (show 0 ≤ terminalPrice σ r c t x z from mul_nonneg hx (Real.exp_pos _).le)]
  have i1 : Integrable (fun z => rounded δ K (terminalPrice σ r c t x z)) (gaussianReal 0 1) :=
    Integrable.of_bound ((continuous_rounded hδ hK).comp (continuous_terminalPrice x)).aestronglyMeasurable K
      (ae_of_all _ fun z => by rw [Real.norm_eq_abs, abs_of_nonneg (rounded_mem hδ hK _).1]; exact (rounded_mem hδ hK _).2)
  have i2 : Integrable (fun z => tent K (terminalPrice σ r c t x z)) (gaussianReal 0 1) :=
    Integrable.of_bound (continuous_tent.comp (continuous_terminalPrice x)).aestronglyMeasurable K (ae_of_all _ fun z => abs_tent_le hK _)
  have e2 : optionValue (rounded δ K) σ r c t x - optionValue (tent K) σ r c t x = optionValue (fun y => rounded δ K y - tent K y) σ r c t x := by
    unfold optionValue
    rw [integral_sub i1 i2]
    ring
  rw [e, e2]
  exact abs_optionValue_le (rounded_close hδ) hr ht x

section
variable {sc : Scheme ℝ} {p : Pde ℝ} {q : Problem} (hp : Describes p q) (hq : BlackScholesCoefficients q σ r c) (hr : 0 ≤ r) {X T : ℝ} {J N : ℕ}
  (hX : 0 < X) (hT : 0 < T) (hd : DiffusionDominates q J (X / (J - 1))) (hκ : (σ ^ 2 + 2 * |r - c|) * (T / (N - 1)) ≤ 1 / 2) (hK : 0 ≤ K) (hδ : 0 < δ)
  {A B BL BR : ℝ} (hf : ∀ x, 0 ≤ x → q.initial x = max (K - x) 0 + (A * x + B))

include hδ hf in
theorem initial_error {x : ℝ} (hx : 0 ≤ x) : |q.initial x - portfolio (rounded δ K) σ r c A B 0 x| ≤ 4 * δ := by
  rw [hf x hx, portfolio, optionValue_zero, ← tent_of_nonneg hx, mul_zero, mul_zero, Real.exp_zero, mul_one, mul_one]
  rw [add_sub_add_right_eq_sub, abs_sub_comm]
  exact rounded_close hδ x

include hp hq hr hX hT hd hκ hK hδ hf in
/-- From the run of a scheme to the error of the price. -/
theorem run_price (kd : Interp.Kind) (hJ : 2 ≤ J) (hm : J ≤ 2 ^ 31) (hN : 2 ≤ N) (hBL : 0 ≤ BL) (hBR : 0 ≤ BR) {θ : ℝ} (hθ0 : 0 ≤ θ) (hθ1 : θ ≤ 1)
    (hw : ∀ t j, 1 ≤ j → j + 1 < J →
      0 ≤ 1 - (1 - θ) * (T / (N - 1)) * (2 * q.D t (j * (X / (J - 1))) / (X / (J - 1)) ^ 2 - q.R t (j * (X / (J - 1)))))
    {U V : ℕ → ℕ → ℝ} (h0 : ∀ j < J, U 0 j = q.initial (j * (X / (J - 1))))
    (hV : ∀ n < N - 1, (∀ j, 1 ≤ j → j + 1 < J → V n j = U n j) ∧
      |V n 0 - portfolio (rounded δ K) σ r c A B (n * (T / (N - 1))) 0| ≤ 4 * δ + BL ∧
      |V n (J - 1) - portfolio (rounded δ K) σ r c A B (n * (T / (N - 1))) X| ≤ 4 * δ + BR)
    (hs : ∀ n < N - 1, (∀ j, 1 ≤ j → j + 1 < J → (U (n + 1) j - U n j) / (T / (N - 1)) =
        (1 - θ) * central q (X / (J - 1)) (n * (T / (N - 1))) (V n) j +
        θ * central q (X / (J - 1)) (n * (T / (N - 1)) + T / (N - 1)) (U (n + 1)) j) ∧
      |U (n + 1) 0 - portfolio (rounded δ K) σ r c A B (n * (T / (N - 1)) + T / (N - 1)) 0| ≤ BL ∧
      |U (n + 1) (J - 1) - portfolio (rounded δ K) σ r c A B (n * (T / (N - 1)) + T / (N - 1)) X| ≤ BR)
    {junk : ℕ → ℝ} {s : Fdm ℝ} (hc : construct sc X J T N p junk = .ok s) {fuel : ℕ} (hfuel : N ≤ fuel)
    (hsol : (solve sc p fuel s).1 = .ok ((List.range J).map (U (N - 1)))) {S : ℝ} (hS : 0 < S) (hSX : S ≤ X) (hh : 2 * (X / (J - 1)) ≤ S) :
    ∃ y, (calculatePrice sc kd p (.ok S) fuel s).1 = .ok y ∧
      |y - (optionValue (putPayoff K) σ r c T S + (A * S * Real.exp (-c * T) + B * Real.exp (-r * T)))| ≤
      gridError σ r c T S X (X / (J - 1)) (T / (N - 1)) δ (timeConstant σ r c K δ + |A| * X * c ^ 2 * Real.exp (|c| * T) + |B| * r ^ 2) BL BR := by
  have hJ1 : (0 : ℝ) < J - 1 := by
    have : (2 : ℝ) ≤ J := by exact_mod_cast hJ
    linarith
  have hN1 : (0 : ℝ) < N - 1 := by
    have : (2 : ℝ) ≤ N := by exact_mod_cast hN
    linarith
  have hh0 : 0 < X / ((J : ℝ) - 1) := div_pos hX hJ1
  have hk0 : 0 < T / ((N : ℝ) - 1) := div_pos hT hN1
  have hR : 0 ≤ K + 4 * δ := by positivity
  have P := roundedPayoff hδ hK
  set w := portfolio (rounded δ K) σ r c A B with hwd
  have Bd := portfolio_bounded hq P hR A B hr X T
  have err := theta_error hq hr Bd hJ hN hX hT hd hθ0 hθ1 hw (by linarith) (by positivity : 0 ≤ 4 * δ) hBL hBR
    (fun j hj => by rw [h0 j hj]; exact initial_error hδ hf (time_le hJ hX (by omega : j ≤ J - 1)).1) hV
    (fun n hn => ⟨(hs n hn).1, (hs n hn).2.1.trans (by linarith), (hs n hn).2.2.trans (by linarith)⟩) (N - 1) le_rfl
  rw [last_time hN] at err
  set τ := truncation (X / (J - 1)) (T / (N - 1)) (σ ^ 2 / 2 * X ^ 2) (|r - c| * X)
    (timeBound σ r c (K + 4 * δ) K 1 (1 / δ) (1 / δ / δ) (1 / δ / δ / δ) + |A| * X * c ^ 2 * Real.exp (|c| * T) + |B| * r ^ 2)
    (1 / δ / δ * Real.exp ((3 * |r - c| + 3 * σ ^ 2) * T)) (1 / δ / δ / δ * Real.exp ((4 * |r - c| + 6 * σ ^ 2) * T)) with hτ
  have hτ0 : 0 ≤ τ := truncation_nonneg Bd hX hT hk0.le
  set E := 4 * δ + T * τ + Real.exp (2 * (σ ^ 2 + 2 * |r - c|) * T) * (BL * (2 * (X / (J - 1)) / S) + BR * (2 * S / X) ^ 2) with hEd
  have hE : 0 ≤ E := by positivity
  have hM : ∀ x ∈ Icc 0 X, |(portfolioSolution hq P hR A B X T).uxx T x| ≤ 1 / δ * Real.exp ((2 * |r - c| + σ ^ 2) * T) :=
    fun x _ => portfolio_uxx hq P hR A B hr X T hT.le le_rfl x
  rw [price_returns hp hJ hN hT hc hfuel hsol]
  obtain ⟨y, hy, hb⟩ := interpolate_local kd (x := S) (E := E) hJ hm hh0 (last_node hJ) ⟨hS.le, hSX⟩ (by simp : ((List.range J).map (U (N - 1))).length = J)
    ((portfolioSolution hq P hR A B X T).hasX T ⟨hT.le, le_rfl⟩) ((portfolioSolution hq P hR A B X T).hasXX T ⟨hT.le, le_rfl⟩) hM hE (by
      intro j y hj hn
      obtain ⟨hlt, rfl⟩ := map_range_getElem? hj
      obtain ⟨n1, n2⟩ := abs_le.mp hn
      refine (err j hlt).trans (barrier_le hJ hN hX hT (by positivity) hκ hBL hBR hS ?_ ?_)
      · have : ((j : ℝ) + 1) * (X / (J - 1)) = j * (X / (J - 1)) + X / (J - 1) := by ring
        linarith
      · linarith)
  refine ⟨y, hy, ?_⟩
  have hb2 : |y - w T S| ≤ 5 / 4 * E + 1 / δ * Real.exp ((2 * |r - c| + σ ^ 2) * T) * (X / (J - 1)) ^ 2 / 2 := by
    have p0 : 0 ≤ 1 / δ * Real.exp ((2 * |r - c| + σ ^ 2) * T) * (X / (J - 1)) ^ 2 := by positivity
    cases kd with
    | linear => dsimp only at hb; linarith
    | quadratic => exact hb
  have cl := optionValue_rounded_close (σ := σ) (c := c) hδ hK hr hT.le hS.le
  have ew : w T S - (optionValue (putPayoff K) σ r c T S + (A * S * Real.exp (-c * T) + B * Real.exp (-r * T))) =
      optionValue (rounded δ K) σ r c T S - optionValue (putPayoff K) σ r c T S := by
    rw [hwd, portfolio]; ring
  have tri := abs_sub_le y (w T S) (optionValue (putPayoff K) σ r c T S + (A * S * Real.exp (-c * T) + B * Real.exp (-r * T)))
  rw [ew] at tri
  refine tri.trans ((add_le_add hb2 cl).trans (le_of_eq ?_))
  rw [gridError, boundaryEffect, hEd, hτ, truncation, timeConstant, spaceConstant]

include hp hq hr hX hT hd hκ hK hδ hf in
/-- Implicit Euler. -/
theorem implicit_price (kd : Interp.Kind) (hJ : 4 ≤ J) (hm : J ≤ 2 ^ 31) (hN : 2 ≤ N) (hBL : 0 ≤ BL) (hBR : 0 ≤ BR)
    (hl : ∀ t ∈ Icc 0 T, ∀ t' ∈ Icc 0 T, |q.left t 0 - portfolio (rounded δ K) σ r c A B t' 0| ≤ BL)
    (hri : ∀ t ∈ Icc 0 T, ∀ t' ∈ Icc 0 T, |q.right t X - portfolio (rounded δ K) σ r c A B t' X| ≤ BR) (junk : ℕ → ℝ)
    {S : ℝ} (hS : 0 < S) (hSX : S ≤ X) (hh : 2 * (X / (J - 1)) ≤ S) :
    ∃ s, construct (.implicit thomas) X J T N p junk = .ok s ∧ ∀ fuel, N ≤ fuel → ∃ y, (calculatePrice (.implicit thomas) kd p (.ok S) fuel s).1 = .ok y ∧
      |y - (optionValue (putPayoff K) σ r c T S + (A * S * Real.exp (-c * T) + B * Real.exp (-r * T)))| ≤
      gridError σ r c T S X (X / (J - 1)) (T / (N - 1)) δ (timeConstant σ r c K δ + |A| * X * c ^ 2 * Real.exp (|c| * T) + |B| * r ^ 2) BL BR := by
  obtain ⟨s, hs, h⟩ := C55_thomas p q hp X T J N junk hJ hm hN hX hT hd
  refine ⟨s, hs, fun fuel hfuel => ?_⟩
  obtain ⟨U, hu, h0, hn⟩ := h fuel hfuel
  have hmem : ∀ n ≤ N - 1, (n : ℝ) * (T / (N - 1)) ∈ Icc 0 T := fun n hn => time_le hN hT hn
  have hmem' : ∀ n < N - 1, (n : ℝ) * (T / (N - 1)) + T / (N - 1) ∈ Icc 0 T := fun n hn => by
    have := hmem (n + 1) (by omega)
    push_cast at this
    rwa [show ((n : ℝ) + 1) * (T / (N - 1)) = n * (T / (N - 1)) + T / (N - 1) by ring] at this
  refine run_price hp hq hr hX hT hd hκ hK hδ hf kd (by omega) hm hN hBL hBR zero_le_one le_rfl (fun t j _ _ => by norm_num) (U := U) (V := U) h0 ?_ ?_ hs hfuel hu hS hSX hh
  · intro n hn'
    refine ⟨fun _ _ _ => rfl, ?_⟩
    rcases n with _ | n
    · rw [h0 0 (by omega), h0 (J - 1) (by omega), last_node (by omega : 2 ≤ J), Nat.cast_zero, zero_mul, zero_mul]
      have a := initial_error (σ := σ) (r := r) (c := c) hδ hf le_rfl
      have b := initial_error (σ := σ) (r := r) (c := c) hδ hf hX.le
      exact ⟨a.trans (by linarith), b.trans (by linarith)⟩
    · obtain ⟨-, b0, bJ⟩ := hn n (by omega)
      rw [b0, bJ]
      have m1 := hmem' n (by omega)
      have m2 := hmem (n + 1) (by omega)
      exact ⟨(hl _ m1 _ m2).trans (by linarith), (hri _ m1 _ m2).trans (by linarith)⟩
  · intro n hn'
    obtain ⟨e, b0, bJ⟩ := hn n hn'
    have m1 := hmem' n hn'
    rw [b0, bJ]
    refine ⟨fun j h1 h2 => ?_, hl _ m1 _ m1, hri _ m1 _ m1⟩
    rw [e j h1 h2]
    ring

include hp hq hr hX hT hd hκ hK hδ hf in
/-- Explicit Euler. -/
theorem explicit_price (kd : Interp.Kind) (hJ : 2 ≤ J) (hm : J ≤ 2 ^ 31) (hN : 2 ≤ N) (hBL : 0 ≤ BL) (hBR : 0 ≤ BR)
    (hw : ∀ t j, 1 ≤ j → j + 1 < J → 0 ≤ 1 - T / (N - 1) * (2 * q.D t (j * (X / (J - 1))) / (X / (J - 1)) ^ 2 - q.R t (j * (X / (J - 1)))))
    (hl : ∀ t ∈ Icc 0 T, ∀ t' ∈ Icc 0 T, |q.left t 0 - portfolio (rounded δ K) σ r c A B t' 0| ≤ BL)
    (hri : ∀ t ∈ Icc 0 T, ∀ t' ∈ Icc 0 T, |q.right t X - portfolio (rounded δ K) σ r c A B t' X| ≤ BR) (junk : ℕ → ℝ)
    {S : ℝ} (hS : 0 < S) (hSX : S ≤ X) (hh : 2 * (X / (J - 1)) ≤ S) :
    ∃ s, construct .explicit X J T N p junk = .ok s ∧ ∀ fuel, N ≤ fuel → ∃ y, (calculatePrice .explicit kd p (.ok S) fuel s).1 = .ok y ∧
      |y - (optionValue (putPayoff K) σ r c T S + (A * S * Real.exp (-c * T) + B * Real.exp (-r * T)))| ≤
      gridError σ r c T S X (X / (J - 1)) (T / (N - 1)) δ (timeConstant σ r c K δ + |A| * X * c ^ 2 * Real.exp (|c| * T) + |B| * r ^ 2) BL BR := by
  obtain ⟨s, hs, h⟩ := C54_partial p q hp X T J N junk hJ hN hX hT
  refine ⟨s, hs, fun fuel hfuel => ?_⟩
  obtain ⟨U, hu, h0, hn⟩ := h fuel hfuel
  have hmem : ∀ n ≤ N - 1, (n : ℝ) * (T / (N - 1)) ∈ Icc 0 T := fun n hn => time_le hN hT hn
  have hmem' : ∀ n < N - 1, (n : ℝ) * (T / (N - 1)) + T / (N - 1) ∈ Icc 0 T := fun n hn => by
    have := hmem (n + 1) (by omega)
    push_cast at this
    rwa [show ((n : ℝ) + 1) * (T / (N - 1)) = n * (T / (N - 1)) + T / (N - 1) by ring] at this
  refine run_price hp hq hr hX hT hd hκ hK hδ hf kd (by omega) hm hN hBL hBR le_rfl zero_le_one (fun t j h1 h2 => by simpa using hw t j h1 h2)
    (U := U) (V := U) h0 ?_ ?_ hs hfuel hu hS hSX hh
  · intro n hn'
    refine ⟨fun _ _ _ => rfl, ?_⟩
    rcases n with _ | n
    · rw [h0 0 (by omega), h0 (J - 1) (by omega), last_node (by omega : 2 ≤ J), Nat.cast_zero, zero_mul, zero_mul]
      have a := initial_error (σ := σ) (r := r) (c := c) hδ hf le_rfl
      have b := initial_error (σ := σ) (r := r) (c := c) hδ hf hX.le
      exact ⟨a.trans (by linarith), b.trans (by linarith)⟩
    · obtain ⟨-, b0, bJ⟩ := hn n (by omega)
      rw [b0, bJ]
      have m1 := hmem n (by omega)
      have m2 := hmem (n + 1) (by omega)
      exact ⟨(hl _ m1 _ m2).trans (by linarith), (hri _ m1 _ m2).trans (by linarith)⟩
  · intro n hn'
    obtain ⟨e, b0, bJ⟩ := hn n hn'
    have m1 := hmem n (by omega)
    have m2 := hmem' n hn'
    rw [b0, bJ]
    refine ⟨fun j h1 h2 => ?_, hl _ m1 _ m2, hri _ m1 _ m2⟩
    rw [e j h1 h2]
    ring

include hp hq hr hX hT hd hκ hK hδ hf in
/-- Crank-Nicolson, which replaces the boundary values of the old level by 0. -/
theorem cn_price (kd : Interp.Kind) (hJ : 4 ≤ J) (hm : J ≤ 2 ^ 31) (hN : 2 ≤ N) (hBL : 0 ≤ BL) (hBR : 0 ≤ BR)
    (hw : ∀ t j, 1 ≤ j → j + 1 < J → 0 ≤ 1 - T / (N - 1) / 2 * (2 * q.D t (j * (X / (J - 1))) / (X / (J - 1)) ^ 2 - q.R t (j * (X / (J - 1)))))
    (hl0 : ∀ t ∈ Icc 0 T, |portfolio (rounded δ K) σ r c A B t 0| ≤ BL) (hr0 : ∀ t ∈ Icc 0 T, |portfolio (rounded δ K) σ r c A B t X| ≤ BR)
    (hl : ∀ t ∈ Icc 0 T, ∀ t' ∈ Icc 0 T, |q.left t 0 - portfolio (rounded δ K) σ r c A B t' 0| ≤ BL)
    (hri : ∀ t ∈ Icc 0 T, ∀ t' ∈ Icc 0 T, |q.right t X - portfolio (rounded δ K) σ r c A B t' X| ≤ BR) (junk : ℕ → ℝ)
    {S : ℝ} (hS : 0 < S) (hSX : S ≤ X) (hh : 2 * (X / (J - 1)) ≤ S) :
    ∃ s, construct (.crankNicolson thomas) X J T N p junk = .ok s ∧ ∀ fuel, N ≤ fuel → ∃ y,
      (calculatePrice (.crankNicolson thomas) kd p (.ok S) fuel s).1 = .ok y ∧
      |y - (optionValue (putPayoff K) σ r c T S + (A * S * Real.exp (-c * T) + B * Real.exp (-r * T)))| ≤
      gridError σ r c T S X (X / (J - 1)) (T / (N - 1)) δ (timeConstant σ r c K δ + |A| * X * c ^ 2 * Real.exp (|c| * T) + |B| * r ^ 2) BL BR := by
  obtain ⟨s, hs, h⟩ := C56_partial p q hp X T J N junk hJ hm hN hX hT hd
  refine ⟨s, hs, fun fuel hfuel => ?_⟩
  obtain ⟨U, hu, h0, hn⟩ := h fuel hfuel
  have hmem : ∀ n ≤ N - 1, (n : ℝ) * (T / (N - 1)) ∈ Icc 0 T := fun n hn => time_le hN hT hn
  have hmem' : ∀ n < N - 1, (n : ℝ) * (T / (N - 1)) + T / (N - 1) ∈ Icc 0 T := fun n hn => by
    have := hmem (n + 1) (by omega)
    push_cast at this
    rwa [show ((n : ℝ) + 1) * (T / (N - 1)) = n * (T / (N - 1)) + T / (N - 1) by ring] at this
  refine run_price hp hq hr hX hT hd hκ hK hδ hf kd (by omega) hm hN hBL hBR (by norm_num : (0 : ℝ) ≤ 1 / 2) (by norm_num)
    (fun t j h1 h2 => by have := hw t j h1 h2; rwa [show (1 - 1 / 2 : ℝ) * (T / (N - 1)) = T / (N - 1) / 2 by ring])
    (U := U) (V := fun n => withoutEnds J (U n)) h0 ?_ ?_ hs hfuel hu hS hSX hh
  · intro n hn'
    have m := hmem n (by omega)
    refine ⟨fun j h1 h2 => if_pos ⟨h1, h2⟩, ?_⟩
    have e0 : withoutEnds J (U n) 0 = 0 := if_neg (by omega)
    have eJ : withoutEnds J (U n) (J - 1) = 0 := if_neg (by omega)
    rw [e0, eJ, zero_sub, abs_neg, zero_sub, abs_neg]
    exact ⟨(hl0 _ m).trans (by linarith), (hr0 _ m).trans (by linarith)⟩
  · intro n hn'
    obtain ⟨e, b0, bJ⟩ := hn n hn'
    have m1 := hmem' n hn'
    rw [b0, bJ]
    refine ⟨fun j h1 h2 => ?_, hl _ m1 _ m1, hri _ m1 _ m1⟩
    rw [e j h1 h2]
    norm_num

end

/-! ### Boundary values -/

theorem put_coefficients : BlackScholesCoefficients (putProblem σ r c K) σ r c := ⟨fun _ _ => rfl, fun _ _ => rfl, fun _ _ => rfl, fun _ _ => rfl⟩

theorem call_coefficients {T : ℝ} : BlackScholesCoefficients (callProblem σ r c K T) σ r c :=
  ⟨fun _ _ => rfl, fun _ _ => rfl, fun _ _ => rfl, fun _ _ => rfl⟩

section
variable (hδ : 0 < δ) (hK : 0 ≤ K) (hr : 0 ≤ r) {t : ℝ} (ht : 0 ≤ t)
include hδ hK hr ht

theorem put_value (x : ℝ) : portfolio (rounded δ K) σ r c 0 0 t x ∈ Icc 0 K := by
  have := optionValue_rounded (σ := σ) (c := c) hδ hK hr ht x
  simpa [portfolio] using this

theorem call_left_value : |portfolio (rounded δ K) σ r c 1 (-K) t 0| ≤ K := by
  obtain ⟨a, b⟩ := optionValue_rounded (σ := σ) (c := c) hδ hK hr ht 0
  have e1 : Real.exp (-r * t) ≤ 1 := Real.exp_le_one_iff.mpr (by nlinarith [mul_nonneg hr ht])
  have e0 := Real.exp_pos (-r * t)
  have := mul_le_mul_of_nonneg_left e1 hK
  have := mul_nonneg hK e0.le
  rw [portfolio, abs_le]
  constructor <;> nlinarith

theorem call_right_value {x T : ℝ} (hx : 0 ≤ x) (hT : t ≤ T) : |portfolio (rounded δ K) σ r c 1 (-K) t x| ≤ x * Real.exp (|c| * T) + 2 * K := by
  obtain ⟨a, b⟩ := optionValue_rounded (σ := σ) (c := c) hδ hK hr ht x
  have e1 : Real.exp (-r * t) ≤ 1 := Real.exp_le_one_iff.mpr (by nlinarith [mul_nonneg hr ht])
  have := mul_le_mul_of_nonneg_left e1 hK
  have := mul_nonneg hK (Real.exp_pos (-r * t)).le
  have := mul_le_mul_of_nonneg_left (exp_le_abs (a := c) ht hT) hx
  have := mul_nonneg hx (Real.exp_pos (-c * t)).le
  rw [portfolio, abs_le]
  constructor <;> linarith

theorem call_right_error {x T t' : ℝ} (hx : 0 ≤ x) (hT : t ≤ T) (ht' : t' ≤ T) :
    |x - K * Real.exp (-r * (T - t')) - portfolio (rounded δ K) σ r c 1 (-K) t x| ≤ x * (Real.exp (|c| * T) - 1) + 2 * K := by
  obtain ⟨a, b⟩ := optionValue_rounded (σ := σ) (c := c) hδ hK hr ht x
  have e1 : Real.exp (-r * t) ≤ 1 := Real.exp_le_one_iff.mpr (by nlinarith [mul_nonneg hr ht])
  have e2 : Real.exp (-r * (T - t')) ≤ 1 := Real.exp_le_one_iff.mpr (by nlinarith [mul_nonneg hr (sub_nonneg.mpr ht')])
  have m1 := mul_le_mul_of_nonneg_left e1 hK
  have m2 := mul_nonneg hK (Real.exp_pos (-r * t)).le
  have m3 := mul_le_mul_of_nonneg_left e2 hK
  have m4 := mul_nonneg hK (Real.exp_pos (-r * (T - t'))).le
  have u1 := mul_le_mul_of_nonneg_left (exp_le_abs (a := c) ht hT) hx
  have u2 : x * (2 - Real.exp (|c| * T)) ≤ x * Real.exp (-c * t) := by
    refine mul_le_mul_of_nonneg_left ?_ hx
    have p1 := exp_le_abs (a := -c) ht hT
    rw [neg_neg, abs_neg] at p1
    have p2 : Real.exp (c * t) * Real.exp (-c * t) = 1 := by rw [← Real.exp_add]; simp
    nlinarith [Real.exp_pos (c * t), Real.exp_pos (-c * t), sq_nonneg (Real.exp (c * t) - 1), sq_nonneg (Real.exp (-c * t) - 1),
      sq_nonneg (Real.exp (c * t) - Real.exp (-c * t))]
  rw [portfolio, abs_le]
  constructor <;> linarith

end

/-- The value of a call is given by the Black-Scholes formula. -/
theorem optionValue_call {T S : ℝ} (hS : 0 < S) (hσ : 0 < σ) (hT : 0 < T) (hK : 0 < K) :
    optionValue (callPayoff K) σ r c T S = blackScholesCall S σ r c T K := by
  have h := integral_call ⟨S, σ, some c, r⟩ hS hT hσ hK
  have hb : 0 < σ * Real.sqrt T := by positivity
  have hd2 : (Real.log (S / K) + (r - c - σ ^ 2 / 2) * T) / (σ * Real.sqrt T) =
      (Real.log (S / K) + (r - c + σ ^ 2 / 2) * T) / (σ * Real.sqrt T) - σ * Real.sqrt T := by
    rw [eq_sub_iff_add_eq, div_add' _ _ _ hb.ne', div_left_inj' hb.ne']
    have : σ * Real.sqrt T * (σ * Real.sqrt T) = σ ^ 2 * T := by rw [← sq, mul_pow, Real.sq_sqrt hT.le]
    rw [this]
    ring
  dsimp only [Option.getD_some] at h
  rw [hd2, sub_add_cancel] at h
  have e : optionValue (callPayoff K) σ r c T S = Real.exp (-r * T) * ∫ z, max (blackScholesPrice ⟨S, σ, some c, r⟩ T z - K) 0 ∂gaussianReal 0 1 := rfl
  rw [e, h, blackScholesCall]
  have m : Real.exp (-r * T) * Real.exp ((r - c) * T) = Real.exp (-(c * T)) := by rw [← Real.exp_add]; congr 1; ring
  rw [show -r * T = -(r * T) by ring] at m ⊢
  linear_combination S * cdf (gaussianReal 0 1) ((Real.log (S / K) + (r - c + σ ^ 2 / 2) * T) / (σ * Real.sqrt T)) * m

/-- The value of a put is given by the Black-Scholes formula. -/
theorem optionValue_put {T S : ℝ} (hS : 0 < S) (hσ : 0 < σ) (hT : 0 < T) (hK : 0 < K) :
    optionValue (putPayoff K) σ r c T S = blackScholesPut S σ r c T K := by
  have h := optionValue_parity (σ := σ) (r := r) (c := c) (K := K) hT.le S
  rw [optionValue_call hS hσ hT hK] at h
  have : optionValue (putPayoff K) σ r c T S = blackScholesCall S σ r c T K - (S * Real.exp (-c * T) - K * Real.exp (-r * T)) := by linarith
  rw [this, blackScholesCall, blackScholesPut, neg_mul, neg_mul]
  ring

theorem spot_ok {o : OptObj ℝ} {m : Market ℝ} {d : StockData ℝ} (hd : BlackScholes.stock o m = .ok d) : FdmWorld.spot o m = .ok d.price := by
  rw [FdmWorld.spot, hd]; rfl

/-- The explicit part of a scheme has non-negative weights. -/
theorem weights_ok {q : Problem} (hq : BlackScholesCoefficients q σ r c) {h k : ℝ} {J : ℕ} (hh : 0 < h) (hk : 0 ≤ k) (hc : k * (σ ^ 2 * (J : ℝ) ^ 2 + r) ≤ 1) (t : ℝ) (j : ℕ)
    (h2 : j + 1 < J) : 0 ≤ 1 - k * (2 * q.D t (j * h) / h ^ 2 - q.R t (j * h)) := by
  rw [hq.D, hq.R]
  have e : 2 * (1 / 2 * σ ^ 2 * ((j : ℝ) * h) ^ 2) / h ^ 2 - -r = σ ^ 2 * (j : ℝ) ^ 2 + r := by field_simp; ring
  rw [e]
  have hj : (j : ℝ) ^ 2 ≤ (J : ℝ) ^ 2 := pow_le_pow_left₀ (by positivity) (by exact_mod_cast (by omega : j ≤ J)) 2
  have := mul_le_mul_of_nonneg_left (add_le_add_left (mul_le_mul_of_nonneg_left hj (sq_nonneg σ)) r) hk
  linarith

end Fdm

open Fdm

section
variable (kd : Interp.Kind) (o : OptObj ℝ) (m : Market ℝ) (d : StockData ℝ) (hd : BlackScholes.stock o m = .ok d) (K : ℝ) (hK : 0 < K)
  (hσ : 0 < d.sigma) (hr : 0 ≤ m.r) (hb : |m.r - d.coupon.getD 0| ≤ d.sigma ^ 2) (hT : 0 < o.T) (X : ℝ) (J N : ℕ) (junk : ℕ → ℝ)
  (hm : J ≤ 2 ^ 31) (hN : 2 ≤ N) (hS : 0 < d.price) (hSX : d.price ≤ X) (hh : 2 * (X / (J - 1)) ≤ d.price)
  (hk : (d.sigma ^ 2 + 2 * |m.r - d.coupon.getD 0|) * (o.T / (N - 1)) ≤ 1 / 2) (δ : ℝ) (hδ : 0 < δ)
include hd hK hσ hr hb hT hm hN hS hSX hh hk hδ

/-- **C83.** Implicit Euler with the Thomas algorithm, European put, on every grid with at least two cells between 0 and the price of the
stock: `calculatePrice()` returns a value within `putGridError` of the Black-Scholes price, although the payoff has a kink and
the boundary value at 0 is wrong (`C60_fails`). -/
theorem C83_put (ho : o.payoff = .vanilla .put K) (hJ : 4 ≤ J) :
    ∃ s, construct (.implicit thomas) X J o.T N (BlackScholes.pde o m) junk = .ok s ∧ ∀ fuel, N ≤ fuel → ∃ y,
      (calculatePrice (.implicit thomas) kd (BlackScholes.pde o m) (FdmWorld.spot o m) fuel s).1 = .ok y ∧
      |y - blackScholesPut d.price d.sigma m.r (d.coupon.getD 0) o.T K| ≤
        putGridError d.sigma m.r (d.coupon.getD 0) o.T K d.price X (X / (J - 1)) (o.T / (N - 1)) δ := by
  have hX := hS.trans_le hSX
  have hJ1 : (0 : ℝ) < J - 1 := by
    have : (4 : ℝ) ≤ J := by exact_mod_cast hJ
    linarith
  rw [spot_ok hd, ← optionValue_put hS hσ hT hK]
  have h := implicit_price (δ := δ) (A := 0) (B := 0) (BL := K) (BR := K) (put_describes hd ho) put_coefficients hr hX hT
    (put_dominates hb hr J (div_pos hX hJ1).le) hk hK.le hδ (fun x _ => by simp [putProblem]) kd hJ hm hN hK.le hK.le
    (fun t _ t' ht' => by
      obtain ⟨a, b⟩ := put_value (σ := d.sigma) (c := d.coupon.getD 0) hδ hK.le hr ht'.1 0
      change |K - _| ≤ K
      rw [abs_le]; constructor <;> linarith)
    (fun t _ t' ht' => by
      obtain ⟨a, b⟩ := put_value (σ := d.sigma) (c := d.coupon.getD 0) hδ hK.le hr ht'.1 X
      change |0 - _| ≤ K
      rw [abs_le]; constructor <;> linarith) junk hS hSX hh
  simpa [putGridError] using h

/-- **C83.** Implicit Euler, European call. -/
theorem C83_call (ho : o.payoff = .vanilla .call K) (hJ : 4 ≤ J) :
    ∃ s, construct (.implicit thomas) X J o.T N (BlackScholes.pde o m) junk = .ok s ∧ ∀ fuel, N ≤ fuel → ∃ y,
      (calculatePrice (.implicit thomas) kd (BlackScholes.pde o m) (FdmWorld.spot o m) fuel s).1 = .ok y ∧
      |y - blackScholesCall d.price d.sigma m.r (d.coupon.getD 0) o.T K| ≤
        callGridError d.sigma m.r (d.coupon.getD 0) o.T K d.price X (X / (J - 1)) (o.T / (N - 1)) δ := by
  have hX := hS.trans_le hSX
  have hJ1 : (0 : ℝ) < J - 1 := by
    have : (4 : ℝ) ≤ J := by exact_mod_cast hJ
    linarith
  have hexp : 0 ≤ Real.exp (|d.coupon.getD 0| * o.T) - 1 := by
    have := Real.one_le_exp (mul_nonneg (abs_nonneg (d.coupon.getD 0)) hT.le)
    linarith
  rw [spot_ok hd, ← optionValue_call hS hσ hT hK, optionValue_parity hT.le]
  have h := implicit_price (δ := δ) (A := 1) (B := -K) (BL := K) (BR := X * (Real.exp (|d.coupon.getD 0| * o.T) - 1) + 2 * K) (call_describes hd ho) call_coefficients hr hX hT
    (call_dominates hb hr J (div_pos hX hJ1).le) hk hK.le hδ (fun x _ => by
      change max (x - K) 0 = _
      rcases le_total x K with hx | hx
      · rw [max_eq_right (by linarith), max_eq_left (by linarith)]; ring
      · rw [max_eq_left (by linarith), max_eq_right (by linarith)]; ring) kd hJ hm hN hK.le (by positivity)
    (fun t _ t' ht' => by
      have := call_left_value (σ := d.sigma) (c := d.coupon.getD 0) hδ hK.le hr ht'.1
      change |0 - _| ≤ K
      rwa [zero_sub, abs_neg])
    (fun t ht t' ht' => call_right_error (σ := d.sigma) (c := d.coupon.getD 0) hδ hK.le hr ht'.1 hX.le ht'.2 ht.2) junk hS hSX hh
  simpa [callGridError, abs_of_pos hK, sub_eq_add_neg] using h

/-- **C83.** Explicit Euler, European put, if its weights are not negative. -/
theorem C83_explicitPut (ho : o.payoff = .vanilla .put K) (hJ : 2 ≤ J) (hw : o.T / (N - 1) * (d.sigma ^ 2 * (J : ℝ) ^ 2 + m.r) ≤ 1) :
    ∃ s, construct .explicit X J o.T N (BlackScholes.pde o m) junk = .ok s ∧ ∀ fuel, N ≤ fuel → ∃ y,
      (calculatePrice .explicit kd (BlackScholes.pde o m) (FdmWorld.spot o m) fuel s).1 = .ok y ∧
      |y - blackScholesPut d.price d.sigma m.r (d.coupon.getD 0) o.T K| ≤
        putGridError d.sigma m.r (d.coupon.getD 0) o.T K d.price X (X / (J - 1)) (o.T / (N - 1)) δ := by
  have hX := hS.trans_le hSX
  have hJ1 : (0 : ℝ) < J - 1 := by
    have : (2 : ℝ) ≤ J := by exact_mod_cast hJ
    linarith
  have hN1 : (0 : ℝ) < N - 1 := by
    have : (2 : ℝ) ≤ N := by exact_mod_cast hN
    linarith
  rw [spot_ok hd, ← optionValue_put hS hσ hT hK]
  have h := explicit_price (δ := δ) (A := 0) (B := 0) (BL := K) (BR := K) (put_describes hd ho) put_coefficients hr hX hT
    (put_dominates hb hr J (div_pos hX hJ1).le) hk hK.le hδ (fun x _ => by simp [putProblem]) kd hJ hm hN hK.le hK.le
    (fun t j _ h2 => weights_ok put_coefficients (div_pos hX hJ1) (div_pos hT hN1).le hw t j h2)
    (fun t _ t' ht' => by
      obtain ⟨a, b⟩ := put_value (σ := d.sigma) (c := d.coupon.getD 0) hδ hK.le hr ht'.1 0
      change |K - _| ≤ K
      rw [abs_le]; constructor <;> linarith)
    (fun t _ t' ht' => by
      obtain ⟨a, b⟩ := put_value (σ := d.sigma) (c := d.coupon.getD 0) hδ hK.le hr ht'.1 X
      change |0 - _| ≤ K
      rw [abs_le]; constructor <;> linarith) junk hS hSX hh
  simpa [putGridError] using h

/-- **C83.** Explicit Euler, European call, if its weights are not negative. -/
theorem C83_explicitCall (ho : o.payoff = .vanilla .call K) (hJ : 2 ≤ J) (hw : o.T / (N - 1) * (d.sigma ^ 2 * (J : ℝ) ^ 2 + m.r) ≤ 1) :
    ∃ s, construct .explicit X J o.T N (BlackScholes.pde o m) junk = .ok s ∧ ∀ fuel, N ≤ fuel → ∃ y,
      (calculatePrice .explicit kd (BlackScholes.pde o m) (FdmWorld.spot o m) fuel s).1 = .ok y ∧
      |y - blackScholesCall d.price d.sigma m.r (d.coupon.getD 0) o.T K| ≤
        callGridError d.sigma m.r (d.coupon.getD 0) o.T K d.price X (X / (J - 1)) (o.T / (N - 1)) δ := by
  have hX := hS.trans_le hSX
  have hJ1 : (0 : ℝ) < J - 1 := by
    have : (2 : ℝ) ≤ J := by exact_mod_cast hJ
    linarith
  have hN1 : (0 : ℝ) < N - 1 := by
    have : (2 : ℝ) ≤ N := by exact_mod_cast hN
    linarith
  have hexp : 0 ≤ Real.exp (|d.coupon.getD 0| * o.T) - 1 := by
    have := Real.one_le_exp (mul_nonneg (abs_nonneg (d.coupon.getD 0)) hT.le)
    linarith
  rw [spot_ok hd, ← optionValue_call hS hσ hT hK, optionValue_parity hT.le]
  have h := explicit_price (δ := δ) (A := 1) (B := -K) (BL := K) (BR := X * (Real.exp (|d.coupon.getD 0| * o.T) - 1) + 2 * K) (call_describes hd ho) call_coefficients hr hX hT
    (call_dominates hb hr J (div_pos hX hJ1).le) hk hK.le hδ (fun x _ => by
      change max (x - K) 0 = _
      rcases le_total x K with hx | hx
      · rw [max_eq_right (by linarith), max_eq_left (by linarith)]; ring
      · rw [max_eq_left (by linarith), max_eq_right (by linarith)]; ring) kd hJ hm hN hK.le (by positivity)
    (fun t j _ h2 => weights_ok call_coefficients (div_pos hX hJ1) (div_pos hT hN1).le hw t j h2)
    (fun t _ t' ht' => by
      have := call_left_value (σ := d.sigma) (c := d.coupon.getD 0) hδ hK.le hr ht'.1
      change |0 - _| ≤ K
      rwa [zero_sub, abs_neg])
    (fun t ht t' ht' => call_right_error (σ := d.sigma) (c := d.coupon.getD 0) hδ hK.le hr ht'.1 hX.le ht'.2 ht.2) junk hS hSX hh
  simpa [callGridError, abs_of_pos hK, sub_eq_add_neg] using h

/-- **C83.** Crank-Nicolson with the Thomas algorithm, European put, if the weights of its explicit half are not negative; it drops the old boundary values
(`C56_fails`). -/
theorem C83_crankNicolsonPut (ho : o.payoff = .vanilla .put K) (hJ : 4 ≤ J) (hw : o.T / (N - 1) / 2 * (d.sigma ^ 2 * (J : ℝ) ^ 2 + m.r) ≤ 1) :
    ∃ s, construct (.crankNicolson thomas) X J o.T N (BlackScholes.pde o m) junk = .ok s ∧ ∀ fuel, N ≤ fuel → ∃ y,
      (calculatePrice (.crankNicolson thomas) kd (BlackScholes.pde o m) (FdmWorld.spot o m) fuel s).1 = .ok y ∧
      |y - blackScholesPut d.price d.sigma m.r (d.coupon.getD 0) o.T K| ≤
        putGridError d.sigma m.r (d.coupon.getD 0) o.T K d.price X (X / (J - 1)) (o.T / (N - 1)) δ := by
  have hX := hS.trans_le hSX
  have hJ1 : (0 : ℝ) < J - 1 := by
    have : (4 : ℝ) ≤ J := by exact_mod_cast hJ
    linarith
  have hN1 : (0 : ℝ) < N - 1 := by
    have : (2 : ℝ) ≤ N := by exact_mod_cast hN
    linarith
  rw [spot_ok hd, ← optionValue_put hS hσ hT hK]
  have hv : ∀ t ∈ Set.Icc 0 o.T, ∀ x, |portfolio (rounded δ K) d.sigma m.r (d.coupon.getD 0) 0 0 t x| ≤ K := fun t ht x => by
    obtain ⟨a, b⟩ := put_value (σ := d.sigma) (c := d.coupon.getD 0) hδ hK.le hr ht.1 x
    rw [abs_le]; constructor <;> linarith
  have h := cn_price (δ := δ) (A := 0) (B := 0) (BL := K) (BR := K) (put_describes hd ho) put_coefficients hr hX hT
    (put_dominates hb hr J (div_pos hX hJ1).le) hk hK.le hδ (fun x _ => by simp [putProblem]) kd hJ hm hN hK.le hK.le
    (fun t j _ h2 => weights_ok put_coefficients (div_pos hX hJ1) (half_pos (div_pos hT hN1)).le hw t j h2) (fun t ht => hv t ht 0) (fun t ht => hv t ht X)
    (fun t _ t' ht' => by
      obtain ⟨a, b⟩ := put_value (σ := d.sigma) (c := d.coupon.getD 0) hδ hK.le hr ht'.1 0
      change |K - _| ≤ K
      rw [abs_le]; constructor <;> linarith)
    (fun t _ t' ht' => by
      change |0 - _| ≤ K
      rw [zero_sub, abs_neg]
      exact hv t' ht' X) junk hS hSX hh
  simpa [putGridError] using h

/-- **C83.** Crank-Nicolson, European call. -/
theorem C83_crankNicolsonCall (ho : o.payoff = .vanilla .call K) (hJ : 4 ≤ J) (hw : o.T / (N - 1) / 2 * (d.sigma ^ 2 * (J : ℝ) ^ 2 + m.r) ≤ 1) :
    ∃ s, construct (.crankNicolson thomas) X J o.T N (BlackScholes.pde o m) junk = .ok s ∧ ∀ fuel, N ≤ fuel → ∃ y,
      (calculatePrice (.crankNicolson thomas) kd (BlackScholes.pde o m) (FdmWorld.spot o m) fuel s).1 = .ok y ∧
      |y - blackScholesCall d.price d.sigma m.r (d.coupon.getD 0) o.T K| ≤
        callGridErrorCN d.sigma m.r (d.coupon.getD 0) o.T K d.price X (X / (J - 1)) (o.T / (N - 1)) δ := by
  have hX := hS.trans_le hSX
  have hJ1 : (0 : ℝ) < J - 1 := by
    have : (4 : ℝ) ≤ J := by exact_mod_cast hJ
    linarith
  have hN1 : (0 : ℝ) < N - 1 := by
    have : (2 : ℝ) ≤ N := by exact_mod_cast hN
    linarith
  rw [spot_ok hd, ← optionValue_call hS hσ hT hK, optionValue_parity hT.le]
  have h := cn_price (δ := δ) (A := 1) (B := -K) (BL := K) (BR := X * Real.exp (|d.coupon.getD 0| * o.T) + 2 * K) (call_describes hd ho) call_coefficients hr hX hT
    (call_dominates hb hr J (div_pos hX hJ1).le) hk hK.le hδ (fun x _ => by
      change max (x - K) 0 = _
      rcases le_total x K with hx | hx
      · rw [max_eq_right (by linarith), max_eq_left (by linarith)]; ring
      · rw [max_eq_left (by linarith), max_eq_right (by linarith)]; ring) kd hJ hm hN hK.le (by positivity)
    (fun t j _ h2 => weights_ok call_coefficients (div_pos hX hJ1) (half_pos (div_pos hT hN1)).le hw t j h2)
    (fun t ht => call_left_value (σ := d.sigma) (c := d.coupon.getD 0) hδ hK.le hr ht.1)
    (fun t ht => call_right_value (σ := d.sigma) (c := d.coupon.getD 0) hδ hK.le hr ht.1 hX.le ht.2)
    (fun t _ t' ht' => by
      have := call_left_value (σ := d.sigma) (c := d.coupon.getD 0) hδ hK.le hr ht'.1
      change |0 - _| ≤ K
      rwa [zero_sub, abs_neg])
    (fun t ht t' ht' => (call_right_error (σ := d.sigma) (c := d.coupon.getD 0) hδ hK.le hr ht'.1 hX.le ht'.2 ht.2).trans (by nlinarith)) junk hS hSX hh
  simpa [callGridErrorCN, abs_of_pos hK, sub_eq_add_neg] using h

end

namespace Fdm

theorem gridError_eq {σ r c T S X h k δ M BL BR : ℝ} : gridError σ r c T S X h k δ M BL BR =
    9 * δ + 5 / 4 * (Real.exp (2 * (σ ^ 2 + 2 * |r - c|) * T) * (BR * (2 * S / X) ^ 2)) +
    (5 / 4 * (T * (M / 2 * k + spaceConstant σ r c T X δ * h ^ 2) + Real.exp (2 * (σ ^ 2 + 2 * |r - c|) * T) * (BL * (2 * h / S))) +
      1 / δ * Real.exp ((2 * |r - c| + σ ^ 2) * T) * h ^ 2 / 2) := by
  rw [gridError, boundaryEffect]
  ring

theorem far_small {G S X a b ε : ℝ} (hG : 0 < G) (hS : 0 < S) (hX1 : 1 ≤ X) (ha : 0 ≤ a) (hb : 0 ≤ b) (hε : 0 < ε)
    (hX : 15 * G * S ^ 2 * (a + b) / ε ≤ X) : 5 / 4 * (G * ((X * a + b) * (2 * S / X) ^ 2)) ≤ ε / 3 := by
  have hX0 : 0 < X := by linarith
  have h1 : X * a + b ≤ X * (a + b) := by nlinarith
  have bR : (X * a + b) * (2 * S / X) ^ 2 ≤ 4 * S ^ 2 * (a + b) / X := by
    calc (X * a + b) * (2 * S / X) ^ 2 ≤ X * (a + b) * (2 * S / X) ^ 2 := mul_le_mul_of_nonneg_right h1 (sq_nonneg _)
      _ = 4 * S ^ 2 * (a + b) / X := by field_simp; ring
  have h2 : G * (4 * S ^ 2 * (a + b) / X) ≤ 4 * ε / 15 := by
    rw [div_le_iff₀ hε] at hX
    rw [mul_div_assoc', div_le_iff₀ hX0]
    linarith
  have := (mul_le_mul_of_nonneg_left bR hG.le).trans h2
  linarith

theorem near_small {T M Q G BL S L δ h k η : ℝ} (hT : 0 < T) (hM : 0 ≤ M) (hQ : 0 ≤ Q) (hG : 0 < G) (hBL : 0 ≤ BL) (hS : 0 < S) (hL : 0 < L) (hδ : 0 < δ)
    (h0 : 0 < h) (h1 : h ≤ 1) (hh : h ≤ η) (hk : k ≤ η) :
    5 / 4 * (T * (M / 2 * k + Q * h ^ 2) + G * (BL * (2 * h / S))) + 1 / δ * L * h ^ 2 / 2 ≤
      (5 / 4 * (T * (M / 2 + Q) + G * (BL * (2 / S))) + 1 / δ * L / 2) * η := by
  have h2 : h ^ 2 ≤ η := by nlinarith
  have i1 : M / 2 * k ≤ M / 2 * η := mul_le_mul_of_nonneg_left hk (by positivity)
  have i2 : Q * h ^ 2 ≤ Q * η := mul_le_mul_of_nonneg_left h2 hQ
  have i3 : G * (BL * (2 * h / S)) ≤ G * (BL * (2 / S)) * η := by
    rw [show G * (BL * (2 * h / S)) = G * (BL * (2 / S)) * h by ring]
    exact mul_le_mul_of_nonneg_left hh (by positivity)
  have i4 : 1 / δ * L * h ^ 2 / 2 ≤ 1 / δ * L / 2 * η := by
    rw [show 1 / δ * L * h ^ 2 / 2 = 1 / δ * L / 2 * h ^ 2 by ring]
    exact mul_le_mul_of_nonneg_left h2 (by positivity)
  have i5 : T * (M / 2 * k + Q * h ^ 2) ≤ T * (M / 2 * η + Q * η) := mul_le_mul_of_nonneg_left (add_le_add i1 i2) hT.le
  calc _ ≤ 5 / 4 * (T * (M / 2 * η + Q * η) + G * (BL * (2 / S)) * η) + 1 / δ * L / 2 * η := by linarith
    _ = _ := by ring

/-- The bounds become small. -/
theorem gridError_small {σ r c T S BL a b : ℝ} (hT : 0 < T) (hS : 0 < S) (hBL : 0 ≤ BL) (ha : 0 ≤ a) (hb : 0 ≤ b) (M : ℝ → ℝ → ℝ)
    (hM : ∀ X δ, 0 < X → 0 < δ → 0 ≤ M X δ) {ε : ℝ} (hε : 0 < ε) :
    ∃ δ > 0, ∃ X₀, ∀ X, X₀ ≤ X → S ≤ X ∧ ∃ η > 0, ∀ h k, 0 < h → h ≤ η → k ≤ η →
      2 * h ≤ S ∧ (σ ^ 2 + 2 * |r - c|) * k ≤ 1 / 2 ∧ gridError σ r c T S X h k δ (M X δ) BL (X * a + b) ≤ ε := by
  obtain ⟨G, hG⟩ : ∃ G, G = Real.exp (2 * (σ ^ 2 + 2 * |r - c|) * T) := ⟨_, rfl⟩
  have hG0 : 0 < G := hG ▸ Real.exp_pos _
  refine ⟨ε / 27, by positivity, max (max 1 S) (15 * G * S ^ 2 * (a + b) / ε), fun X hX => ?_⟩
  have hX1 : 1 ≤ X := (le_max_left _ _).trans ((le_max_left _ _).trans hX)
  have hXS : S ≤ X := (le_max_right _ _).trans ((le_max_left _ _).trans hX)
  have hXε : 15 * G * S ^ 2 * (a + b) / ε ≤ X := (le_max_right _ _).trans hX
  refine ⟨hXS, ?_⟩
  have hδ0 : 0 < ε / 27 := by positivity
  have hM0 := hM X (ε / 27) (by linarith) hδ0
  have hQ0 : 0 ≤ spaceConstant σ r c T X (ε / 27) := by rw [spaceConstant]; positivity
  simp only [gridError_eq, ← hG]
  generalize spaceConstant σ r c T X (ε / 27) = Q at *
  generalize M X (ε / 27) = m at *
  have hL0 := Real.exp_pos ((2 * |r - c| + σ ^ 2) * T)
  generalize Real.exp ((2 * |r - c| + σ ^ 2) * T) = L at *
  have hκ0 : 0 ≤ σ ^ 2 + 2 * |r - c| := by positivity
  generalize σ ^ 2 + 2 * |r - c| = κ at *
  have hW0 : 0 ≤ 5 / 4 * (T * (m / 2 + Q) + G * (BL * (2 / S))) + 1 / (ε / 27) * L / 2 := by positivity
  obtain ⟨W, hW⟩ : ∃ W, W = 5 / 4 * (T * (m / 2 + Q) + G * (BL * (2 / S))) + 1 / (ε / 27) * L / 2 := ⟨_, rfl⟩
  rw [← hW] at hW0
  refine ⟨min (min 1 (S / 2)) (min (1 / (2 * (κ + 1))) (ε / (3 * (W + 1)))), by positivity, fun h k h0 hh hk => ?_⟩
  have hh1 : h ≤ 1 := hh.trans ((min_le_left _ _).trans (min_le_left _ _))
  have hhS : h ≤ S / 2 := hh.trans ((min_le_left _ _).trans (min_le_right _ _))
  have hkκ : k ≤ 1 / (2 * (κ + 1)) := hk.trans ((min_le_right _ _).trans (min_le_left _ _))
  have hhW : h ≤ ε / (3 * (W + 1)) := hh.trans ((min_le_right _ _).trans (min_le_right _ _))
  have hkW : k ≤ ε / (3 * (W + 1)) := hk.trans ((min_le_right _ _).trans (min_le_right _ _))
  refine ⟨by linarith, ?_, ?_⟩
  · refine (mul_le_mul_of_nonneg_left hkκ hκ0).trans ?_
    rw [mul_one_div, div_le_div_iff₀ (by positivity) (by norm_num)]
    linarith
  · have near := near_small hT hM0 hQ0 hG0 hBL hS hL0 hδ0 h0 hh1 hhW hkW
    rw [← hW] at near
    have fin : W * (ε / (3 * (W + 1))) ≤ ε / 3 := by
      rw [mul_div_assoc', div_le_div_iff₀ (by positivity) (by norm_num)]
      nlinarith
    have far := far_small hG0 hS hX1 ha hb hε hXε
    linarith

theorem timeConstant_nonneg {σ r c K δ : ℝ} (hr : 0 ≤ r) (hK : 0 ≤ K) (hδ : 0 < δ) : 0 ≤ timeConstant σ r c K δ := by
  rw [timeConstant, timeBound]; positivity

end Fdm

section
variable (kd : Interp.Kind) (o : OptObj ℝ) (m : Market ℝ) (d : StockData ℝ) (hd : BlackScholes.stock o m = .ok d) (K : ℝ) (hK : 0 < K)
  (hσ : 0 < d.sigma) (hr : 0 ≤ m.r) (hb : |m.r - d.coupon.getD 0| ≤ d.sigma ^ 2) (hT : 0 < o.T) (hS : 0 < d.price)
include hd hK hσ hr hb hT hS

/-- **C83.** Hence the price of a put computed by implicit Euler converges to the Black-Scholes price as the domain grows and the steps
become small. -/
theorem C83_putConverges (ho : o.payoff = .vanilla .put K) (ε : ℝ) (hε : 0 < ε) :
    ∃ X₀ : ℝ, ∀ X : ℝ, X₀ ≤ X → ∃ η : ℝ, 0 < η ∧ ∀ (J N : ℕ) (junk : ℕ → ℝ), 4 ≤ J → J ≤ 2 ^ 31 → 2 ≤ N → X / (J - 1) ≤ η → o.T / (N - 1) ≤ η →
      ∃ s, construct (.implicit thomas) X J o.T N (BlackScholes.pde o m) junk = .ok s ∧ ∀ fuel, N ≤ fuel → ∃ y,
        (calculatePrice (.implicit thomas) kd (BlackScholes.pde o m) (FdmWorld.spot o m) fuel s).1 = .ok y ∧
        |y - blackScholesPut d.price d.sigma m.r (d.coupon.getD 0) o.T K| ≤ ε := by
  obtain ⟨δ, hδ, X₀, h⟩ := gridError_small (σ := d.sigma) (r := m.r) (c := d.coupon.getD 0) (BL := K) (a := 0) (b := K) hT hS hK.le le_rfl hK.le
    (fun _ δ => timeConstant d.sigma m.r (d.coupon.getD 0) K δ) (fun _ δ _ hδ => timeConstant_nonneg hr hK.le hδ) hε
  refine ⟨X₀, fun X hX => ?_⟩
  obtain ⟨hSX, η, hη, h⟩ := h X hX
  refine ⟨η, hη, fun J N junk hJ hm hN h1 h2 => ?_⟩
  have hJ1 : (0 : ℝ) < J - 1 := by
    have : (4 : ℝ) ≤ J := by exact_mod_cast hJ
    linarith
  obtain ⟨a, b, e⟩ := h (X / (J - 1)) (o.T / (N - 1)) (div_pos (hS.trans_le hSX) hJ1) h1 h2
  obtain ⟨s, hs, hp⟩ := C83_put kd o m d hd K hK hσ hr hb hT X J N junk hm hN hS hSX a b δ hδ ho hJ
  refine ⟨s, hs, fun fuel hf => ?_⟩
  obtain ⟨y, hy, hle⟩ := hp fuel hf
  rw [mul_zero, zero_add] at e
  exact ⟨y, hy, hle.trans e⟩

/-- **C83.** The same for a call, even with dividends, where the boundary value at `xDom` is wrong by a multiple of `xDom`. -/
theorem C83_callConverges (ho : o.payoff = .vanilla .call K) (ε : ℝ) (hε : 0 < ε) :
    ∃ X₀ : ℝ, ∀ X : ℝ, X₀ ≤ X → ∃ η : ℝ, 0 < η ∧ ∀ (J N : ℕ) (junk : ℕ → ℝ), 4 ≤ J → J ≤ 2 ^ 31 → 2 ≤ N → X / (J - 1) ≤ η → o.T / (N - 1) ≤ η →
      ∃ s, construct (.implicit thomas) X J o.T N (BlackScholes.pde o m) junk = .ok s ∧ ∀ fuel, N ≤ fuel → ∃ y,
        (calculatePrice (.implicit thomas) kd (BlackScholes.pde o m) (FdmWorld.spot o m) fuel s).1 = .ok y ∧
        |y - blackScholesCall d.price d.sigma m.r (d.coupon.getD 0) o.T K| ≤ ε := by
  have hexp : 0 ≤ Real.exp (|d.coupon.getD 0| * o.T) - 1 := by
    have := Real.one_le_exp (mul_nonneg (abs_nonneg (d.coupon.getD 0)) hT.le)
    linarith
  obtain ⟨δ, hδ, X₀, h⟩ := gridError_small (σ := d.sigma) (r := m.r) (c := d.coupon.getD 0) (BL := K) (a := Real.exp (|d.coupon.getD 0| * o.T) - 1) (b := 2 * K)
    hT hS hK.le hexp (by positivity)
    (fun X δ => timeConstant d.sigma m.r (d.coupon.getD 0) K δ + X * (d.coupon.getD 0) ^ 2 * Real.exp (|d.coupon.getD 0| * o.T) + K * m.r ^ 2)
    (fun X δ hX hδ => by have := timeConstant_nonneg (σ := d.sigma) (c := d.coupon.getD 0) hr hK.le hδ; positivity) hε
  refine ⟨X₀, fun X hX => ?_⟩
  obtain ⟨hSX, η, hη, h⟩ := h X hX
  refine ⟨η, hη, fun J N junk hJ hm hN h1 h2 => ?_⟩
  have hJ1 : (0 : ℝ) < J - 1 := by
    have : (4 : ℝ) ≤ J := by exact_mod_cast hJ
    linarith
  obtain ⟨a, b, e⟩ := h (X / (J - 1)) (o.T / (N - 1)) (div_pos (hS.trans_le hSX) hJ1) h1 h2
  obtain ⟨s, hs, hp⟩ := C83_call kd o m d hd K hK hσ hr hb hT X J N junk hm hN hS hSX a b δ hδ ho hJ
  refine ⟨s, hs, fun fuel hf => ?_⟩
  obtain ⟨y, hy, hle⟩ := hp fuel hf
  exact ⟨y, hy, hle.trans e⟩

end

/-! ### Cases -/

/-- `sigma = 1`, `r = 1`, no dividends, spot and strike 1, maturity 1; 101 nodes on `[0, 10]`, 6 steps. -/
example : ∃ s, construct (.implicit thomas) 10 101 1 7 (BlackScholes.pde (exampleOption .put) exampleMarket) (fun _ => 0) = .ok s ∧ ∀ fuel, 7 ≤ fuel → ∃ y,
      (calculatePrice (.implicit thomas) .quadratic (BlackScholes.pde (exampleOption .put) exampleMarket) (FdmWorld.spot (exampleOption .put) exampleMarket) fuel s).1 = .ok y ∧
      |y - blackScholesPut 1 1 1 0 1 1| ≤ putGridError 1 1 0 1 1 1 10 (10 / ((101 : ℕ) - 1)) (1 / ((7 : ℕ) - 1)) (1 / 10) :=
  C83_put .quadratic (exampleOption .put) exampleMarket _ (example_stock _) 1 one_pos one_pos zero_le_one (by norm_num [exampleMarket]) one_pos 10 101 7 _
    (by norm_num) (by norm_num) one_pos (by norm_num) (by norm_num) (by norm_num [exampleOption, exampleMarket]) (1 / 10) (by norm_num) rfl (by norm_num)

example : ∃ s, construct (.implicit thomas) 10 101 1 7 (BlackScholes.pde (exampleOption .call) exampleMarket) (fun _ => 0) = .ok s ∧ ∀ fuel, 7 ≤ fuel → ∃ y,
      (calculatePrice (.implicit thomas) .linear (BlackScholes.pde (exampleOption .call) exampleMarket) (FdmWorld.spot (exampleOption .call) exampleMarket) fuel s).1 = .ok y ∧
      |y - blackScholesCall 1 1 1 0 1 1| ≤ callGridError 1 1 0 1 1 1 10 (10 / ((101 : ℕ) - 1)) (1 / ((7 : ℕ) - 1)) (1 / 10) :=
  C83_call .linear (exampleOption .call) exampleMarket _ (example_stock _) 1 one_pos one_pos zero_le_one (by norm_num [exampleMarket]) one_pos 10 101 7 _
    (by norm_num) (by norm_num) one_pos (by norm_num) (by norm_num) (by norm_num [exampleOption, exampleMarket]) (1 / 10) (by norm_num) rfl (by norm_num)

/-- Explicit Euler and Crank-Nicolson with 21 nodes and 1000 steps. -/
example : ∃ s, construct .explicit 10 21 1 1001 (BlackScholes.pde (exampleOption .put) exampleMarket) (fun _ => 0) = .ok s ∧ ∀ fuel, 1001 ≤ fuel → ∃ y,
      (calculatePrice .explicit .linear (BlackScholes.pde (exampleOption .put) exampleMarket) (FdmWorld.spot (exampleOption .put) exampleMarket) fuel s).1 = .ok y ∧
      |y - blackScholesPut 1 1 1 0 1 1| ≤ putGridError 1 1 0 1 1 1 10 (10 / ((21 : ℕ) - 1)) (1 / ((1001 : ℕ) - 1)) (1 / 10) :=
  C83_explicitPut .linear (exampleOption .put) exampleMarket _ (example_stock _) 1 one_pos one_pos zero_le_one (by norm_num [exampleMarket]) one_pos 10 21 1001 _
    (by norm_num) (by norm_num) one_pos (by norm_num) (by norm_num) (by norm_num [exampleOption, exampleMarket]) (1 / 10) (by norm_num) rfl (by norm_num)
    (by norm_num [exampleOption, exampleMarket])

example : ∃ s, construct .explicit 10 21 1 1001 (BlackScholes.pde (exampleOption .call) exampleMarket) (fun _ => 0) = .ok s ∧ ∀ fuel, 1001 ≤ fuel → ∃ y,
      (calculatePrice .explicit .linear (BlackScholes.pde (exampleOption .call) exampleMarket) (FdmWorld.spot (exampleOption .call) exampleMarket) fuel s).1 = .ok y ∧
      |y - blackScholesCall 1 1 1 0 1 1| ≤ callGridError 1 1 0 1 1 1 10 (10 / ((21 : ℕ) - 1)) (1 / ((1001 : ℕ) - 1)) (1 / 10) :=
  C83_explicitCall .linear (exampleOption .call) exampleMarket _ (example_stock _) 1 one_pos one_pos zero_le_one (by norm_num [exampleMarket]) one_pos 10 21 1001 _
    (by norm_num) (by norm_num) one_pos (by norm_num) (by norm_num) (by norm_num [exampleOption, exampleMarket]) (1 / 10) (by norm_num) rfl (by norm_num)
    (by norm_num [exampleOption, exampleMarket])

example : ∃ s, construct (.crankNicolson thomas) 10 21 1 1001 (BlackScholes.pde (exampleOption .put) exampleMarket) (fun _ => 0) = .ok s ∧ ∀ fuel, 1001 ≤ fuel → ∃ y,
      (calculatePrice (.crankNicolson thomas) .linear (BlackScholes.pde (exampleOption .put) exampleMarket) (FdmWorld.spot (exampleOption .put) exampleMarket) fuel s).1 = .ok y ∧
      |y - blackScholesPut 1 1 1 0 1 1| ≤ putGridError 1 1 0 1 1 1 10 (10 / ((21 : ℕ) - 1)) (1 / ((1001 : ℕ) - 1)) (1 / 10) :=
  C83_crankNicolsonPut .linear (exampleOption .put) exampleMarket _ (example_stock _) 1 one_pos one_pos zero_le_one (by norm_num [exampleMarket]) one_pos 10 21 1001 _
    (by norm_num) (by norm_num) one_pos (by norm_num) (by norm_num) (by norm_num [exampleOption, exampleMarket]) (1 / 10) (by norm_num) rfl (by norm_num)
    (by norm_num [exampleOption, exampleMarket])

example : ∃ s, construct (.crankNicolson thomas) 10 21 1 1001 (BlackScholes.pde (exampleOption .call) exampleMarket) (fun _ => 0) = .ok s ∧ ∀ fuel, 1001 ≤ fuel → ∃ y,
      (calculatePrice (.crankNicolson thomas) .linear (BlackScholes.pde (exampleOption .call) exampleMarket) (FdmWorld.spot (exampleOption .call) exampleMarket) fuel s).1 = .ok y ∧
      |y - blackScholesCall 1 1 1 0 1 1| ≤ callGridErrorCN 1 1 0 1 1 1 10 (10 / ((21 : ℕ) - 1)) (1 / ((1001 : ℕ) - 1)) (1 / 10) :=
  C83_crankNicolsonCall .linear (exampleOption .call) exampleMarket _ (example_stock _) 1 one_pos one_pos zero_le_one (by norm_num [exampleMarket]) one_pos 10 21 1001 _
    (by norm_num) (by norm_num) one_pos (by norm_num) (by norm_num) (by norm_num [exampleOption, exampleMarket]) (1 / 10) (by norm_num) rfl (by norm_num)
    (by norm_num [exampleOption, exampleMarket])

/-- The hypotheses of the limit theorems. -/
example : ∃ X₀ : ℝ, ∀ X : ℝ, X₀ ≤ X → ∃ η : ℝ, 0 < η ∧ ∀ (J N : ℕ) (junk : ℕ → ℝ), 4 ≤ J → J ≤ 2 ^ 31 → 2 ≤ N → X / (J - 1) ≤ η → 1 / (N - 1) ≤ η →
      ∃ s, construct (.implicit thomas) X J 1 N (BlackScholes.pde (exampleOption .call) exampleMarket) junk = .ok s ∧ ∀ fuel, N ≤ fuel → ∃ y,
        (calculatePrice (.implicit thomas) .linear (BlackScholes.pde (exampleOption .call) exampleMarket) (FdmWorld.spot (exampleOption .call) exampleMarket) fuel s).1 = .ok y ∧
        |y - blackScholesCall 1 1 1 0 1 1| ≤ 1 / 10 :=
  C83_callConverges .linear (exampleOption .call) exampleMarket _ (example_stock _) 1 one_pos one_pos zero_le_one (by norm_num [exampleMarket]) one_pos one_pos rfl _ (by norm_num)

/-- A number: `sigma = 1/5`, `r = 0`, strike 1, spot 1, maturity 1 (the price is about 0.0797); on `[0, 50]` with a billion nodes and steps
the error is less than 0.015. -/
example : putGridError (1 / 5) 0 0 1 1 1 50 (50 / 1000000000) (1 / 1000000000) (1 / 1000) ≤ 3 / 200 := by
  have e : ∀ x : ℝ, 0 ≤ x → x < 1 → Real.exp x ≤ 1 / (1 - x) := fun x _ h1 => by
    rw [le_div_iff₀ (by linarith)]
    have := Real.add_one_le_exp (-x)
    have p := Real.exp_pos x
    have q : Real.exp x * Real.exp (-x) = 1 := by rw [← Real.exp_add]; simp
    nlinarith
  have e1 := e (2 / 25) (by norm_num) (by norm_num)
  have e2 := e (6 / 25) (by norm_num) (by norm_num)
  have e3 := e (1 / 25) (by norm_num) (by norm_num)
  have e4 := e (3 / 25) (by norm_num) (by norm_num)
  unfold putGridError gridError timeConstant timeBound spaceConstant boundaryEffect
  norm_num at e1 e2 e3 e4 ⊢
  linarith

end Verif
