import Verif.Lemmas.Theta
import Verif.Props.CNDoublePrice
import Verif.Props.ImplicitDoublePrice

/-!
# Properties C85, C92 and C93: prices for the maturity of the option

In double precision the time loop may end one step late, and C85, C92 and C93 compare with the Black-Scholes price for the time at which
it ends.  Here they are compared with the price for the maturity of the option.
-/

namespace Verif
open Spec Fdm

theorem gridError_mono {σ r c T T' S X h k δ M M' BL BR BR' : ℝ} (hT : 0 ≤ T) (h1 : T ≤ T') (hS : 0 < S) (hX : 0 < X) (hh : 0 ≤ h) (hk : 0 ≤ k) (hδ : 0 < δ) (hM : 0 ≤ M)
    (h2 : M ≤ M') (hBL : 0 ≤ BL) (hBR : 0 ≤ BR) (h3 : BR ≤ BR') : gridError σ r c T S X h k δ M BL BR ≤ gridError σ r c T' S X h k δ M' BL BR' := by
  have e : ∀ a : ℝ, 0 ≤ a → Real.exp (a * T) ≤ Real.exp (a * T') := fun a ha => Real.exp_le_exp.mpr (mul_le_mul_of_nonneg_left h1 ha)
  have ha := abs_nonneg (r - c)
  have hσ := sq_nonneg σ
  have hT' := hT.trans h1
  have s1 : spaceConstant σ r c T X δ ≤ spaceConstant σ r c T' X δ := by
    have e1 := e (4 * |r - c| + 6 * σ ^ 2) (by positivity)
    have e2 := e (3 * |r - c| + 3 * σ ^ 2) (by positivity)
    unfold spaceConstant
    gcongr
  have s0 : 0 ≤ spaceConstant σ r c T X δ := by unfold spaceConstant; positivity
  have b1 : boundaryEffect σ r c T S X h BL BR ≤ boundaryEffect σ r c T' S X h BL BR' := by
    have e1 := e (2 * (σ ^ 2 + 2 * |r - c|)) (by positivity)
    unfold boundaryEffect
    gcongr
  have t1 : T * (M / 2 * k + spaceConstant σ r c T X δ * h ^ 2) ≤ T' * (M' / 2 * k + spaceConstant σ r c T' X δ * h ^ 2) := by
    have i1 : M / 2 * k + spaceConstant σ r c T X δ * h ^ 2 ≤ M' / 2 * k + spaceConstant σ r c T' X δ * h ^ 2 :=
      add_le_add (mul_le_mul_of_nonneg_right (by linarith) hk) (mul_le_mul_of_nonneg_right s1 (sq_nonneg h))
    exact mul_le_mul h1 i1 (by positivity) hT'
  have x1 : 1 / δ * Real.exp ((2 * |r - c| + σ ^ 2) * T) * h ^ 2 / 2 ≤ 1 / δ * Real.exp ((2 * |r - c| + σ ^ 2) * T') * h ^ 2 / 2 := by
    have e1 := e (2 * |r - c| + σ ^ 2) (by positivity)
    gcongr
  unfold gridError
  linarith

theorem timeConstant_nonneg {σ r c K δ : ℝ} (hr : 0 ≤ r) (hK : 0 < K) (hδ : 0 < δ) : 0 ≤ timeConstant σ r c K δ := by
  have ha := abs_nonneg (r - c)
  unfold timeConstant timeBound
  positivity

section
variable {σ r c K S T X : ℝ} {J N : ℕ}

/-- The time at which the loop ends, and the maturity. -/
theorem late (G : GridSizes σ r c K S T X J N) {T' : ℝ} (h : T' = T ∨ T' = T + T / (N - 1)) :
    0 < T ∧ T ≤ T' ∧ T' ≤ T + T / (N - 1) ∧ 0 < S ∧ 0 < X ∧ 0 ≤ X / ((J : ℝ) - 1) ∧ 0 ≤ T / ((N : ℝ) - 1) := by
  obtain ⟨k1, -, -⟩ := grid_k G
  obtain ⟨h1, -, -, -⟩ := grid_h G
  have hT : 0 < T := lt_of_lt_of_le (by norm_num) G.maturity.1
  have hX : 0 < X := lt_of_lt_of_le (by norm_num) G.width.1
  have := G.spot.1
  refine ⟨hT, ?_, ?_, by linarith, hX, le_trans (by positivity) h1, k1.le⟩ <;> rcases h with rfl | rfl <;> linarith

theorem put_at_maturity (G : GridSizes σ r c K S T X J N) {T' y R δ : ℝ} (hδ : 0 < δ) (h : T' = T ∨ T' = T + T / (N - 1))
    (hy : |y - blackScholesPut S σ r c T' K| ≤ putGridError σ r c T' K S X (X / (J - 1)) (T / (N - 1)) δ + R) :
    |y - blackScholesPut S σ r c T K| ≤ putGridError σ r c (T + T / (N - 1)) K S X (X / (J - 1)) (T / (N - 1)) δ +
      maturityRate S σ r c K T (T + T / (N - 1)) * (T / (N - 1)) + R := by
  obtain ⟨hT, h1, h2, hS, hX, hh, hk⟩ := late G h
  have hK := G.strike.1
  have hr := G.rate.1
  have e1 : putGridError σ r c T' K S X (X / (J - 1)) (T / (N - 1)) δ ≤ putGridError σ r c (T + T / (N - 1)) K S X (X / (J - 1)) (T / (N - 1)) δ :=
    gridError_mono (hT.le.trans h1) h2 hS hX hh hk hδ (timeConstant_nonneg hr hK hδ) le_rfl hK.le hK.le le_rfl
  have e2 : |blackScholesPut S σ r c T' K - blackScholesPut S σ r c T K| ≤ maturityRate S σ r c K T (T + T / (N - 1)) * (T / (N - 1)) := by
    rcases h with rfl | rfl
    · rw [sub_self, abs_zero]
      refine mul_nonneg ?_ hk
      have := abs_nonneg c
      have := G.vol.1
      unfold maturityRate
      positivity
    · have := put_maturity (c := c) hS hK G.vol.1 hr hT h1
      rwa [add_sub_cancel_left] at this
  have e3 := abs_add_le (y - blackScholesPut S σ r c T' K) (blackScholesPut S σ r c T' K - blackScholesPut S σ r c T K)
  rw [sub_add_sub_cancel] at e3
  linarith

theorem call_at_maturity (G : GridSizes σ r c K S T X J N) {T' y R δ : ℝ} (hδ : 0 < δ) (h : T' = T ∨ T' = T + T / (N - 1))
    (hy : |y - blackScholesCall S σ r c T' K| ≤ callGridError σ r c T' K S X (X / (J - 1)) (T / (N - 1)) δ + R) :
    |y - blackScholesCall S σ r c T K| ≤ callGridError σ r c (T + T / (N - 1)) K S X (X / (J - 1)) (T / (N - 1)) δ +
      maturityRate S σ r c K T (T + T / (N - 1)) * (T / (N - 1)) + R := by
  obtain ⟨hT, h1, h2, hS, hX, hh, hk⟩ := late G h
  have hK := G.strike.1
  have hr := G.rate.1
  have hE : Real.exp (|c| * T') ≤ Real.exp (|c| * (T + T / (N - 1))) := Real.exp_le_exp.mpr (mul_le_mul_of_nonneg_left h2 (abs_nonneg c))
  have hE1 : 1 ≤ Real.exp (|c| * T') := Real.one_le_exp (mul_nonneg (abs_nonneg c) (hT.le.trans h1))
  have hE2 : X * Real.exp (|c| * T') ≤ X * Real.exp (|c| * (T + T / (N - 1))) := mul_le_mul_of_nonneg_left hE hX.le
  have hE3 : X * 1 ≤ X * Real.exp (|c| * T') := mul_le_mul_of_nonneg_left hE1 hX.le
  have hE4 : X * c ^ 2 * Real.exp (|c| * T') ≤ X * c ^ 2 * Real.exp (|c| * (T + T / (N - 1))) := mul_le_mul_of_nonneg_left hE (by positivity)
  have hM := timeConstant_nonneg (σ := σ) (c := c) hr hK hδ
  have e1 : callGridError σ r c T' K S X (X / (J - 1)) (T / (N - 1)) δ ≤ callGridError σ r c (T + T / (N - 1)) K S X (X / (J - 1)) (T / (N - 1)) δ :=
    gridError_mono (hT.le.trans h1) h2 hS hX hh hk hδ (by positivity) (by linarith) hK.le (by linarith) (by linarith)
  have e2 : |blackScholesCall S σ r c T' K - blackScholesCall S σ r c T K| ≤ maturityRate S σ r c K T (T + T / (N - 1)) * (T / (N - 1)) := by
    rcases h with rfl | rfl
    · rw [sub_self, abs_zero]
      refine mul_nonneg ?_ hk
      have := abs_nonneg c
      have := G.vol.1
      unfold maturityRate
      positivity
    · have := call_maturity (c := c) hS hK G.vol.1 hr hT h1
      rwa [add_sub_cancel_left] at this
  have e3 := abs_add_le (y - blackScholesCall S σ r c T' K) (blackScholesCall S σ r c T' K - blackScholesCall S σ r c T K)
  rw [sub_add_sub_cancel] at e3
  linarith

theorem late_call_at_maturity (G : GridSizes σ r c K S T X J N) {T' y R δ : ℝ} (hδ : 0 < δ) (h : T' = T ∨ T' = T + T / (N - 1))
    (hy : |y - blackScholesCall S σ r c T' K| ≤ lateCallGridError σ r c T' K S X (X / (J - 1)) (T / (N - 1)) δ + R) :
    |y - blackScholesCall S σ r c T K| ≤ lateCallGridError σ r c (T + T / (N - 1)) K S X (X / (J - 1)) (T / (N - 1)) δ +
      maturityRate S σ r c K T (T + T / (N - 1)) * (T / (N - 1)) + R := by
  obtain ⟨hT, h1, h2, hS, hX, hh, hk⟩ := late G h
  have hK := G.strike.1
  have hr := G.rate.1
  have hE : Real.exp (|c| * T') ≤ Real.exp (|c| * (T + T / (N - 1))) := Real.exp_le_exp.mpr (mul_le_mul_of_nonneg_left h2 (abs_nonneg c))
  have hE1 : 1 ≤ Real.exp (|c| * T') := Real.one_le_exp (mul_nonneg (abs_nonneg c) (hT.le.trans h1))
  have hE2 : X * Real.exp (|c| * T') ≤ X * Real.exp (|c| * (T + T / (N - 1))) := mul_le_mul_of_nonneg_left hE hX.le
  have hE3 : X * 1 ≤ X * Real.exp (|c| * T') := mul_le_mul_of_nonneg_left hE1 hX.le
  have hE4 : X * c ^ 2 * Real.exp (|c| * T') ≤ X * c ^ 2 * Real.exp (|c| * (T + T / (N - 1))) := mul_le_mul_of_nonneg_left hE (by positivity)
  have hM := timeConstant_nonneg (σ := σ) (c := c) hr hK hδ
  have e1 : lateCallGridError σ r c T' K S X (X / (J - 1)) (T / (N - 1)) δ ≤ lateCallGridError σ r c (T + T / (N - 1)) K S X (X / (J - 1)) (T / (N - 1)) δ :=
    gridError_mono (hT.le.trans h1) h2 hS hX hh hk hδ (by positivity) (by linarith) hK.le (by linarith) (by linarith)
  have e2 : |blackScholesCall S σ r c T' K - blackScholesCall S σ r c T K| ≤ maturityRate S σ r c K T (T + T / (N - 1)) * (T / (N - 1)) := by
    rcases h with rfl | rfl
    · rw [sub_self, abs_zero]
      refine mul_nonneg ?_ hk
      have := abs_nonneg c
      have := G.vol.1
      unfold maturityRate
      positivity
    · have := call_maturity (c := c) hS hK G.vol.1 hr hT h1
      rwa [add_sub_cancel_left] at this
  have e3 := abs_add_le (y - blackScholesCall S σ r c T' K) (blackScholesCall S σ r c T' K - blackScholesCall S σ r c T K)
  rw [sub_add_sub_cancel] at e3
  linarith

theorem cn_call_at_maturity (G : GridSizes σ r c K S T X J N) {T' y R δ : ℝ} (hδ : 0 < δ) (h : T' = T ∨ T' = T + T / (N - 1))
    (hy : |y - blackScholesCall S σ r c T' K| ≤ lateCallGridErrorCN σ r c T' K S X (X / (J - 1)) (T / (N - 1)) δ + R) :
    |y - blackScholesCall S σ r c T K| ≤ lateCallGridErrorCN σ r c (T + T / (N - 1)) K S X (X / (J - 1)) (T / (N - 1)) δ +
      maturityRate S σ r c K T (T + T / (N - 1)) * (T / (N - 1)) + R := by
  obtain ⟨hT, h1, h2, hS, hX, hh, hk⟩ := late G h
  have hK := G.strike.1
  have hr := G.rate.1
  have hE : Real.exp (|c| * T') ≤ Real.exp (|c| * (T + T / (N - 1))) := Real.exp_le_exp.mpr (mul_le_mul_of_nonneg_left h2 (abs_nonneg c))
  have hE1 : 1 ≤ Real.exp (|c| * T') := Real.one_le_exp (mul_nonneg (abs_nonneg c) (hT.le.trans h1))
  have hE2 : X * Real.exp (|c| * T') ≤ X * Real.exp (|c| * (T + T / (N - 1))) := mul_le_mul_of_nonneg_left hE hX.le
  have hE3 : X * 1 ≤ X * Real.exp (|c| * T') := mul_le_mul_of_nonneg_left hE1 hX.le
  have hE4 : X * c ^ 2 * Real.exp (|c| * T') ≤ X * c ^ 2 * Real.exp (|c| * (T + T / (N - 1))) := mul_le_mul_of_nonneg_left hE (by positivity)
  have hM := timeConstant_nonneg (σ := σ) (c := c) hr hK hδ
  have e1 : lateCallGridErrorCN σ r c T' K S X (X / (J - 1)) (T / (N - 1)) δ ≤ lateCallGridErrorCN σ r c (T + T / (N - 1)) K S X (X / (J - 1)) (T / (N - 1)) δ :=
    gridError_mono (hT.le.trans h1) h2 hS hX hh hk hδ (by positivity) (by linarith) hK.le (by linarith) (by linarith)
  have e2 : |blackScholesCall S σ r c T' K - blackScholesCall S σ r c T K| ≤ maturityRate S σ r c K T (T + T / (N - 1)) * (T / (N - 1)) := by
    rcases h with rfl | rfl
    · rw [sub_self, abs_zero]
      refine mul_nonneg ?_ hk
      have := abs_nonneg c
      have := G.vol.1
      unfold maturityRate
      positivity
    · have := call_maturity (c := c) hS hK G.vol.1 hr hT h1
      rwa [add_sub_cancel_left] at this
  have e3 := abs_add_le (y - blackScholesCall S σ r c T' K) (blackScholesCall S σ r c T' K - blackScholesCall S σ r c T K)
  rw [sub_add_sub_cancel] at e3
  linarith

end

section
variable (o : OptObj (Dbl .binary64)) (m : Market (Dbl .binary64)) (d : StockData (Dbl .binary64)) (hd : BlackScholes.stock o m = .ok d)
  (σ r c K S T X : ℝ) (J N : ℕ) (hσ : d.sigma = .num σ) (hr : m.r = .num r) (hc : d.coupon.getD (lit 0) = .num c) (hS : d.price = .num S) (hT : o.T = .num T)
  (junk : ℕ → Dbl .binary64)
include hd hσ hr hc hS hT

/-- **C85.** European put, explicit Euler, linear interpolation, in double precision: the price returned is within `putGridError`, the rounding error and
the change of the price in one time step of the Black-Scholes price for the maturity of the option, whether or not the time loop ends one
step late. -/
theorem C85_maturityPut (G : ModerateGrid σ r c K S T X J N) (ho : o.payoff = .vanilla .put (.num K)) (δ : ℝ) (hδ : 0 < δ) :
    ∃ s, construct .explicit (.num X) J o.T N (BlackScholes.pde o m) junk = .ok s ∧ ∀ fuel, N < fuel → ∃ y : ℝ,
      (calculatePrice .explicit .linear (BlackScholes.pde o m) (FdmWorld.spot o m) fuel s).1 = .ok (.num y) ∧
      |y - blackScholesPut S σ r c T K| ≤ putGridError σ r c (T + T / (N - 1)) K S X (X / (J - 1)) (T / (N - 1)) δ +
        maturityRate S σ r c K T (T + T / (N - 1)) * (T / (N - 1)) + fdmRounding K X J N := by
  obtain ⟨s, hs, T', hT', h⟩ := C85_put o m d hd σ r c K S T X J N hσ hr hc hS hT G junk ho δ hδ
  refine ⟨s, hs, fun fuel hf => ?_⟩
  obtain ⟨y, hy, hb⟩ := h fuel hf
  exact ⟨y, hy, put_at_maturity G.toGridSizes hδ hT' hb⟩

/-- **C85.** European call, explicit Euler, linear interpolation, in double precision: the price returned is within `callGridError`, the rounding error and
the change of the price in one time step of the Black-Scholes price for the maturity of the option, whether or not the time loop ends one
step late. -/
theorem C85_maturityCall (G : ModerateGrid σ r c K S T X J N) (ho : o.payoff = .vanilla .call (.num K)) (δ : ℝ) (hδ : 0 < δ) :
    ∃ s, construct .explicit (.num X) J o.T N (BlackScholes.pde o m) junk = .ok s ∧ ∀ fuel, N < fuel → ∃ y : ℝ,
      (calculatePrice .explicit .linear (BlackScholes.pde o m) (FdmWorld.spot o m) fuel s).1 = .ok (.num y) ∧
      |y - blackScholesCall S σ r c T K| ≤ callGridError σ r c (T + T / (N - 1)) K S X (X / (J - 1)) (T / (N - 1)) δ +
        maturityRate S σ r c K T (T + T / (N - 1)) * (T / (N - 1)) + fdmRounding K X J N := by
  obtain ⟨s, hs, T', hT', h⟩ := C85_call o m d hd σ r c K S T X J N hσ hr hc hS hT G junk ho δ hδ
  refine ⟨s, hs, fun fuel hf => ?_⟩
  obtain ⟨y, hy, hb⟩ := h fuel hf
  exact ⟨y, hy, call_at_maturity G.toGridSizes hδ hT' hb⟩

/-- **C92.** European put, implicit Euler with the Thomas algorithm, linear interpolation, in double precision: the price returned is within `putGridError`, the rounding error and
the change of the price in one time step of the Black-Scholes price for the maturity of the option, whether or not the time loop ends one
step late. -/
theorem C92_maturityPut (G : ModerateImplicit σ r c K S T X J N) (ho : o.payoff = .vanilla .put (.num K)) (δ : ℝ) (hδ : 0 < δ) :
    ∃ s, construct (.implicit thomas) (.num X) J o.T N (BlackScholes.pde o m) junk = .ok s ∧ ∀ fuel, N < fuel → ∃ y : ℝ,
      (calculatePrice (.implicit thomas) .linear (BlackScholes.pde o m) (FdmWorld.spot o m) fuel s).1 = .ok (.num y) ∧
      |y - blackScholesPut S σ r c T K| ≤ putGridError σ r c (T + T / (N - 1)) K S X (X / (J - 1)) (T / (N - 1)) δ +
        maturityRate S σ r c K T (T + T / (N - 1)) * (T / (N - 1)) + implicitRounding σ r K T X J N := by
  obtain ⟨s, hs, T', hT', h⟩ := C92_put o m d hd σ r c K S T X J N hσ hr hc hS hT G junk ho δ hδ
  refine ⟨s, hs, fun fuel hf => ?_⟩
  obtain ⟨y, hy, hb⟩ := h fuel hf
  exact ⟨y, hy, put_at_maturity G.toGridSizes hδ hT' hb⟩

/-- **C92.** European call, implicit Euler with the Thomas algorithm, linear interpolation, in double precision: the price returned is within `lateCallGridError`, the rounding error and
the change of the price in one time step of the Black-Scholes price for the maturity of the option, whether or not the time loop ends one
step late. -/
theorem C92_maturityCall (G : ModerateImplicit σ r c K S T X J N) (ho : o.payoff = .vanilla .call (.num K)) (hrk : r * (T / (N - 1)) ≤ 1) (δ : ℝ) (hδ : 0 < δ) :
    ∃ s, construct (.implicit thomas) (.num X) J o.T N (BlackScholes.pde o m) junk = .ok s ∧ ∀ fuel, N < fuel → ∃ y : ℝ,
      (calculatePrice (.implicit thomas) .linear (BlackScholes.pde o m) (FdmWorld.spot o m) fuel s).1 = .ok (.num y) ∧
      |y - blackScholesCall S σ r c T K| ≤ lateCallGridError σ r c (T + T / (N - 1)) K S X (X / (J - 1)) (T / (N - 1)) δ +
        maturityRate S σ r c K T (T + T / (N - 1)) * (T / (N - 1)) + implicitRounding σ r K T X J N := by
  obtain ⟨s, hs, T', hT', h⟩ := C92_call o m d hd σ r c K S T X J N hσ hr hc hS hT G junk ho hrk δ hδ
  refine ⟨s, hs, fun fuel hf => ?_⟩
  obtain ⟨y, hy, hb⟩ := h fuel hf
  exact ⟨y, hy, late_call_at_maturity G.toGridSizes hδ hT' hb⟩

/-- **C93.** European put, Crank-Nicolson with the Thomas algorithm, linear interpolation, in double precision: the price returned is within `putGridError`, the rounding error and
the change of the price in one time step of the Black-Scholes price for the maturity of the option, whether or not the time loop ends one
step late. -/
theorem C93_maturityPut (G : ModerateCN σ r c K S T X J N) (ho : o.payoff = .vanilla .put (.num K)) (δ : ℝ) (hδ : 0 < δ) :
    ∃ s, construct (.crankNicolson thomas) (.num X) J o.T N (BlackScholes.pde o m) junk = .ok s ∧ ∀ fuel, N < fuel → ∃ y : ℝ,
      (calculatePrice (.crankNicolson thomas) .linear (BlackScholes.pde o m) (FdmWorld.spot o m) fuel s).1 = .ok (.num y) ∧
      |y - blackScholesPut S σ r c T K| ≤ putGridError σ r c (T + T / (N - 1)) K S X (X / (J - 1)) (T / (N - 1)) δ +
        maturityRate S σ r c K T (T + T / (N - 1)) * (T / (N - 1)) + cnRounding K X J N := by
  obtain ⟨s, hs, T', hT', h⟩ := C93_put o m d hd σ r c K S T X J N hσ hr hc hS hT G junk ho δ hδ
  refine ⟨s, hs, fun fuel hf => ?_⟩
  obtain ⟨y, hy, hb⟩ := h fuel hf
  exact ⟨y, hy, put_at_maturity G.toGridSizes hδ hT' hb⟩

/-- **C93.** European call, Crank-Nicolson with the Thomas algorithm, linear interpolation, in double precision: the price returned is within `lateCallGridErrorCN`, the rounding error and
the change of the price in one time step of the Black-Scholes price for the maturity of the option, whether or not the time loop ends one
step late. -/
theorem C93_maturityCall (G : ModerateCN σ r c K S T X J N) (ho : o.payoff = .vanilla .call (.num K)) (hrk : r * (T / (N - 1)) ≤ 1) (δ : ℝ) (hδ : 0 < δ) :
    ∃ s, construct (.crankNicolson thomas) (.num X) J o.T N (BlackScholes.pde o m) junk = .ok s ∧ ∀ fuel, N < fuel → ∃ y : ℝ,
      (calculatePrice (.crankNicolson thomas) .linear (BlackScholes.pde o m) (FdmWorld.spot o m) fuel s).1 = .ok (.num y) ∧
      |y - blackScholesCall S σ r c T K| ≤ lateCallGridErrorCN σ r c (T + T / (N - 1)) K S X (X / (J - 1)) (T / (N - 1)) δ +
        maturityRate S σ r c K T (T + T / (N - 1)) * (T / (N - 1)) + cnRounding K X J N := by
  obtain ⟨s, hs, T', hT', h⟩ := C93_call o m d hd σ r c K S T X J N hσ hr hc hS hT G junk ho hrk δ hδ
  refine ⟨s, hs, fun fuel hf => ?_⟩
  obtain ⟨y, hy, hb⟩ := h fuel hf
  exact ⟨y, hy, cn_call_at_maturity G.toGridSizes hδ hT' hb⟩

end

namespace FdmDoubleExample

/-- `C85_maturityPut`: the example of C85. -/
example : ∃ s, construct .explicit (.num ((500 : ℝ) : EReal)) 101 (option .put).T 1001 (BlackScholes.pde (option .put) market) (fun _ => lit 0) = .ok s ∧
    ∀ fuel, 1001 < fuel → ∃ y : ℝ,
      (calculatePrice .explicit .linear (BlackScholes.pde (option .put) market) (FdmWorld.spot (option .put) market) fuel s).1 = .ok (.num y) ∧
      |y - blackScholesPut 100 (1 / 4) (1 / 16) 0 1 100| ≤
        putGridError (1 / 4) (1 / 16) 0 (1 + 1 / ((1001 : ℕ) - 1)) 100 100 500 (500 / ((101 : ℕ) - 1)) (1 / ((1001 : ℕ) - 1)) 1 +
          maturityRate 100 (1 / 4) (1 / 16) 0 100 1 (1 + 1 / ((1001 : ℕ) - 1)) * (1 / ((1001 : ℕ) - 1)) + fdmRounding 100 500 101 1001 :=
  C85_maturityPut (option .put) market _ (stock _) (1 / 4) (1 / 16) 0 100 100 1 500 101 1001 rfl rfl Dbl.lit_zero rfl rfl _ grid rfl 1 one_pos

/-- `C85_maturityCall`: the example of C85. -/
example : ∃ s, construct .explicit (.num ((500 : ℝ) : EReal)) 101 (option .call).T 1001 (BlackScholes.pde (option .call) market) (fun _ => lit 0) = .ok s ∧
    ∀ fuel, 1001 < fuel → ∃ y : ℝ,
      (calculatePrice .explicit .linear (BlackScholes.pde (option .call) market) (FdmWorld.spot (option .call) market) fuel s).1 = .ok (.num y) ∧
      |y - blackScholesCall 100 (1 / 4) (1 / 16) 0 1 100| ≤
        callGridError (1 / 4) (1 / 16) 0 (1 + 1 / ((1001 : ℕ) - 1)) 100 100 500 (500 / ((101 : ℕ) - 1)) (1 / ((1001 : ℕ) - 1)) 1 +
          maturityRate 100 (1 / 4) (1 / 16) 0 100 1 (1 + 1 / ((1001 : ℕ) - 1)) * (1 / ((1001 : ℕ) - 1)) + fdmRounding 100 500 101 1001 :=
  C85_maturityCall (option .call) market _ (stock _) (1 / 4) (1 / 16) 0 100 100 1 500 101 1001 rfl rfl Dbl.lit_zero rfl rfl _ grid rfl 1 one_pos

/-- `C92_maturityPut`: the example of C92. -/
example : ∃ s, construct (.implicit thomas) (.num ((500 : ℝ) : EReal)) 101 (option .put).T 21 (BlackScholes.pde (option .put) market) (fun _ => lit 0) = .ok s ∧
    ∀ fuel, 21 < fuel → ∃ y : ℝ,
      (calculatePrice (.implicit thomas) .linear (BlackScholes.pde (option .put) market) (FdmWorld.spot (option .put) market) fuel s).1 = .ok (.num y) ∧
      |y - blackScholesPut 100 (1 / 4) (1 / 16) 0 1 100| ≤
        putGridError (1 / 4) (1 / 16) 0 (1 + 1 / ((21 : ℕ) - 1)) 100 100 500 (500 / ((101 : ℕ) - 1)) (1 / ((21 : ℕ) - 1)) 1 +
          maturityRate 100 (1 / 4) (1 / 16) 0 100 1 (1 + 1 / ((21 : ℕ) - 1)) * (1 / ((21 : ℕ) - 1)) + implicitRounding (1 / 4) (1 / 16) 100 1 500 101 21 :=
  C92_maturityPut (option .put) market _ (stock _) (1 / 4) (1 / 16) 0 100 100 1 500 101 21 rfl rfl Dbl.lit_zero rfl rfl _ implicitGrid rfl 1 one_pos

/-- `C92_maturityCall`: the example of C92. -/
example : ∃ s, construct (.implicit thomas) (.num ((500 : ℝ) : EReal)) 101 (option .call).T 21 (BlackScholes.pde (option .call) market) (fun _ => lit 0) = .ok s ∧
    ∀ fuel, 21 < fuel → ∃ y : ℝ,
      (calculatePrice (.implicit thomas) .linear (BlackScholes.pde (option .call) market) (FdmWorld.spot (option .call) market) fuel s).1 = .ok (.num y) ∧
      |y - blackScholesCall 100 (1 / 4) (1 / 16) 0 1 100| ≤
        lateCallGridError (1 / 4) (1 / 16) 0 (1 + 1 / ((21 : ℕ) - 1)) 100 100 500 (500 / ((101 : ℕ) - 1)) (1 / ((21 : ℕ) - 1)) 1 +
          maturityRate 100 (1 / 4) (1 / 16) 0 100 1 (1 + 1 / ((21 : ℕ) - 1)) * (1 / ((21 : ℕ) - 1)) + implicitRounding (1 / 4) (1 / 16) 100 1 500 101 21 :=
  C92_maturityCall (option .call) market _ (stock _) (1 / 4) (1 / 16) 0 100 100 1 500 101 21 rfl rfl Dbl.lit_zero rfl rfl _ implicitGrid rfl (by norm_num) 1 one_pos

/-- `C93_maturityPut`: the example of C93. -/
example : ∃ s, construct (.crankNicolson thomas) (.num ((500 : ℝ) : EReal)) 101 (option .put).T 501 (BlackScholes.pde (option .put) market) (fun _ => lit 0) = .ok s ∧
    ∀ fuel, 501 < fuel → ∃ y : ℝ,
      (calculatePrice (.crankNicolson thomas) .linear (BlackScholes.pde (option .put) market) (FdmWorld.spot (option .put) market) fuel s).1 = .ok (.num y) ∧
      |y - blackScholesPut 100 (1 / 4) (1 / 16) 0 1 100| ≤
        putGridError (1 / 4) (1 / 16) 0 (1 + 1 / ((501 : ℕ) - 1)) 100 100 500 (500 / ((101 : ℕ) - 1)) (1 / ((501 : ℕ) - 1)) 1 +
          maturityRate 100 (1 / 4) (1 / 16) 0 100 1 (1 + 1 / ((501 : ℕ) - 1)) * (1 / ((501 : ℕ) - 1)) + cnRounding 100 500 101 501 :=
  C93_maturityPut (option .put) market _ (stock _) (1 / 4) (1 / 16) 0 100 100 1 500 101 501 rfl rfl Dbl.lit_zero rfl rfl _ cnGrid rfl 1 one_pos

/-- `C93_maturityCall`: the example of C93. -/
example : ∃ s, construct (.crankNicolson thomas) (.num ((500 : ℝ) : EReal)) 101 (option .call).T 501 (BlackScholes.pde (option .call) market) (fun _ => lit 0) = .ok s ∧
    ∀ fuel, 501 < fuel → ∃ y : ℝ,
      (calculatePrice (.crankNicolson thomas) .linear (BlackScholes.pde (option .call) market) (FdmWorld.spot (option .call) market) fuel s).1 = .ok (.num y) ∧
      |y - blackScholesCall 100 (1 / 4) (1 / 16) 0 1 100| ≤
        lateCallGridErrorCN (1 / 4) (1 / 16) 0 (1 + 1 / ((501 : ℕ) - 1)) 100 100 500 (500 / ((101 : ℕ) - 1)) (1 / ((501 : ℕ) - 1)) 1 +
          maturityRate 100 (1 / 4) (1 / 16) 0 100 1 (1 + 1 / ((501 : ℕ) - 1)) * (1 / ((501 : ℕ) - 1)) + cnRounding 100 500 101 501 :=
  C93_maturityCall (option .call) market _ (stock _) (1 / 4) (1 / 16) 0 100 100 1 500 101 501 rfl rfl Dbl.lit_zero rfl rfl _ cnGrid rfl (by norm_num) 1 one_pos

/-- In the example of C85 the price changes by less than 0.013 in one time step. -/
example : maturityRate 100 (1 / 4) (1 / 16) 0 100 1 (1 + 1 / ((1001 : ℕ) - 1)) * (1 / ((1001 : ℕ) - 1)) < 13 / 1000 := by
  norm_num [maturityRate]

end FdmDoubleExample
end Verif
