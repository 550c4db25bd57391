import Verif.Props.DigitalDoublePrice
import Verif.Props.MaturityPrices
import Verif.Props.QuantileDouble

/-!
# Property C96: digital prices for the maturity of the option

In double precision the time loop may end one step late; `C96_put` and `C96_call` compare with the value for the time at which it ends.  Here the prices are
compared with the value for the maturity of the option.
-/

namespace Verif
open Spec Fdm

section
variable {S σ r c K T T' : ℝ}

theorem sqrt_later (hT : 0 < T) (h : T ≤ T') : Real.sqrt T' - Real.sqrt T ≤ (T' - T) / (2 * Real.sqrt T) := by
  have s0 := Real.sqrt_pos.mpr hT
  have s1 := Real.sqrt_le_sqrt h
  rw [le_div_iff₀ (by positivity)]
  nlinarith [Real.sq_sqrt hT.le, Real.sq_sqrt (hT.le.trans h)]

theorem exceedance_later (hσ : 0 < σ) (hT : 0 < T) (h : T ≤ T') :
    |exceedance S σ r c T' K - exceedance S σ r c T K| ≤ (|Real.log (S / K)| / (4 * σ * T * Real.sqrt T) + |r - c - σ ^ 2 / 2| / (4 * σ * Real.sqrt T)) * (T' - T) := by
  have s0 := Real.sqrt_pos.mpr hT
  have s1 := Real.sqrt_le_sqrt h
  have s2 : 0 < Real.sqrt T' := s0.trans_le s1
  have hl := sqrt_later hT h
  have q := Real.sq_sqrt hT.le
  have q' := Real.sq_sqrt (hT.le.trans h)
  have h1 : |exceedance S σ r c T' K - exceedance S σ r c T K| ≤ _ := Phi_lipschitz _ _
  refine h1.trans ?_
  generalize Real.log (S / K) = L
  generalize r - c - σ ^ 2 / 2 = μ
  set a := Real.sqrt T with ea
  set b := Real.sqrt T' with eb
  have e : (L + μ * T') / (σ * b) - (L + μ * T) / (σ * a) = -(L * ((b - a) / (σ * (a * b)))) + μ * ((b - a) / σ) := by
    rw [← q, ← q']
    field_simp
    ring
  have hab : 0 ≤ b - a := by linarith
  have b1 : (b - a) / (σ * (a * b)) ≤ (T' - T) / (2 * σ * T * a) := by
    calc (b - a) / (σ * (a * b)) ≤ (b - a) / (σ * (a * a)) := by gcongr
      _ ≤ (T' - T) / (2 * a) / (σ * (a * a)) := by gcongr
      _ = (T' - T) / (2 * σ * T * a) := by rw [← q]; field_simp
  have b2 : (b - a) / σ ≤ (T' - T) / (2 * σ * a) := by
    calc (b - a) / σ ≤ (T' - T) / (2 * a) / σ := by gcongr
      _ = (T' - T) / (2 * σ * a) := by field_simp
  rw [e]
  have t1 := abs_add_le (-(L * ((b - a) / (σ * (a * b))))) (μ * ((b - a) / σ))
  have p1 : 0 ≤ (b - a) / (σ * (a * b)) := by positivity
  have p2 : 0 ≤ (b - a) / σ := by positivity
  rw [abs_neg, abs_mul, abs_mul, abs_of_nonneg p1, abs_of_nonneg p2] at t1
  have c1 := mul_le_mul_of_nonneg_left b1 (abs_nonneg L)
  have c2 := mul_le_mul_of_nonneg_left b2 (abs_nonneg μ)
  have f1 : (|L| / (4 * σ * T * a) + |μ| / (4 * σ * a)) * (T' - T) = (|L| * ((T' - T) / (2 * σ * T * a)) + |μ| * ((T' - T) / (2 * σ * a))) / 2 := by
    field_simp
    ring
  rw [f1]
  linarith

theorem discount_later (hr : 0 ≤ r) (hT : 0 ≤ T) (h : T ≤ T') : |Real.exp (-(r * T')) - Real.exp (-(r * T))| ≤ r * (T' - T) := by
  have h1 : Real.exp (-(r * T')) ≤ Real.exp (-(r * T)) := Real.exp_le_exp.mpr (by nlinarith)
  have h2 : Real.exp (-(r * T)) ≤ 1 := Real.exp_le_one_iff.mpr (by nlinarith)
  have h3 := Real.add_one_le_exp (-(r * (T' - T)))
  have h4 : Real.exp (-(r * T')) = Real.exp (-(r * T)) * Real.exp (-(r * (T' - T))) := by rw [← Real.exp_add]; congr 1; ring
  have h5 : 0 ≤ r * (T' - T) := mul_nonneg hr (by linarith)
  have h6 := Real.exp_pos (-(r * T))
  rw [abs_of_nonpos (by linarith), h4]
  nlinarith

theorem exceedance_mem : 0 ≤ exceedance S σ r c T K ∧ exceedance S σ r c T K ≤ 1 := ⟨ProbabilityTheory.cdf_nonneg _ _, ProbabilityTheory.cdf_le_one _ _⟩

theorem digital_later (hσ : 0 < σ) (hr : 0 ≤ r) (hT : 0 < T) (h : T ≤ T') {p p' : ℝ} (hp : p ∈ Set.Icc 0 1)
    (hpp : |p' - p| ≤ |exceedance S σ r c T' K - exceedance S σ r c T K|) :
    |Real.exp (-(r * T')) * p' - Real.exp (-(r * T)) * p| ≤ digitalMaturityRate S σ r c K T * (T' - T) := by
  have h1 := discount_later hr hT.le h
  have h2 := hpp.trans (exceedance_later (S := S) (r := r) (c := c) (K := K) hσ hT h)
  have h3 : Real.exp (-(r * T')) ≤ 1 := Real.exp_le_one_iff.mpr (by nlinarith)
  have h4 := (Real.exp_pos (-(r * T'))).le
  have e : Real.exp (-(r * T')) * p' - Real.exp (-(r * T)) * p = Real.exp (-(r * T')) * (p' - p) + (Real.exp (-(r * T')) - Real.exp (-(r * T))) * p := by ring
  rw [e]
  have t := abs_add_le (Real.exp (-(r * T')) * (p' - p)) ((Real.exp (-(r * T')) - Real.exp (-(r * T))) * p)
  rw [abs_mul, abs_mul, abs_of_nonneg h4, abs_of_nonneg hp.1] at t
  have m1 := mul_le_mul_of_nonneg_right h3 (abs_nonneg (p' - p))
  have m2 := mul_le_mul_of_nonneg_left hp.2 (abs_nonneg (Real.exp (-(r * T')) - Real.exp (-(r * T))))
  unfold digitalMaturityRate
  linarith

theorem roundedDigital_later {X h k δ BL BR : ℝ} (hT : 0 < T) (h1 : T ≤ T') (hr : 0 ≤ r) (hS : 0 < S) (hX : 0 < X) (hK : 0 < K) (hh : 0 ≤ h) (hk : 0 ≤ k) (hδ : 0 < δ) (hBL : 0 ≤ BL) (hBR : 0 ≤ BR) :
    roundedDigitalError σ r c T K S X h k δ BL BR ≤ roundedDigitalError σ r c T' K S X h k δ BL BR + 9 / 4 * (roundedJumpEffect σ T K δ - roundedJumpEffect σ T' K δ) := by
  have e : ∀ a : ℝ, 0 ≤ a → Real.exp (a * T) ≤ Real.exp (a * T') := fun a ha => Real.exp_le_exp.mpr (mul_le_mul_of_nonneg_left h1 ha)
  have ha := abs_nonneg (r - c)
  have hσ := sq_nonneg σ
  have hT' := hT.le.trans h1
  have s1 : spaceConstant σ r c T X δ ≤ spaceConstant σ r c T' X δ := by
    have e1 := e (4 * |r - c| + 6 * σ ^ 2) (by positivity)
    have e2 := e (3 * |r - c| + 3 * σ ^ 2) (by positivity)
    unfold spaceConstant
    gcongr
  have s0 : 0 ≤ spaceConstant σ r c T X δ := by unfold spaceConstant; positivity
  have b1 : boundaryEffect σ r c T S X h BL BR ≤ boundaryEffect σ r c T' S X h BL BR := by
    have e1 := e (2 * (σ ^ 2 + 2 * |r - c|)) (by positivity)
    unfold boundaryEffect
    gcongr
  have M0 : 0 ≤ roundedTimeConstant σ r c K δ + r ^ 2 := by unfold roundedTimeConstant timeBound; positivity
  have t1 : T * ((roundedTimeConstant σ r c K δ + r ^ 2) / 2 * k + spaceConstant σ r c T X δ / δ * h ^ 2) ≤
      T' * ((roundedTimeConstant σ r c K δ + r ^ 2) / 2 * k + spaceConstant σ r c T' X δ / δ * h ^ 2) := by
    have i1 : spaceConstant σ r c T X δ / δ * h ^ 2 ≤ spaceConstant σ r c T' X δ / δ * h ^ 2 := by gcongr
    exact mul_le_mul h1 (by linarith) (by positivity) hT'
  have x1 : 1 / δ / δ * Real.exp ((2 * |r - c| + σ ^ 2) * T) * h ^ 2 / 2 ≤ 1 / δ / δ * Real.exp ((2 * |r - c| + σ ^ 2) * T') * h ^ 2 / 2 := by
    have e1 := e (2 * |r - c| + σ ^ 2) (by positivity)
    gcongr
  unfold roundedDigitalError
  linarith

theorem jump_later {δ : ℝ} (hσ : 0 < σ) (hT : 0 < T) (h : T ≤ T') (hK : 0 < K) (hδ : 0 ≤ δ) : roundedJumpEffect σ T' K δ ≤ roundedJumpEffect σ T K δ := by
  have s0 := Real.sqrt_pos.mpr hT
  have s1 := Real.sqrt_le_sqrt h
  unfold roundedJumpEffect
  gcongr

theorem digital_at_maturity {X : ℝ} {J N : ℕ} (G : GridSizes σ r c K S T X J N) {y R δ BL BR p p' : ℝ} (hδ : 0 < δ) (hBL : 0 ≤ BL) (hBR : 0 ≤ BR) (h : T' = T ∨ T' = T + T / (N - 1))
    (hp : p ∈ Set.Icc 0 1) (hpp : |p' - p| ≤ |exceedance S σ r c T' K - exceedance S σ r c T K|)
    (hy : |y - Real.exp (-(r * T')) * p'| ≤ roundedDigitalError σ r c T' K S X (X / (J - 1)) (T / (N - 1)) δ BL BR + R) :
    |y - Real.exp (-(r * T)) * p| ≤ lateDigitalError σ r c T K S X (X / (J - 1)) (T / (N - 1)) δ BL BR + R := by
  obtain ⟨hT, h1, h2, hS, hX, hh, hk⟩ := late G h
  have hK := G.strike.1
  have hr := G.rate.1
  have hσ := G.vol.1
  have a1 := digital_later (S := S) (c := c) (K := K) hσ hr hT h1 hp hpp
  have a2 := roundedDigital_later (σ := σ) (c := c) (BL := BL) (BR := BR) (δ := δ) (hT.trans_le h1) h2 hr hS hX hK hh hk hδ hBL hBR
  have a3 := jump_later (K := K) (δ := δ) hσ hT h1 hK hδ.le
  have a4 : 0 ≤ digitalMaturityRate S σ r c K T := by unfold digitalMaturityRate; positivity
  have a5 := mul_le_mul_of_nonneg_left (by linarith : T' - T ≤ T / (N - 1)) a4
  have a6 := abs_sub_le y (Real.exp (-(r * T')) * p') (Real.exp (-(r * T)) * p)
  unfold lateDigitalError
  linarith

end

section
variable (o : OptObj (Dbl .binary64)) (m : Market (Dbl .binary64)) (d : StockData (Dbl .binary64)) (hd : BlackScholes.stock o m = .ok d)
  (σ r c K S T X : ℝ) (J N : ℕ) (hσ : d.sigma = .num σ) (hr : m.r = .num r) (hc : d.coupon.getD (lit 0) = .num c) (hS : d.price = .num S) (hT : o.T = .num T)
  (scd : Scheme (Dbl .binary64)) (sc : Scheme ℝ) (ρ : ℝ) (hsc : ModerateScheme σ r c K S T X J N scd sc ρ) (hJ : 4 ≤ J) (hXK : 1 ≤ X + K)
  (junk : ℕ → Dbl .binary64) (δ : ℝ) (hδ : (X + K) / 2 ^ 49 ≤ δ) (hδK : 20 * δ ≤ K)
include hd hσ hr hc hS hT hsc hJ hXK hδ hδK

/-- **C96.** Digital put, any of the three schemes, linear interpolation, in double precision: the price returned is within `lateDigitalError` and the rounding error of the
discounted probability of ending below the strike at the maturity of the option, whether or not the time loop ends one step late. -/
theorem C96_maturityPut (ho : o.payoff = .digital .put (.num K)) :
    ∃ s, construct scd (.num X) J o.T N (BlackScholes.pde o m) junk = .ok s ∧ ∀ fuel, N < fuel → ∃ y : ℝ,
      (calculatePrice scd .linear (BlackScholes.pde o m) (FdmWorld.spot o m) fuel s).1 = .ok (.num y) ∧
      |y - Real.exp (-(r * T)) * (1 - exceedance S σ r c T K)| ≤ lateDigitalError σ r c T K S X (X / (J - 1)) (T / (N - 1)) δ (K + 1) 1 + ρ := by
  obtain ⟨s, hs, T', hT', h⟩ := C96_put o m d hd σ r c K S T X J N hσ hr hc hS hT scd sc ρ hsc hJ hXK junk δ hδ hδK ho
  have hK := hsc.sizes.strike.1
  refine ⟨s, hs, fun fuel hf => ?_⟩
  obtain ⟨y, hy, hb⟩ := h fuel hf
  have hm := exceedance_mem (S := S) (σ := σ) (r := r) (c := c) (T := T) (K := K)
  exact ⟨y, hy, digital_at_maturity hsc.sizes (lt_of_lt_of_le (by positivity) hδ) (by positivity) zero_le_one hT' ⟨by linarith, by linarith⟩
    (by rw [sub_sub_sub_cancel_left, abs_sub_comm]) hb⟩

/-- **C96.** Digital call, for the maturity of the option. -/
theorem C96_maturityCall (ho : o.payoff = .digital .call (.num K)) (hrk : r * (T / (N - 1)) ≤ 1) :
    ∃ s, construct scd (.num X) J o.T N (BlackScholes.pde o m) junk = .ok s ∧ ∀ fuel, N < fuel → ∃ y : ℝ,
      (calculatePrice scd .linear (BlackScholes.pde o m) (FdmWorld.spot o m) fuel s).1 = .ok (.num y) ∧
      |y - Real.exp (-(r * T)) * exceedance S σ r c T K| ≤ lateDigitalError σ r c T K S X (X / (J - 1)) (T / (N - 1)) δ 1 (X + (3 * K + 1)) + ρ := by
  obtain ⟨s, hs, T', hT', h⟩ := C96_call o m d hd σ r c K S T X J N hσ hr hc hS hT scd sc ρ hsc hJ hXK junk δ hδ hδK ho hrk
  have hK := hsc.sizes.strike.1
  have hX : 0 < X := lt_of_lt_of_le (by norm_num) hsc.sizes.width.1
  refine ⟨s, hs, fun fuel hf => ?_⟩
  obtain ⟨y, hy, hb⟩ := h fuel hf
  have hm := exceedance_mem (S := S) (σ := σ) (r := r) (c := c) (T := T) (K := K)
  exact ⟨y, hy, digital_at_maturity hsc.sizes (lt_of_lt_of_le (by positivity) hδ) zero_le_one (by positivity) hT' hm le_rfl hb⟩

end

namespace FdmDoubleExample

/-- A digital put by explicit Euler. -/
example : ∃ s, construct .explicit (.num ((500 : ℝ) : EReal)) 101 (digitalOption .put).T 1001 (BlackScholes.pde (digitalOption .put) market) (fun _ => lit 0) = .ok s ∧
    ∀ fuel, 1001 < fuel → ∃ y : ℝ,
      (calculatePrice .explicit .linear (BlackScholes.pde (digitalOption .put) market) (FdmWorld.spot (digitalOption .put) market) fuel s).1 = .ok (.num y) ∧
      |y - Real.exp (-(1 / 16 * 1)) * (1 - exceedance 100 (1 / 4) (1 / 16) 0 1 100)| ≤
        lateDigitalError (1 / 4) (1 / 16) 0 1 100 100 500 (500 / ((101 : ℕ) - 1)) (1 / ((1001 : ℕ) - 1)) (1 / 10) (100 + 1) 1 + fdmRounding 100 500 101 1001 :=
  C96_maturityPut (digitalOption .put) market _ (digitalStock _) (1 / 4) (1 / 16) 0 100 100 1 500 101 1001 rfl rfl Dbl.lit_zero rfl rfl _ _ _ (.explicit grid) (by norm_num) (by norm_num) _
    (1 / 10) (by norm_num) (by norm_num) rfl

/-- A digital call by implicit Euler. -/
example : ∃ s, construct (.implicit thomas) (.num ((500 : ℝ) : EReal)) 101 (digitalOption .call).T 21 (BlackScholes.pde (digitalOption .call) market) (fun _ => lit 0) = .ok s ∧
    ∀ fuel, 21 < fuel → ∃ y : ℝ,
      (calculatePrice (.implicit thomas) .linear (BlackScholes.pde (digitalOption .call) market) (FdmWorld.spot (digitalOption .call) market) fuel s).1 = .ok (.num y) ∧
      |y - Real.exp (-(1 / 16 * 1)) * exceedance 100 (1 / 4) (1 / 16) 0 1 100| ≤
        lateDigitalError (1 / 4) (1 / 16) 0 1 100 100 500 (500 / ((101 : ℕ) - 1)) (1 / ((21 : ℕ) - 1)) 1 1 (500 + (3 * 100 + 1)) + implicitRounding (1 / 4) (1 / 16) 100 1 500 101 21 :=
  C96_maturityCall (digitalOption .call) market _ (digitalStock _) (1 / 4) (1 / 16) 0 100 100 1 500 101 21 rfl rfl Dbl.lit_zero rfl rfl _ _ _ (.implicit implicitGrid) (by norm_num) (by norm_num) _
    1 (by norm_num) (by norm_num) rfl (by norm_num)

end FdmDoubleExample
end Verif
