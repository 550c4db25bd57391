import Verif.Lemmas.ImplicitRoundingSizes

/-!
# C92: calls and puts, implicit Euler with the Thomas algorithm, in double precision

`C85` is about explicit Euler.  Implicit Euler solves a tridiagonal system in every time step; the rounding errors of the coefficients, of the right hand side and of the Thomas
algorithm (`C91`) enter the residuals of the system, and the maximum principle turns residuals into errors of the new prices.  The errors of successive steps add up, with no
condition that links the time step to the space step.
-/

namespace Verif
open Spec

open Fdm

section
variable (o : OptObj (Dbl .binary64)) (m : Market (Dbl .binary64)) (d : StockData (Dbl .binary64)) (hd : BlackScholes.stock o m = .ok d) (σ r c K S T X : ℝ) (J N : ℕ)
  (hσ : d.sigma = .num σ) (hr : m.r = .num r) (hc : d.coupon.getD (lit 0) = .num c) (hS : d.price = .num S) (hT : o.T = .num T)
  (G : ModerateImplicit σ r c K S T X J N) (junk : ℕ → Dbl .binary64)
include hd hσ hr hc hS hT G

/-- **C92.** Implicit Euler with the Thomas algorithm with linear interpolation, European put, in double precision: the result of `calculatePrice()` is within
`implicitRounding` of the result of exact arithmetic with the same number of time steps.  The time loop makes `N - 1` or `N` steps (`C53_double_partial`), and the run in exact
arithmetic is told to make as many: it ends at `n` times the time step. -/
theorem C92_roundingPut (ho : o.payoff = .vanilla .put (.num K)) (o' : OptObj ℝ) (m' : Market ℝ) (d' : StockData ℝ) (hd' : BlackScholes.stock o' m' = .ok d')
    (ho' : o'.payoff = .vanilla .put K) (hσ' : d'.sigma = σ) (hr' : m'.r = r) (hc' : d'.coupon.getD 0 = c) (hS' : d'.price = S) (junk' : ℕ → ℝ) :
    ∃ s, construct (.implicit thomas) (.num X) J o.T N (BlackScholes.pde o m) junk = .ok s ∧ ∃ n, (n = N - 1 ∨ n = N) ∧
      ∃ s', construct (.implicit thomas) X J (n * (T / (N - 1))) (n + 1) (BlackScholes.pde o' m') junk' = .ok s' ∧ ∀ fuel fuel', N < fuel → n + 1 ≤ fuel' → ∃ y y' : ℝ,
        (calculatePrice (.implicit thomas) .linear (BlackScholes.pde o m) (FdmWorld.spot o m) fuel s).1 = .ok (.num y) ∧
        (calculatePrice (.implicit thomas) .linear (BlackScholes.pde o' m') (FdmWorld.spot o' m') fuel' s').1 = .ok y' ∧ |y - y'| ≤ implicitRounding σ r K T X J N := by
  obtain ⟨s, hs, n, hn, h⟩ := implicit_put_rounding hd hσ hr hc ho G junk
  subst hσ' hr' hc' hS'
  have hp := put_describes hd' ho'
  obtain ⟨s', hs'⟩ := construct_returns (xDom := X) (tDom := n * (T / (N - 1))) (N := n + 1) hp junk' G.nodes.1 (by have := G.nodes.2; unfold INT_MAX; omega) (.implicit thomas)
  refine ⟨s, by rw [hT]; exact hs, n, hn, s', hs', fun fuel fuel' hf hf' => ?_⟩
  rw [spot_ok hd', show FdmWorld.spot o m = .ok (.num d'.price) by rw [FdmWorld.spot, hd, Res.bind_ok, hS]; rfl]
  exact h fuel hf _ hp junk' s' hs' fuel' hf'

/-- **C92.** The same for a European call. -/
theorem C92_roundingCall (ho : o.payoff = .vanilla .call (.num K)) (hrk : r * (T / (N - 1)) ≤ 1) (o' : OptObj ℝ) (m' : Market ℝ) (d' : StockData ℝ) (hd' : BlackScholes.stock o' m' = .ok d')
    (ho' : o'.payoff = .vanilla .call K) (hσ' : d'.sigma = σ) (hr' : m'.r = r) (hc' : d'.coupon.getD 0 = c) (hS' : d'.price = S) (hT' : o'.T = T) (junk' : ℕ → ℝ) :
    ∃ s, construct (.implicit thomas) (.num X) J o.T N (BlackScholes.pde o m) junk = .ok s ∧ ∃ n, (n = N - 1 ∨ n = N) ∧
      ∃ s', construct (.implicit thomas) X J (n * (T / (N - 1))) (n + 1) (BlackScholes.pde o' m') junk' = .ok s' ∧ ∀ fuel fuel', N < fuel → n + 1 ≤ fuel' → ∃ y y' : ℝ,
        (calculatePrice (.implicit thomas) .linear (BlackScholes.pde o m) (FdmWorld.spot o m) fuel s).1 = .ok (.num y) ∧
        (calculatePrice (.implicit thomas) .linear (BlackScholes.pde o' m') (FdmWorld.spot o' m') fuel' s').1 = .ok y' ∧ |y - y'| ≤ implicitRounding σ r K T X J N := by
  obtain ⟨s, hs, n, hn, h⟩ := implicit_call_rounding hd hσ hr hc ho hT hrk G junk
  subst hσ' hr' hc' hS' hT'
  have hp := call_describes hd' ho'
  obtain ⟨s', hs'⟩ := construct_returns (xDom := X) (tDom := n * (o'.T / (N - 1))) (N := n + 1) hp junk' G.nodes.1 (by have := G.nodes.2; unfold INT_MAX; omega) (.implicit thomas)
  refine ⟨s, by rw [hT]; exact hs, n, hn, s', hs', fun fuel fuel' hf hf' => ?_⟩
  rw [spot_ok hd', show FdmWorld.spot o m = .ok (.num d'.price) by rw [FdmWorld.spot, hd, Res.bind_ok, hS]; rfl]
  exact h fuel hf _ hp junk' s' hs' fuel' hf'

/-- **C92.** Implicit Euler with the Thomas algorithm with linear interpolation, European put, in double precision: `calculatePrice()` returns a number within `putGridError` plus `implicitRounding` of the
Black-Scholes price, for the maturity at which the computed time loop ends: `T`, or one time step later. -/
theorem C92_put (ho : o.payoff = .vanilla .put (.num K)) (δ : ℝ) (hδ : 0 < δ) :
    ∃ s, construct (.implicit thomas) (.num X) J o.T N (BlackScholes.pde o m) junk = .ok s ∧ ∃ T', (T' = T ∨ T' = T + T / (N - 1)) ∧ ∀ fuel, N < fuel → ∃ y : ℝ,
      (calculatePrice (.implicit thomas) .linear (BlackScholes.pde o m) (FdmWorld.spot o m) fuel s).1 = .ok (.num y) ∧
      |y - blackScholesPut S σ r c T' K| ≤ putGridError σ r c T' K S X (X / (J - 1)) (T / (N - 1)) δ + implicitRounding σ r K T X J N := by
  obtain ⟨s, hs, n, hn, h⟩ := implicit_put_rounding hd hσ hr hc ho G junk
  obtain ⟨h1, h2, h3, h4⟩ := grid_h G.toGridSizes
  obtain ⟨k1, k2, k3⟩ := grid_k G.toGridSizes
  have hN := G.levels.1
  have hn0 : 0 < n := by omega
  have hnr : (0 : ℝ) < n := by exact_mod_cast hn0
  have hX : 0 < X := lt_of_lt_of_le (by norm_num) G.width.1
  have hK := G.strike.1
  have hr0 := G.rate.1
  have hS0 : 0 < S := by linarith [G.spot.1]
  have hTn : 0 < n * (T / ((N : ℝ) - 1)) := mul_pos hnr k1
  have ek : n * (T / ((N : ℝ) - 1)) / (((n + 1 : ℕ) : ℝ) - 1) = T / ((N : ℝ) - 1) := by
    push_cast
    rw [add_sub_cancel_right, mul_div_cancel_left₀ _ hnr.ne']
  obtain ⟨s', hs', hy'⟩ := implicit_price (δ := δ) (A := 0) (B := 0) (BL := K) (BR := K) (valuesPde_describes (putProblem σ r c K)) put_coefficients hr0 hX hTn (N := n + 1)
    (put_dominates G.drift hr0 J h3.le) (by rw [ek]; exact G.step) hK.le hδ (fun x _ => by simp [putProblem]) .linear G.inner (G.nodes.2.trans (by norm_num)) (by omega) hK.le hK.le
    (fun t _ t' ht' => by
      obtain ⟨a, b⟩ := put_value (σ := σ) (c := c) hδ hK.le hr0 ht'.1 0
      change |K - _| ≤ K
      rw [abs_le]; constructor <;> linarith)
    (fun t _ t' ht' => by
      obtain ⟨a, b⟩ := put_value (σ := σ) (c := c) hδ hK.le hr0 ht'.1 X
      change |0 - _| ≤ K
      rw [abs_le]; constructor <;> linarith) (fun _ => 0) hS0 (by linarith [G.spot.2]) G.spot.1
  refine ⟨s, by rw [hT]; exact hs, n * (T / (N - 1)), end_time hN hn, fun fuel hf => ?_⟩
  obtain ⟨y, y', e1, e2, e3⟩ := h fuel hf _ (valuesPde_describes _) _ s' hs' (n + 1) le_rfl
  obtain ⟨z, z1, z2⟩ := hy' (n + 1) le_rfl
  obtain rfl : y' = z := Res.ok.inj (e2.symm.trans z1)
  refine ⟨y, by rw [show FdmWorld.spot o m = .ok (.num S) by rw [FdmWorld.spot, hd, Res.bind_ok, hS]; rfl]; exact e1, ?_⟩
  rw [ek, optionValue_put hS0 G.vol.1 hTn hK] at z2
  have z3 : |y' - blackScholesPut S σ r c (n * (T / (N - 1))) K| ≤ putGridError σ r c (n * (T / (N - 1))) K S X (X / (J - 1)) (T / (N - 1)) δ := by
    simpa [putGridError] using z2
  have := abs_sub_le y y' (blackScholesPut S σ r c (n * (T / (N - 1))) K)
  linarith

/-- **C92.** The same for a European call. -/
theorem C92_call (ho : o.payoff = .vanilla .call (.num K)) (hrk : r * (T / (N - 1)) ≤ 1) (δ : ℝ) (hδ : 0 < δ) :
    ∃ s, construct (.implicit thomas) (.num X) J o.T N (BlackScholes.pde o m) junk = .ok s ∧ ∃ T', (T' = T ∨ T' = T + T / (N - 1)) ∧ ∀ fuel, N < fuel → ∃ y : ℝ,
      (calculatePrice (.implicit thomas) .linear (BlackScholes.pde o m) (FdmWorld.spot o m) fuel s).1 = .ok (.num y) ∧
      |y - blackScholesCall S σ r c T' K| ≤ lateCallGridError σ r c T' K S X (X / (J - 1)) (T / (N - 1)) δ + implicitRounding σ r K T X J N := by
  obtain ⟨s, hs, n, hn, h⟩ := implicit_call_rounding hd hσ hr hc ho hT hrk G junk
  obtain ⟨h1, h2, h3, h4⟩ := grid_h G.toGridSizes
  obtain ⟨k1, k2, k3⟩ := grid_k G.toGridSizes
  have hN := G.levels.1
  have hn0 : 0 < n := by omega
  have hnr : (0 : ℝ) < n := by exact_mod_cast hn0
  have hX : 0 < X := lt_of_lt_of_le (by norm_num) G.width.1
  have hK := G.strike.1
  have hr0 := G.rate.1
  have hS0 : 0 < S := by linarith [G.spot.1]
  have hTn : 0 < n * (T / ((N : ℝ) - 1)) := mul_pos hnr k1
  have ek : n * (T / ((N : ℝ) - 1)) / (((n + 1 : ℕ) : ℝ) - 1) = T / ((N : ℝ) - 1) := by
    push_cast
    rw [add_sub_cancel_right, mul_div_cancel_left₀ _ hnr.ne']
  have hexp : 0 ≤ Real.exp (|c| * (n * (T / (N - 1)))) - 1 := by
    have := Real.one_le_exp (mul_nonneg (abs_nonneg c) hTn.le)
    linarith
  obtain ⟨s', hs', hy'⟩ := implicit_price (δ := δ) (A := 1) (B := -K) (BL := K) (BR := X * (Real.exp (|c| * (n * (T / (N - 1)))) - 1) + 4 * K)
    (valuesPde_describes (callProblem σ r c K T)) call_coefficients hr0 hX hTn (N := n + 1)
    (call_dominates (K := K) (T := T) G.drift hr0 J h3.le) (by rw [ek]; exact G.step) hK.le hδ (fun x _ => by
      change max (x - K) 0 = _
      rcases le_total x K with hx | hx
      · rw [max_eq_right (by linarith), max_eq_left (by linarith)]; ring
      · rw [max_eq_left (by linarith), max_eq_right (by linarith)]; ring) .linear G.inner (G.nodes.2.trans (by norm_num)) (by omega) hK.le (by positivity)
    (fun t _ t' ht' => by
      have := call_left_value (σ := σ) (c := c) hδ hK.le hr0 ht'.1
      change |0 - _| ≤ K
      rwa [zero_sub, abs_neg])
    (fun t ht t' ht' => by
      change |X - K * Real.exp (-r * (T - t)) - _| ≤ _
      have h0 := call_right_error (σ := σ) (c := c) hδ hK.le hr0 ht'.1 hX.le ht'.2 (t' := n * (T / (N - 1))) le_rfl
      rw [sub_self, mul_zero, Real.exp_zero, mul_one] at h0
      have hE : Real.exp (-r * (T - t)) ≤ 3 := by
        refine (Real.exp_le_exp.mpr (?_ : -r * (T - t) ≤ 1)).trans (Real.exp_one_lt_d9.le.trans (by norm_num))
        have h1 : t ≤ T + T / (N - 1) := by rcases end_time (T := T) hN hn with e | e <;> linarith [ht.2]
        have := mul_le_mul_of_nonneg_left h1 hr0
        linarith
      have h2 := mul_le_mul_of_nonneg_left hE hK.le
      have h3 := mul_pos hK (Real.exp_pos (-r * (T - t)))
      have h4 : |X - K * Real.exp (-r * (T - t)) - (X - K)| ≤ 2 * K := by
        rw [abs_le]
        constructor <;> linarith
      have h5 := abs_sub_le (X - K * Real.exp (-r * (T - t))) (X - K) (portfolio (rounded δ K) σ r c 1 (-K) t' X)
      linarith) (fun _ => 0) hS0 (by linarith [G.spot.2]) G.spot.1
  refine ⟨s, by rw [hT]; exact hs, n * (T / (N - 1)), end_time hN hn, fun fuel hf => ?_⟩
  obtain ⟨y, y', e1, e2, e3⟩ := h fuel hf _ (valuesPde_describes _) _ s' hs' (n + 1) le_rfl
  obtain ⟨z, z1, z2⟩ := hy' (n + 1) le_rfl
  obtain rfl : y' = z := Res.ok.inj (e2.symm.trans z1)
  refine ⟨y, by rw [show FdmWorld.spot o m = .ok (.num S) by rw [FdmWorld.spot, hd, Res.bind_ok, hS]; rfl]; exact e1, ?_⟩
  rw [ek] at z2
  have z3 : |y' - blackScholesCall S σ r c (n * (T / (N - 1))) K| ≤ lateCallGridError σ r c (n * (T / (N - 1))) K S X (X / (J - 1)) (T / (N - 1)) δ := by
    rw [← optionValue_call hS0 G.vol.1 hTn hK, optionValue_parity hTn.le]
    simpa [lateCallGridError, abs_of_pos hK, sub_eq_add_neg] using z2
  have := abs_sub_le y y' (blackScholesCall S σ r c (n * (T / (N - 1))) K)
  linarith

end

/-! ## A case -/

namespace FdmDoubleExample

theorem implicitGrid : ModerateImplicit (1 / 4) (1 / 16) 0 100 100 1 500 101 21 := by
  refine ⟨?_, ?_, ?_⟩
  · constructor <;> norm_num
  · norm_num
  · norm_num

/-- The hypotheses are met by 101 nodes on `[0, 500]` and 21 time levels, for which the weights of explicit Euler would be negative; the rounding error is less than 0.0001. -/
example : (∃ s, construct (.implicit thomas) (.num ((500 : ℝ) : EReal)) 101 (option .put).T 21 (BlackScholes.pde (option .put) market) (fun _ => lit 0) = .ok s ∧
    ∃ T' : ℝ, (T' = 1 ∨ T' = 1 + 1 / ((21 : ℕ) - 1)) ∧ ∀ fuel, 21 < fuel → ∃ y : ℝ,
      (calculatePrice (.implicit thomas) .linear (BlackScholes.pde (option .put) market) (FdmWorld.spot (option .put) market) fuel s).1 = .ok (.num y) ∧
      |y - blackScholesPut 100 (1 / 4) (1 / 16) 0 T' 100| ≤
        putGridError (1 / 4) (1 / 16) 0 T' 100 100 500 (500 / ((101 : ℕ) - 1)) (1 / ((21 : ℕ) - 1)) 1 + implicitRounding (1 / 4) (1 / 16) 100 1 500 101 21) ∧
    implicitRounding (1 / 4) (1 / 16) 100 1 500 101 21 < 1 / 10000 :=
  ⟨C92_put (option .put) market _ (stock _) (1 / 4) (1 / 16) 0 100 100 1 500 101 21 rfl rfl Dbl.lit_zero rfl rfl implicitGrid _ rfl 1 one_pos, by norm_num [implicitRounding]⟩

example : ∃ s, construct (.implicit thomas) (.num ((500 : ℝ) : EReal)) 101 (option .call).T 21 (BlackScholes.pde (option .call) market) (fun _ => lit 0) = .ok s ∧
    ∃ T' : ℝ, (T' = 1 ∨ T' = 1 + 1 / ((21 : ℕ) - 1)) ∧ ∀ fuel, 21 < fuel → ∃ y : ℝ,
      (calculatePrice (.implicit thomas) .linear (BlackScholes.pde (option .call) market) (FdmWorld.spot (option .call) market) fuel s).1 = .ok (.num y) ∧
      |y - blackScholesCall 100 (1 / 4) (1 / 16) 0 T' 100| ≤
        lateCallGridError (1 / 4) (1 / 16) 0 T' 100 100 500 (500 / ((101 : ℕ) - 1)) (1 / ((21 : ℕ) - 1)) 1 + implicitRounding (1 / 4) (1 / 16) 100 1 500 101 21 :=
  C92_call (option .call) market _ (stock _) (1 / 4) (1 / 16) 0 100 100 1 500 101 21 rfl rfl Dbl.lit_zero rfl rfl implicitGrid _ rfl (by norm_num) 1 one_pos

/-- The hypotheses about the exact objects. -/
example : ∃ s, construct (.implicit thomas) (.num ((500 : ℝ) : EReal)) 101 (option .put).T 21 (BlackScholes.pde (option .put) market) (fun _ => lit 0) = .ok s ∧
    ∃ n : ℕ, (n = 21 - 1 ∨ n = 21) ∧ ∃ s', construct (.implicit thomas) 500 101 ((n : ℝ) * (1 / ((21 : ℕ) - 1))) (n + 1) (BlackScholes.pde (exactOption .put) exactMarket) (fun _ => (0 : ℝ)) = .ok s' ∧
      ∀ fuel fuel', 21 < fuel → n + 1 ≤ fuel' → ∃ y y' : ℝ,
        (calculatePrice (.implicit thomas) .linear (BlackScholes.pde (option .put) market) (FdmWorld.spot (option .put) market) fuel s).1 = .ok (.num y) ∧
        (calculatePrice (.implicit thomas) .linear (BlackScholes.pde (exactOption .put) exactMarket) (FdmWorld.spot (exactOption .put) exactMarket) fuel' s').1 = .ok y' ∧
        |y - y'| ≤ implicitRounding (1 / 4) (1 / 16) 100 1 500 101 21 :=
  C92_roundingPut (option .put) market _ (stock _) (1 / 4) (1 / 16) 0 100 100 1 500 101 21 rfl rfl Dbl.lit_zero rfl rfl implicitGrid _ rfl (exactOption .put) exactMarket
    ⟨100, 1 / 4, none⟩ rfl rfl rfl rfl rfl rfl _

example : ∃ s, construct (.implicit thomas) (.num ((500 : ℝ) : EReal)) 101 (option .call).T 21 (BlackScholes.pde (option .call) market) (fun _ => lit 0) = .ok s ∧
    ∃ n : ℕ, (n = 21 - 1 ∨ n = 21) ∧ ∃ s', construct (.implicit thomas) 500 101 ((n : ℝ) * (1 / ((21 : ℕ) - 1))) (n + 1) (BlackScholes.pde (exactOption .call) exactMarket) (fun _ => (0 : ℝ)) = .ok s' ∧
      ∀ fuel fuel', 21 < fuel → n + 1 ≤ fuel' → ∃ y y' : ℝ,
        (calculatePrice (.implicit thomas) .linear (BlackScholes.pde (option .call) market) (FdmWorld.spot (option .call) market) fuel s).1 = .ok (.num y) ∧
        (calculatePrice (.implicit thomas) .linear (BlackScholes.pde (exactOption .call) exactMarket) (FdmWorld.spot (exactOption .call) exactMarket) fuel' s').1 = .ok y' ∧
        |y - y'| ≤ implicitRounding (1 / 4) (1 / 16) 100 1 500 101 21 :=
  C92_roundingCall (option .call) market _ (stock _) (1 / 4) (1 / 16) 0 100 100 1 500 101 21 rfl rfl Dbl.lit_zero rfl rfl implicitGrid _ rfl (by norm_num) (exactOption .call) exactMarket
    ⟨100, 1 / 4, none⟩ rfl rfl rfl rfl rfl rfl rfl _

end FdmDoubleExample
end Verif
