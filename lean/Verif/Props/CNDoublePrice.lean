import Verif.Lemmas.CNRoundingSizes

/-!
# C93: calls and puts, Crank-Nicolson with the Thomas algorithm, in double precision

`C85` is about explicit Euler, `C92` about implicit Euler.  Crank-Nicolson solves a system after every row of the assembly; the matrices of all solves but the last one have rows of
zeros, and the Thomas algorithm divides 0 by 0 there.  The numbers that are not numbers end up in the inner entries of `newPrices`, which the next solve overwrites, so the result of the
step is that of the last solve.  If the weights of the explicit half of the scheme are not negative, an error of the old prices is not amplified, and the errors of successive
steps add up.
-/

namespace Verif
open Spec

open Fdm

section
variable (o : OptObj (Dbl .binary64)) (m : Market (Dbl .binary64)) (d : StockData (Dbl .binary64)) (hd : BlackScholes.stock o m = .ok d) (σ r c K S T X : ℝ) (J N : ℕ)
  (hσ : d.sigma = .num σ) (hr : m.r = .num r) (hc : d.coupon.getD (lit 0) = .num c) (hS : d.price = .num S) (hT : o.T = .num T)
  (G : ModerateCN σ r c K S T X J N) (junk : ℕ → Dbl .binary64)
include hd hσ hr hc hS hT G

/-- **C93.** Crank-Nicolson with the Thomas algorithm with linear interpolation, European put, in double precision: the result of `calculatePrice()` is within
`cnRounding` of the result of exact arithmetic with the same number of time steps.  The time loop makes `N - 1` or `N` steps (`C53_double_partial`), and the run in exact
arithmetic is told to make as many: it ends at `n` times the time step. -/
theorem C93_roundingPut (ho : o.payoff = .vanilla .put (.num K)) (o' : OptObj ℝ) (m' : Market ℝ) (d' : StockData ℝ) (hd' : BlackScholes.stock o' m' = .ok d')
    (ho' : o'.payoff = .vanilla .put K) (hσ' : d'.sigma = σ) (hr' : m'.r = r) (hc' : d'.coupon.getD 0 = c) (hS' : d'.price = S) (junk' : ℕ → ℝ) :
    ∃ s, construct (.crankNicolson thomas) (.num X) J o.T N (BlackScholes.pde o m) junk = .ok s ∧ ∃ n, (n = N - 1 ∨ n = N) ∧
      ∃ s', construct (.crankNicolson thomas) X J (n * (T / (N - 1))) (n + 1) (BlackScholes.pde o' m') junk' = .ok s' ∧ ∀ fuel fuel', N < fuel → n + 1 ≤ fuel' → ∃ y y' : ℝ,
        (calculatePrice (.crankNicolson thomas) .linear (BlackScholes.pde o m) (FdmWorld.spot o m) fuel s).1 = .ok (.num y) ∧
        (calculatePrice (.crankNicolson thomas) .linear (BlackScholes.pde o' m') (FdmWorld.spot o' m') fuel' s').1 = .ok y' ∧ |y - y'| ≤ cnRounding K X J N := by
  obtain ⟨s, hs, n, hn, h⟩ := cn_put_rounding hd hσ hr hc ho G junk
  subst hσ' hr' hc' hS'
  have hp := put_describes hd' ho'
  obtain ⟨s', hs'⟩ := construct_returns (xDom := X) (tDom := n * (T / (N - 1))) (N := n + 1) hp junk' G.nodes.1 (by have := G.nodes.2; unfold INT_MAX; omega) (.crankNicolson thomas)
  refine ⟨s, by rw [hT]; exact hs, n, hn, s', hs', fun fuel fuel' hf hf' => ?_⟩
  rw [spot_ok hd', show FdmWorld.spot o m = .ok (.num d'.price) by rw [FdmWorld.spot, hd, Res.bind_ok, hS]; rfl]
  exact h fuel hf _ hp junk' s' hs' fuel' hf'

/-- **C93.** The same for a European call. -/
theorem C93_roundingCall (ho : o.payoff = .vanilla .call (.num K)) (hrk : r * (T / (N - 1)) ≤ 1) (o' : OptObj ℝ) (m' : Market ℝ) (d' : StockData ℝ) (hd' : BlackScholes.stock o' m' = .ok d')
    (ho' : o'.payoff = .vanilla .call K) (hσ' : d'.sigma = σ) (hr' : m'.r = r) (hc' : d'.coupon.getD 0 = c) (hS' : d'.price = S) (hT' : o'.T = T) (junk' : ℕ → ℝ) :
    ∃ s, construct (.crankNicolson thomas) (.num X) J o.T N (BlackScholes.pde o m) junk = .ok s ∧ ∃ n, (n = N - 1 ∨ n = N) ∧
      ∃ s', construct (.crankNicolson thomas) X J (n * (T / (N - 1))) (n + 1) (BlackScholes.pde o' m') junk' = .ok s' ∧ ∀ fuel fuel', N < fuel → n + 1 ≤ fuel' → ∃ y y' : ℝ,
        (calculatePrice (.crankNicolson thomas) .linear (BlackScholes.pde o m) (FdmWorld.spot o m) fuel s).1 = .ok (.num y) ∧
        (calculatePrice (.crankNicolson thomas) .linear (BlackScholes.pde o' m') (FdmWorld.spot o' m') fuel' s').1 = .ok y' ∧ |y - y'| ≤ cnRounding K X J N := by
  obtain ⟨s, hs, n, hn, h⟩ := cn_call_rounding hd hσ hr hc ho hT hrk G junk
  subst hσ' hr' hc' hS' hT'
  have hp := call_describes hd' ho'
  obtain ⟨s', hs'⟩ := construct_returns (xDom := X) (tDom := n * (o'.T / (N - 1))) (N := n + 1) hp junk' G.nodes.1 (by have := G.nodes.2; unfold INT_MAX; omega) (.crankNicolson thomas)
  refine ⟨s, by rw [hT]; exact hs, n, hn, s', hs', fun fuel fuel' hf hf' => ?_⟩
  rw [spot_ok hd', show FdmWorld.spot o m = .ok (.num d'.price) by rw [FdmWorld.spot, hd, Res.bind_ok, hS]; rfl]
  exact h fuel hf _ hp junk' s' hs' fuel' hf'

/-- **C93.** Crank-Nicolson with the Thomas algorithm with linear interpolation, European put, in double precision: `calculatePrice()` returns a number within `putGridError` plus `cnRounding` of the
Black-Scholes price, for the maturity at which the computed time loop ends: `T`, or one time step later. -/
theorem C93_put (ho : o.payoff = .vanilla .put (.num K)) (δ : ℝ) (hδ : 0 < δ) :
    ∃ s, construct (.crankNicolson thomas) (.num X) J o.T N (BlackScholes.pde o m) junk = .ok s ∧ ∃ T', (T' = T ∨ T' = T + T / (N - 1)) ∧ ∀ fuel, N < fuel → ∃ y : ℝ,
      (calculatePrice (.crankNicolson thomas) .linear (BlackScholes.pde o m) (FdmWorld.spot o m) fuel s).1 = .ok (.num y) ∧
      |y - blackScholesPut S σ r c T' K| ≤ putGridError σ r c T' K S X (X / (J - 1)) (T / (N - 1)) δ + cnRounding K X J N := by
  obtain ⟨s, hs, n, hn, h⟩ := cn_put_rounding hd hσ hr hc ho G junk
  obtain ⟨h1, h2, h3, h4⟩ := grid_h G.toGridSizes
  obtain ⟨k1, k2, k3⟩ := grid_k G.toGridSizes
  have hN := G.levels.1
  have hn0 : 0 < n := by omega
  have hnr : (0 : ℝ) < n := by exact_mod_cast hn0
  have hX : 0 < X := lt_of_lt_of_le (by norm_num) G.width.1
  have hK := G.strike.1
  have hr0 := G.rate.1
  have hS0 : 0 < S := by linarith [G.spot.1]
  have hTn : 0 < n * (T / ((N : ℝ) - 1)) := mul_pos hnr k1
  have ek : n * (T / ((N : ℝ) - 1)) / (((n + 1 : ℕ) : ℝ) - 1) = T / ((N : ℝ) - 1) := by
    push_cast
    rw [add_sub_cancel_right, mul_div_cancel_left₀ _ hnr.ne']
  have hv : ∀ t ∈ Set.Icc 0 (n * (T / ((N : ℝ) - 1))), ∀ x, |portfolio (rounded δ K) σ r c 0 0 t x| ≤ K := fun t ht x => by
    obtain ⟨a, b⟩ := put_value (σ := σ) (c := c) hδ hK.le hr0 ht.1 x
    rw [abs_le]; constructor <;> linarith
  obtain ⟨s', hs', hy'⟩ := cn_price (δ := δ) (A := 0) (B := 0) (BL := K) (BR := K) (valuesPde_describes (putProblem σ r c K)) put_coefficients hr0 hX hTn (N := n + 1)
    (put_dominates G.drift hr0 J h3.le) (by rw [ek]; exact G.step) hK.le hδ (fun x _ => by simp [putProblem]) .linear G.inner (G.nodes.2.trans (by norm_num)) (by omega) hK.le hK.le
    (fun t j _ h2 => by rw [ek]; exact weights_ok put_coefficients h3 (half_pos k1).le G.weights t j h2) (fun t ht => hv t ht 0) (fun t ht => hv t ht X)
    (fun t _ t' ht' => by
      obtain ⟨a, b⟩ := put_value (σ := σ) (c := c) hδ hK.le hr0 ht'.1 0
      change |K - _| ≤ K
      rw [abs_le]; constructor <;> linarith)
    (fun t _ t' ht' => by
      obtain ⟨a, b⟩ := put_value (σ := σ) (c := c) hδ hK.le hr0 ht'.1 X
      change |0 - _| ≤ K
      rw [abs_le]; constructor <;> linarith) (fun _ => 0) hS0 (by linarith [G.spot.2]) G.spot.1
  refine ⟨s, by rw [hT]; exact hs, n * (T / (N - 1)), end_time hN hn, fun fuel hf => ?_⟩
  obtain ⟨y, y', e1, e2, e3⟩ := h fuel hf _ (valuesPde_describes _) _ s' hs' (n + 1) le_rfl
  obtain ⟨z, z1, z2⟩ := hy' (n + 1) le_rfl
  obtain rfl : y' = z := Res.ok.inj (e2.symm.trans z1)
  refine ⟨y, by rw [show FdmWorld.spot o m = .ok (.num S) by rw [FdmWorld.spot, hd, Res.bind_ok, hS]; rfl]; exact e1, ?_⟩
  rw [ek, optionValue_put hS0 G.vol.1 hTn hK] at z2
  have z3 : |y' - blackScholesPut S σ r c (n * (T / (N - 1))) K| ≤ putGridError σ r c (n * (T / (N - 1))) K S X (X / (J - 1)) (T / (N - 1)) δ := by
    simpa [putGridError] using z2
  have := abs_sub_le y y' (blackScholesPut S σ r c (n * (T / (N - 1))) K)
  linarith

/-- **C93.** The same for a European call. -/
theorem C93_call (ho : o.payoff = .vanilla .call (.num K)) (hrk : r * (T / (N - 1)) ≤ 1) (δ : ℝ) (hδ : 0 < δ) :
    ∃ s, construct (.crankNicolson thomas) (.num X) J o.T N (BlackScholes.pde o m) junk = .ok s ∧ ∃ T', (T' = T ∨ T' = T + T / (N - 1)) ∧ ∀ fuel, N < fuel → ∃ y : ℝ,
      (calculatePrice (.crankNicolson thomas) .linear (BlackScholes.pde o m) (FdmWorld.spot o m) fuel s).1 = .ok (.num y) ∧
      |y - blackScholesCall S σ r c T' K| ≤ lateCallGridErrorCN σ r c T' K S X (X / (J - 1)) (T / (N - 1)) δ + cnRounding K X J N := by
  obtain ⟨s, hs, n, hn, h⟩ := cn_call_rounding hd hσ hr hc ho hT hrk G junk
  obtain ⟨h1, h2, h3, h4⟩ := grid_h G.toGridSizes
  obtain ⟨k1, k2, k3⟩ := grid_k G.toGridSizes
  have hN := G.levels.1
  have hn0 : 0 < n := by omega
  have hnr : (0 : ℝ) < n := by exact_mod_cast hn0
  have hX : 0 < X := lt_of_lt_of_le (by norm_num) G.width.1
  have hK := G.strike.1
  have hr0 := G.rate.1
  have hS0 : 0 < S := by linarith [G.spot.1]
  have hTn : 0 < n * (T / ((N : ℝ) - 1)) := mul_pos hnr k1
  have ek : n * (T / ((N : ℝ) - 1)) / (((n + 1 : ℕ) : ℝ) - 1) = T / ((N : ℝ) - 1) := by
    push_cast
    rw [add_sub_cancel_right, mul_div_cancel_left₀ _ hnr.ne']
  obtain ⟨s', hs', hy'⟩ := cn_price (δ := δ) (A := 1) (B := -K) (BL := K) (BR := X * Real.exp (|c| * (n * (T / (N - 1)))) + 4 * K)
    (valuesPde_describes (callProblem σ r c K T)) call_coefficients hr0 hX hTn (N := n + 1)
    (call_dominates (K := K) (T := T) G.drift hr0 J h3.le) (by rw [ek]; exact G.step) hK.le hδ (fun x _ => by
      change max (x - K) 0 = _
      rcases le_total x K with hx | hx
      · rw [max_eq_right (by linarith), max_eq_left (by linarith)]; ring
      · rw [max_eq_left (by linarith), max_eq_right (by linarith)]; ring) .linear G.inner (G.nodes.2.trans (by norm_num)) (by omega) hK.le (by positivity)
    (fun t j _ h2 => by rw [ek]; exact weights_ok call_coefficients h3 (half_pos k1).le G.weights t j h2)
    (fun t ht => call_left_value (σ := σ) (c := c) hδ hK.le hr0 ht.1)
    (fun t ht => (call_right_value (σ := σ) (c := c) hδ hK.le hr0 ht.1 hX.le ht.2).trans (by linarith))
    (fun t _ t' ht' => by
      have := call_left_value (σ := σ) (c := c) hδ hK.le hr0 ht'.1
      change |0 - _| ≤ K
      rwa [zero_sub, abs_neg])
    (fun t ht t' ht' => by
      change |X - K * Real.exp (-r * (T - t)) - _| ≤ _
      have h0 := call_right_error (σ := σ) (c := c) hδ hK.le hr0 ht'.1 hX.le ht'.2 (t' := n * (T / (N - 1))) le_rfl
      rw [sub_self, mul_zero, Real.exp_zero, mul_one] at h0
      have hE : Real.exp (-r * (T - t)) ≤ 3 := by
        refine (Real.exp_le_exp.mpr (?_ : -r * (T - t) ≤ 1)).trans (Real.exp_one_lt_d9.le.trans (by norm_num))
        have h1 : t ≤ T + T / (N - 1) := by rcases end_time (T := T) hN hn with e | e <;> linarith [ht.2]
        have := mul_le_mul_of_nonneg_left h1 hr0
        linarith
      have h2 := mul_le_mul_of_nonneg_left hE hK.le
      have h3 := mul_pos hK (Real.exp_pos (-r * (T - t)))
      have h4 : |X - K * Real.exp (-r * (T - t)) - (X - K)| ≤ 2 * K := by
        rw [abs_le]
        constructor <;> linarith
      have h5 := abs_sub_le (X - K * Real.exp (-r * (T - t))) (X - K) (portfolio (rounded δ K) σ r c 1 (-K) t' X)
      linarith) (fun _ => 0) hS0 (by linarith [G.spot.2]) G.spot.1
  refine ⟨s, by rw [hT]; exact hs, n * (T / (N - 1)), end_time hN hn, fun fuel hf => ?_⟩
  obtain ⟨y, y', e1, e2, e3⟩ := h fuel hf _ (valuesPde_describes _) _ s' hs' (n + 1) le_rfl
  obtain ⟨z, z1, z2⟩ := hy' (n + 1) le_rfl
  obtain rfl : y' = z := Res.ok.inj (e2.symm.trans z1)
  refine ⟨y, by rw [show FdmWorld.spot o m = .ok (.num S) by rw [FdmWorld.spot, hd, Res.bind_ok, hS]; rfl]; exact e1, ?_⟩
  rw [ek] at z2
  have z3 : |y' - blackScholesCall S σ r c (n * (T / (N - 1))) K| ≤ lateCallGridErrorCN σ r c (n * (T / (N - 1))) K S X (X / (J - 1)) (T / (N - 1)) δ := by
    rw [← optionValue_call hS0 G.vol.1 hTn hK, optionValue_parity hTn.le]
    simpa [lateCallGridErrorCN, abs_of_pos hK, sub_eq_add_neg] using z2
  have := abs_sub_le y y' (blackScholesCall S σ r c (n * (T / (N - 1))) K)
  linarith

end

/-! ## A case -/

namespace FdmDoubleExample

theorem cnGrid : ModerateCN (1 / 4) (1 / 16) 0 100 100 1 500 101 501 := by
  refine ⟨?_, ?_, ?_⟩
  · constructor <;> norm_num
  · norm_num
  · norm_num

/-- The hypotheses are met by 101 nodes on `[0, 500]` and 501 time levels, for which the weights of explicit Euler would be negative; the rounding error is less than 0.0001. -/
example : (∃ s, construct (.crankNicolson thomas) (.num ((500 : ℝ) : EReal)) 101 (option .put).T 501 (BlackScholes.pde (option .put) market) (fun _ => lit 0) = .ok s ∧
    ∃ T' : ℝ, (T' = 1 ∨ T' = 1 + 1 / ((501 : ℕ) - 1)) ∧ ∀ fuel, 501 < fuel → ∃ y : ℝ,
      (calculatePrice (.crankNicolson thomas) .linear (BlackScholes.pde (option .put) market) (FdmWorld.spot (option .put) market) fuel s).1 = .ok (.num y) ∧
      |y - blackScholesPut 100 (1 / 4) (1 / 16) 0 T' 100| ≤
        putGridError (1 / 4) (1 / 16) 0 T' 100 100 500 (500 / ((101 : ℕ) - 1)) (1 / ((501 : ℕ) - 1)) 1 + cnRounding 100 500 101 501) ∧
    cnRounding 100 500 101 501 < 1 / 10000 :=
  ⟨C93_put (option .put) market _ (stock _) (1 / 4) (1 / 16) 0 100 100 1 500 101 501 rfl rfl Dbl.lit_zero rfl rfl cnGrid _ rfl 1 one_pos, by norm_num [cnRounding]⟩

example : ∃ s, construct (.crankNicolson thomas) (.num ((500 : ℝ) : EReal)) 101 (option .call).T 501 (BlackScholes.pde (option .call) market) (fun _ => lit 0) = .ok s ∧
    ∃ T' : ℝ, (T' = 1 ∨ T' = 1 + 1 / ((501 : ℕ) - 1)) ∧ ∀ fuel, 501 < fuel → ∃ y : ℝ,
      (calculatePrice (.crankNicolson thomas) .linear (BlackScholes.pde (option .call) market) (FdmWorld.spot (option .call) market) fuel s).1 = .ok (.num y) ∧
      |y - blackScholesCall 100 (1 / 4) (1 / 16) 0 T' 100| ≤
        lateCallGridErrorCN (1 / 4) (1 / 16) 0 T' 100 100 500 (500 / ((101 : ℕ) - 1)) (1 / ((501 : ℕ) - 1)) 1 + cnRounding 100 500 101 501 :=
  C93_call (option .call) market _ (stock _) (1 / 4) (1 / 16) 0 100 100 1 500 101 501 rfl rfl Dbl.lit_zero rfl rfl cnGrid _ rfl (by norm_num) 1 one_pos

/-- The hypotheses about the exact objects. -/
example : ∃ s, construct (.crankNicolson thomas) (.num ((500 : ℝ) : EReal)) 101 (option .put).T 501 (BlackScholes.pde (option .put) market) (fun _ => lit 0) = .ok s ∧
    ∃ n : ℕ, (n = 501 - 1 ∨ n = 501) ∧ ∃ s', construct (.crankNicolson thomas) 500 101 ((n : ℝ) * (1 / ((501 : ℕ) - 1))) (n + 1) (BlackScholes.pde (exactOption .put) exactMarket) (fun _ => (0 : ℝ)) = .ok s' ∧
      ∀ fuel fuel', 501 < fuel → n + 1 ≤ fuel' → ∃ y y' : ℝ,
        (calculatePrice (.crankNicolson thomas) .linear (BlackScholes.pde (option .put) market) (FdmWorld.spot (option .put) market) fuel s).1 = .ok (.num y) ∧
        (calculatePrice (.crankNicolson thomas) .linear (BlackScholes.pde (exactOption .put) exactMarket) (FdmWorld.spot (exactOption .put) exactMarket) fuel' s').1 = .ok y' ∧
        |y - y'| ≤ cnRounding 100 500 101 501 :=
  C93_roundingPut (option .put) market _ (stock _) (1 / 4) (1 / 16) 0 100 100 1 500 101 501 rfl rfl Dbl.lit_zero rfl rfl cnGrid _ rfl (exactOption .put) exactMarket
    ⟨100, 1 / 4, none⟩ rfl rfl rfl rfl rfl rfl _

example : ∃ s, construct (.crankNicolson thomas) (.num ((500 : ℝ) : EReal)) 101 (option .call).T 501 (BlackScholes.pde (option .call) market) (fun _ => lit 0) = .ok s ∧
    ∃ n : ℕ, (n = 501 - 1 ∨ n = 501) ∧ ∃ s', construct (.crankNicolson thomas) 500 101 ((n : ℝ) * (1 / ((501 : ℕ) - 1))) (n + 1) (BlackScholes.pde (exactOption .call) exactMarket) (fun _ => (0 : ℝ)) = .ok s' ∧
      ∀ fuel fuel', 501 < fuel → n + 1 ≤ fuel' → ∃ y y' : ℝ,
        (calculatePrice (.crankNicolson thomas) .linear (BlackScholes.pde (option .call) market) (FdmWorld.spot (option .call) market) fuel s).1 = .ok (.num y) ∧
        (calculatePrice (.crankNicolson thomas) .linear (BlackScholes.pde (exactOption .call) exactMarket) (FdmWorld.spot (exactOption .call) exactMarket) fuel' s').1 = .ok y' ∧
        |y - y'| ≤ cnRounding 100 500 101 501 :=
  C93_roundingCall (option .call) market _ (stock _) (1 / 4) (1 / 16) 0 100 100 1 500 101 501 rfl rfl Dbl.lit_zero rfl rfl cnGrid _ rfl (by norm_num) (exactOption .call) exactMarket
    ⟨100, 1 / 4, none⟩ rfl rfl rfl rfl rfl rfl rfl _

end FdmDoubleExample
end Verif
