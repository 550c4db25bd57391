import Verif.Props.MonteCarlo

/-!
# C21, C22, C24: lookback and Asian options, bounds on Monte Carlo prices
-/

namespace Verif
open Spec

/-! ## C22 -/

theorem asianPath_arith {F : Type} [Fl F] [Add F] [Sub F] [Mul F] [Div F] [Neg F] (pay : F → Res F) (S : List F)
    (hM : S.length ≤ INT_MAX) :
    MC.asianPath .arithmetic pay S.length S =
      pay (S.foldl (· + ·) (lit 0) / lit (S.length : ℚ)) := by
  unfold MC.asianPath
  rw [MC.scan_fold (by intros; rfl) S _ _ _ (by omega) hM]
  rfl

theorem asianPath_geom {F : Type} [Fl F] [Add F] [Sub F] [Mul F] [Div F] [Neg F] (pay : F → Res F) (S : List F)
    (hM : S.length ≤ INT_MAX) :
    MC.asianPath .geometric pay S.length S =
      pay (Fl.exp ((S.map Fl.log).foldl (· + ·) (lit 0) / lit (S.length : ℚ))) := by
  unfold MC.asianPath
  rw [MC.scan_fold (by intros; rfl) S _ _ _ (by omega) hM, List.foldl_map]
  rfl

theorem log_prod_pos {S : List ℝ} (h : ∀ x ∈ S, 0 < x) :
    0 < S.prod ∧ Real.log S.prod = (S.map Real.log).sum := by
  induction S with
  | nil => simp
  | cons x S ih =>
    obtain ⟨h1, h2⟩ := ih (fun y hy => h y (List.mem_cons_of_mem _ hy))
    have hx := h x (List.mem_cons_self ..)
    refine ⟨by simpa using mul_pos hx h1, ?_⟩
    simp only [List.prod_cons, List.map_cons, List.sum_cons]
    rw [Real.log_mul hx.ne' h1.ne', h2]

theorem geomMean_eq_exp {S : List ℝ} (h : ∀ x ∈ S, 0 < x) :
    geomMean S = Real.exp ((S.map Real.log).sum / S.length) := by
  obtain ⟨h1, h2⟩ := log_prod_pos h
  rw [geomMean, Real.rpow_def_of_pos h1, h2]
  congr 1; ring

/-- **C22.** The arithmetic Asian pricer returns the discounted mean of the payoffs of the arithmetic
means of the paths; there is no upper bound on the number of paths. -/
theorem C22_arithmetic {σ : Type} (src : PathSource σ ℝ) (getR : Eff σ ℝ) (pay : ℝ → Res ℝ)
    {T r : ℝ} {s s' : σ} {paths : List (List ℝ)} {vals : List ℝ}
    (hR : getR s = (.ok r, s)) (hD : Draws (src.simulatePrices T) s paths s')
    (hsteps : src.steps ≤ INT_MAX) (hlen : ∀ S ∈ paths, S.length = src.steps)
    (hv : List.Forall₂ (fun S v => pay (arithMean S) = .ok v) paths vals) :
    MC.asian .arithmetic src getR pay T paths.length s =
      (.ok (discountedMean r T vals), s') := by
  rw [MC.asian_eq, MC.longPricer_ok (vals := vals) hR hD,
    price_eq_discountedMean _ _ _ hv.length_eq.symm]
  clear hD
  induction hv with
  | nil => exact .nil
  | @cons S _ _ _ h _ ih =>
    refine .cons ?_ (ih (fun S hS => hlen S (List.mem_cons_of_mem _ hS)))
    have := hlen S (List.mem_cons_self ..)
    rw [← this, asianPath_arith _ _ (by omega), foldl_add_real]
    simpa [arithMean] using h

/-- **C22.** The geometric Asian pricer returns the discounted mean of the payoffs of the geometric
means of the paths, for positive prices. -/
theorem C22_geometric {σ : Type} (src : PathSource σ ℝ) (getR : Eff σ ℝ) (pay : ℝ → Res ℝ)
    {T r : ℝ} {s s' : σ} {paths : List (List ℝ)} {vals : List ℝ}
    (hR : getR s = (.ok r, s)) (hD : Draws (src.simulatePrices T) s paths s')
    (hsteps : src.steps ≤ INT_MAX) (hlen : ∀ S ∈ paths, S.length = src.steps)
    (hpos : ∀ S ∈ paths, ∀ x ∈ S, 0 < x)
    (hv : List.Forall₂ (fun S v => pay (geomMean S) = .ok v) paths vals) :
    MC.asian .geometric src getR pay T paths.length s =
      (.ok (discountedMean r T vals), s') := by
  rw [MC.asian_eq, MC.longPricer_ok (vals := vals) hR hD,
    price_eq_discountedMean _ _ _ hv.length_eq.symm]
  clear hD
  induction hv with
  | nil => exact .nil
  | @cons S _ _ _ h _ ih =>
    refine .cons ?_ (ih (fun S hS => hlen S (List.mem_cons_of_mem _ hS))
      (fun S hS => hpos S (List.mem_cons_of_mem _ hS)))
    have := hlen S (List.mem_cons_self ..)
    rw [← this, asianPath_geom _ _ (by omega), foldl_add_real]
    rw [geomMean_eq_exp (hpos S (List.mem_cons_self ..))] at h
    simpa [show (Fl.log : ℝ → ℝ) = Real.log from rfl] using h

example : MC.asian .arithmetic (replay 2) (Eff.lift (.ok (1 / 10 : ℝ)))
    (Payoff.vanilla .call (2 : ℝ)).eval1 3 2 [[1, 5], [1, 2]] =
      (.ok (discountedMean (1 / 10) 3 [1, 0]), []) :=
  C22_arithmetic (replay 2) _ _ rfl (replay_draws 2 3 [[1, 5], [1, 2]])
    (by simp [replay, INT_MAX]) (by simp [replay])
    (.cons (by simp [Payoff.eval1, arithMean]; norm_num)
      (.cons (by simp [Payoff.eval1, arithMean]; norm_num) .nil))

example : MC.asian .geometric (replay 2) (Eff.lift (.ok (1 / 10 : ℝ)))
    (Payoff.vanilla .call (1 : ℝ)).eval1 3 1 [[1, 4]] =
      (.ok (discountedMean (1 / 10) 3 [1]), []) :=
  C22_geometric (replay 2) _ _ rfl (replay_draws 2 3 [[1, 4]])
    (by simp [replay, INT_MAX]) (by simp [replay]) (by simp)
    (.cons (by
      have : geomMean [1, 4] = 2 := by
        have h4 : (4 : ℝ) = 2 ^ (2 : ℝ) := by norm_num
        rw [geomMean]
        simp only [List.prod_cons, List.prod_nil, List.length_cons, List.length_nil]
        rw [one_mul, mul_one, h4, ← Real.rpow_mul (by norm_num)]; norm_num
      rw [this]; simp [Payoff.eval1]; norm_num) .nil)

/-- **C22.** The geometric mean is at most the arithmetic mean. -/
theorem geomMean_le_arithMean {S : List ℝ} (hne : S ≠ []) (h : ∀ x ∈ S, 0 < x) :
    geomMean S ≤ arithMean S := by
  have hn : (0 : ℝ) < S.length := by exact_mod_cast List.length_pos_iff.mpr hne
  have hsum : 0 < S.sum := by
    cases S with
    | nil => exact absurd rfl hne
    | cons x S =>
      rw [List.sum_cons]
      have := h x (List.mem_cons_self ..)
      have : 0 ≤ S.sum := List.sum_nonneg (fun y hy => (h y (List.mem_cons_of_mem _ hy)).le)
      linarith [h x (List.mem_cons_self ..)]
  have hm : 0 < arithMean S := div_pos hsum hn
  have key : ∀ (l : List ℝ), (∀ x ∈ l, 0 < x) →
      (l.map Real.log).sum ≤ l.length * Real.log (arithMean S) + (l.sum / arithMean S - l.length) := by
    intro l hl
    induction l with
    | nil => simp
    | cons x l ih =>
      have hx := hl x (List.mem_cons_self ..)
      have h1 := ih (fun y hy => hl y (List.mem_cons_of_mem _ hy))
      have h2 := Real.log_le_sub_one_of_pos (div_pos hx hm)
      rw [Real.log_div hx.ne' hm.ne'] at h2
      simp only [List.map_cons, List.sum_cons, List.length_cons, Nat.cast_add, Nat.cast_one, add_div]
      linarith
  have h2 := key S h
  have h3 : S.sum / arithMean S = S.length := by
    rw [arithMean]; field_simp
  rw [h3, sub_self, add_zero] at h2
  rw [geomMean_eq_exp h, ← Real.exp_log hm]
  apply Real.exp_le_exp.mpr
  rw [div_le_iff₀ hn]; linarith

theorem discountedMean_mono {r T : ℝ} {v w : List ℝ} (h : List.Forall₂ (· ≤ ·) v w) :
    discountedMean r T v ≤ discountedMean r T w := by
  unfold discountedMean
  have hl : v.length = w.length := h.length_eq
  have hs : v.sum ≤ w.sum := h.sum_le_sum
  rw [hl]
  gcongr

/-- **C22.** On the same paths (same start state) with positive prices, the geometric Asian call is
worth at most the arithmetic Asian call, and the geometric put at least the arithmetic put, for
every strike. -/
theorem C22_ordering {σ : Type} (src : PathSource σ ℝ) (getR : Eff σ ℝ) (K : ℝ)
    {T r : ℝ} {s s' : σ} {paths : List (List ℝ)}
    (hR : getR s = (.ok r, s)) (hD : Draws (src.simulatePrices T) s paths s')
    (h1 : 1 ≤ src.steps) (hsteps : src.steps ≤ INT_MAX)
    (hlen : ∀ S ∈ paths, S.length = src.steps) (hpos : ∀ S ∈ paths, ∀ x ∈ S, 0 < x) :
    ∃ gc ac gp ap : ℝ,
      MC.asian .geometric src getR (Payoff.vanilla .call K).eval1 T paths.length s = (.ok gc, s') ∧
      MC.asian .arithmetic src getR (Payoff.vanilla .call K).eval1 T paths.length s = (.ok ac, s') ∧
      MC.asian .geometric src getR (Payoff.vanilla .put K).eval1 T paths.length s = (.ok gp, s') ∧
      MC.asian .arithmetic src getR (Payoff.vanilla .put K).eval1 T paths.length s = (.ok ap, s') ∧
      gc ≤ ac ∧ ap ≤ gp := by
  have hf : ∀ (f : List ℝ → ℝ) (m : List ℝ → ℝ) (ty : PayoffType),
      (∀ S, (Payoff.vanilla ty K).eval1 (m S) = .ok (f S)) →
      List.Forall₂ (fun S v => (Payoff.vanilla ty K).eval1 (m S) = .ok v) paths (paths.map f) := by
    intro f m ty h
    rw [List.forall₂_map_right_iff]
    exact List.forall₂_same.mpr (fun S _ => h S)
  refine ⟨_, _, _, _,
    C22_geometric src getR _ hR hD hsteps hlen hpos
      (hf (fun S => max (geomMean S - K) 0) geomMean .call (by intro S; simp [Payoff.eval1])),
    C22_arithmetic src getR _ hR hD hsteps hlen
      (hf (fun S => max (arithMean S - K) 0) arithMean .call (by intro S; simp [Payoff.eval1])),
    C22_geometric src getR _ hR hD hsteps hlen hpos
      (hf (fun S => max (K - geomMean S) 0) geomMean .put (by intro S; simp [Payoff.eval1])),
    C22_arithmetic src getR _ hR hD hsteps hlen
      (hf (fun S => max (K - arithMean S) 0) arithMean .put (by intro S; simp [Payoff.eval1])),
    ?_, ?_⟩ <;>
  · apply discountedMean_mono
    rw [List.forall₂_map_left_iff, List.forall₂_map_right_iff]
    refine List.forall₂_same.mpr (fun S hS => ?_)
    have hne : S ≠ [] := by
      intro h0; have := hlen S hS; rw [h0] at this; simp at this; omega
    have := geomMean_le_arithMean hne (hpos S hS)
    apply max_le_max _ le_rfl
    linarith

example : ∃ gc ac gp ap : ℝ,
    MC.asian .geometric (replay 2) (Eff.lift (.ok (1 / 10 : ℝ)))
      (Payoff.vanilla .call (2 : ℝ)).eval1 3 2 [[1, 5], [1, 2]] = (.ok gc, []) ∧
    MC.asian .arithmetic (replay 2) (Eff.lift (.ok (1 / 10 : ℝ)))
      (Payoff.vanilla .call (2 : ℝ)).eval1 3 2 [[1, 5], [1, 2]] = (.ok ac, []) ∧
    MC.asian .geometric (replay 2) (Eff.lift (.ok (1 / 10 : ℝ)))
      (Payoff.vanilla .put (2 : ℝ)).eval1 3 2 [[1, 5], [1, 2]] = (.ok gp, []) ∧
    MC.asian .arithmetic (replay 2) (Eff.lift (.ok (1 / 10 : ℝ)))
      (Payoff.vanilla .put (2 : ℝ)).eval1 3 2 [[1, 5], [1, 2]] = (.ok ap, []) ∧
    gc ≤ ac ∧ ap ≤ gp :=
  C22_ordering (replay 2) _ 2 rfl (replay_draws 2 3 [[1, 5], [1, 2]]) (by simp [replay])
    (by simp [replay, INT_MAX]) (by simp [replay]) (by simp)

/-- **C22.** The averages lie between the smallest and the largest price of the path. -/
theorem C22_meansBetween {S : List ℝ} {m M : ℝ} (hm : IsMin S m) (hM : IsMax S M)
    (hpos : ∀ x ∈ S, 0 < x) :
    m ≤ geomMean S ∧ geomMean S ≤ arithMean S ∧ arithMean S ≤ M ∧ 0 < m := by
  have hne : S ≠ [] := List.ne_nil_of_mem hm.1
  have hn : (0 : ℝ) < S.length := by exact_mod_cast List.length_pos_iff.mpr hne
  have hm0 := hpos m hm.1
  refine ⟨?_, geomMean_le_arithMean hne hpos, ?_, hm0⟩
  · rw [geomMean_eq_exp hpos, ← Real.exp_log hm0]
    apply Real.exp_le_exp.mpr
    rw [le_div_iff₀ hn, mul_comm]
    have := List.card_nsmul_le_sum (S.map Real.log) (Real.log m) (by
      intro y hy
      obtain ⟨x, hx, rfl⟩ := List.mem_map.mp hy
      exact Real.log_le_log hm0 (hm.2 x hx))
    simpa using this
  · rw [arithMean, div_le_iff₀ hn, mul_comm]
    have := List.sum_le_card_nsmul S M hM.2
    simpa using this

example : (1 : ℝ) ≤ geomMean [1, 5, 2] ∧ geomMean [1, 5, 2] ≤ arithMean [1, 5, 2] ∧
    arithMean [1, 5, 2] ≤ 5 ∧ (0 : ℝ) < 1 :=
  C22_meansBetween (m := 1) (M := 5)
    ⟨by simp, by intro x hx; simp at hx; rcases hx with rfl | rfl | rfl <;> norm_num⟩
    ⟨by simp, by intro x hx; simp at hx; rcases hx with rfl | rfl | rfl <;> norm_num⟩ (by simp)

/-! ## C24 -/

section
variable {σ : Type} (src : PathSource σ ℝ) (getR : Eff σ ℝ) {T r : ℝ} {s s' : σ} {prices : List ℝ}

theorem singlePath_call (K : ℝ) (hR : getR s = (.ok r, s))
    (hD : Draws (src.simulatePriceAtMaturity T) s prices s') (hN : prices.length ≤ INT_MAX) :
    MC.singlePath src getR (Payoff.vanilla .call K).eval1 T prices.length s =
      (.ok (discountedMean r T (prices.map fun x => max (x - K) 0)), s') := by
  refine C23_singlePath_mean src getR _ hR hD hN ?_
  unfold Pays
  rw [List.forall₂_map_right_iff]
  exact List.forall₂_same.mpr (fun x _ => by simp [Payoff.eval1])

theorem singlePath_put (K : ℝ) (hR : getR s = (.ok r, s))
    (hD : Draws (src.simulatePriceAtMaturity T) s prices s') (hN : prices.length ≤ INT_MAX) :
    MC.singlePath src getR (Payoff.vanilla .put K).eval1 T prices.length s =
      (.ok (discountedMean r T (prices.map fun x => max (K - x) 0)), s') := by
  refine C23_singlePath_mean src getR _ hR hD hN ?_
  unfold Pays
  rw [List.forall₂_map_right_iff]
  exact List.forall₂_same.mpr (fun x _ => by simp [Payoff.eval1])

/-- **C24.** Put-call parity on the simulated prices: from the same state, the call price minus the
put price is `exp(-r T) (mean S_T - K)`, for every strike, rate, maturity and `N ≥ 1`. -/
theorem C24_putCallParity (K : ℝ) (hR : getR s = (.ok r, s))
    (hD : Draws (src.simulatePriceAtMaturity T) s prices s') (h1 : 1 ≤ prices.length)
    (hN : prices.length ≤ INT_MAX) :
    ∃ c p : ℝ,
      MC.singlePath src getR (Payoff.vanilla .call K).eval1 T prices.length s = (.ok c, s') ∧
      MC.singlePath src getR (Payoff.vanilla .put K).eval1 T prices.length s = (.ok p, s') ∧
      c - p = Real.exp (-(r * T)) * (prices.sum / prices.length - K) := by
  refine ⟨_, _, singlePath_call src getR K hR hD hN, singlePath_put src getR K hR hD hN, ?_⟩
  have key : ∀ l : List ℝ, (l.map fun x => max (x - K) 0).sum - (l.map fun x => max (K - x) 0).sum =
      l.sum - l.length * K := by
    intro l
    induction l with
    | nil => simp
    | cons x l ih =>
      simp only [List.map_cons, List.sum_cons, List.length_cons, Nat.cast_add, Nat.cast_one]
      have : max (x - K) 0 - max (K - x) 0 = x - K := by
        rcases le_total x K with h | h
        · rw [max_eq_right (by linarith), max_eq_left (by linarith)]; ring
        · rw [max_eq_left (by linarith), max_eq_right (by linarith)]; ring
      linarith
  have hn : (prices.length : ℝ) ≠ 0 := by
    have : 0 < prices.length := h1
    exact_mod_cast this.ne'
  have := key prices
  simp only [discountedMean, List.length_map]
  rw [← mul_sub, ← sub_div, this, sub_div]
  congr 2
  field_simp

/-- **C24.** With non-negative simulated prices and strike, the put price lies between 0 and
`K exp(-r T)` and the call price between 0 and `exp(-r T)` times the mean price. -/
theorem C24_bounds (K : ℝ) (hK : 0 ≤ K) (hR : getR s = (.ok r, s))
    (hD : Draws (src.simulatePriceAtMaturity T) s prices s') (h1 : 1 ≤ prices.length)
    (hN : prices.length ≤ INT_MAX) (hpos : ∀ x ∈ prices, 0 ≤ x) :
    ∃ c p : ℝ,
      MC.singlePath src getR (Payoff.vanilla .call K).eval1 T prices.length s = (.ok c, s') ∧
      MC.singlePath src getR (Payoff.vanilla .put K).eval1 T prices.length s = (.ok p, s') ∧
      0 ≤ p ∧ p ≤ K * Real.exp (-(r * T)) ∧ 0 ≤ c ∧
      c ≤ Real.exp (-(r * T)) * (prices.sum / prices.length) := by
  refine ⟨_, _, singlePath_call src getR K hR hD hN, singlePath_put src getR K hR hD hN, ?_⟩
  have hn : (0 : ℝ) < prices.length := by exact_mod_cast h1
  have he := Real.exp_pos (-(r * T))
  simp only [discountedMean, List.length_map]
  refine ⟨?_, ?_, ?_, ?_⟩
  · refine mul_nonneg he.le (div_nonneg (List.sum_nonneg ?_) hn.le)
    intro y hy
    obtain ⟨x, _, rfl⟩ := List.mem_map.mp hy
    exact le_max_right _ _
  · rw [mul_comm K]
    refine mul_le_mul_of_nonneg_left ?_ he.le
    rw [div_le_iff₀ hn, mul_comm]
    have := List.sum_le_card_nsmul (prices.map fun x => max (K - x) 0) K (by
      intro y hy
      obtain ⟨x, hx, rfl⟩ := List.mem_map.mp hy
      exact max_le (by linarith [hpos x hx]) hK)
    simpa using this
  · refine mul_nonneg he.le (div_nonneg (List.sum_nonneg ?_) hn.le)
    intro y hy
    obtain ⟨x, _, rfl⟩ := List.mem_map.mp hy
    exact le_max_right _ _
  · refine mul_le_mul_of_nonneg_left ?_ he.le
    rw [div_le_div_iff_of_pos_right hn]
    clear hD h1 hN hn
    induction prices with
    | nil => simp
    | cons x l ih =>
      simp only [List.map_cons, List.sum_cons]
      have h2 := hpos x (List.mem_cons_self ..)
      have h3 := ih (fun y hy => hpos y (List.mem_cons_of_mem _ hy))
      have h4 : max (x - K) 0 ≤ x := max_le (by linarith) h2
      linarith

/-- **C24.** On the same paths call prices are non-increasing and put prices non-decreasing in the
strike. -/
theorem C24_monotoneInStrike {K₁ K₂ : ℝ} (hK : K₁ ≤ K₂) (hR : getR s = (.ok r, s))
    (hD : Draws (src.simulatePriceAtMaturity T) s prices s') (hN : prices.length ≤ INT_MAX) :
    ∃ c₁ c₂ p₁ p₂ : ℝ,
      MC.singlePath src getR (Payoff.vanilla .call K₁).eval1 T prices.length s = (.ok c₁, s') ∧
      MC.singlePath src getR (Payoff.vanilla .call K₂).eval1 T prices.length s = (.ok c₂, s') ∧
      MC.singlePath src getR (Payoff.vanilla .put K₁).eval1 T prices.length s = (.ok p₁, s') ∧
      MC.singlePath src getR (Payoff.vanilla .put K₂).eval1 T prices.length s = (.ok p₂, s') ∧
      c₂ ≤ c₁ ∧ p₁ ≤ p₂ := by
  refine ⟨_, _, _, _, singlePath_call src getR K₁ hR hD hN, singlePath_call src getR K₂ hR hD hN,
    singlePath_put src getR K₁ hR hD hN, singlePath_put src getR K₂ hR hD hN, ?_, ?_⟩ <;>
  · apply discountedMean_mono
    rw [List.forall₂_map_left_iff, List.forall₂_map_right_iff]
    refine List.forall₂_same.mpr (fun x _ => ?_)
    apply max_le_max _ le_rfl
    linarith

end

example : ∃ c p : ℝ,
    MC.singlePath (replay 1) (Eff.lift (.ok (1 / 10 : ℝ))) (Payoff.vanilla .call (2 : ℝ)).eval1
      3 2 [[4], [1]] = (.ok c, []) ∧
    MC.singlePath (replay 1) (Eff.lift (.ok (1 / 10 : ℝ))) (Payoff.vanilla .put (2 : ℝ)).eval1
      3 2 [[4], [1]] = (.ok p, []) ∧
    c - p = Real.exp (-(1 / 10 * 3)) * (([4, 1] : List ℝ).sum / ([4, 1] : List ℝ).length - 2) :=
  C24_putCallParity (replay 1) _ 2 rfl (prices := [4, 1])
    (.cons rfl (.cons rfl (.nil _))) (by simp) (by simp [INT_MAX])

example : ∃ c p : ℝ,
    MC.singlePath (replay 1) (Eff.lift (.ok (1 / 10 : ℝ))) (Payoff.vanilla .call (2 : ℝ)).eval1
      3 2 [[4], [1]] = (.ok c, []) ∧
    MC.singlePath (replay 1) (Eff.lift (.ok (1 / 10 : ℝ))) (Payoff.vanilla .put (2 : ℝ)).eval1
      3 2 [[4], [1]] = (.ok p, []) ∧
    0 ≤ p ∧ p ≤ 2 * Real.exp (-(1 / 10 * 3)) ∧ 0 ≤ c ∧
      c ≤ Real.exp (-(1 / 10 * 3)) * (([4, 1] : List ℝ).sum / ([4, 1] : List ℝ).length) :=
  C24_bounds (replay 1) _ 2 (by norm_num) rfl (prices := [4, 1])
    (.cons rfl (.cons rfl (.nil _))) (by simp) (by simp [INT_MAX])
    (by intro x hx; simp at hx; rcases hx with rfl | rfl <;> norm_num)

example : ∃ c₁ c₂ p₁ p₂ : ℝ,
    MC.singlePath (replay 1) (Eff.lift (.ok (1 / 10 : ℝ))) (Payoff.vanilla .call (2 : ℝ)).eval1
      3 1 [[4]] = (.ok c₁, []) ∧
    MC.singlePath (replay 1) (Eff.lift (.ok (1 / 10 : ℝ))) (Payoff.vanilla .call (3 : ℝ)).eval1
      3 1 [[4]] = (.ok c₂, []) ∧
    MC.singlePath (replay 1) (Eff.lift (.ok (1 / 10 : ℝ))) (Payoff.vanilla .put (2 : ℝ)).eval1
      3 1 [[4]] = (.ok p₁, []) ∧
    MC.singlePath (replay 1) (Eff.lift (.ok (1 / 10 : ℝ))) (Payoff.vanilla .put (3 : ℝ)).eval1
      3 1 [[4]] = (.ok p₂, []) ∧ c₂ ≤ c₁ ∧ p₁ ≤ p₂ :=
  C24_monotoneInStrike (replay 1) _ (K₁ := 2) (K₂ := 3) (by norm_num) rfl (prices := [4])
    (.cons rfl (.nil _)) (by simp [INT_MAX])

/-! ### Never negative, in rounded arithmetic -/

namespace Dbl
variable {R : Rounding}

/-- Not a negative number: NaN or at least 0. -/
def NotNeg (x : Dbl R) : Prop := x = nan ∨ Nonneg x

theorem notNeg_iff (x : Dbl R) : NotNeg x ↔ Fl.lt x (lit 0) = false := by
  cases x with
  | nan => simp [NotNeg]
  | num e => simp [NotNeg]

theorem notNeg_add {x y : Dbl R} (hx : NotNeg x) (hy : NotNeg y) : NotNeg (x + y) := by
  rcases hx with rfl | hx
  · left; simp
  · rcases hy with rfl | hy
    · left; simp
    · exact .inr (nonneg_add hx hy)

theorem notNeg_mul {x y : Dbl R} (hx : NotNeg x) (hy : NotNeg y) : NotNeg (x * y) := by
  rcases hx with rfl | hx
  · left; simp
  · rcases hy with rfl | hy
    · left; simp
    · cases x with
      | nan => exact hx.elim
      | num a =>
        cases y with
        | nan => exact hy.elim
        | num b =>
          rw [mul_num]
          split
          · exact .inl rfl
          · exact .inr (R.rndE_nonneg (mul_nonneg hx hy))

theorem notNeg_div {x y : Dbl R} (hx : NotNeg x) (hy : NotNeg y) : NotNeg (x / y) := by
  rcases hx with rfl | hx
  · left; simp
  · rcases hy with rfl | hy
    · left; simp
    · cases x with
      | nan => exact hx.elim
      | num a =>
        cases y with
        | nan => exact hy.elim
        | num b =>
          rw [div_num]
          split
          · split
            · exact .inl rfl
            · split
              · exact .inr le_top
              · rename_i h1 h2
                exact absurd (lt_of_le_of_ne hx (Ne.symm h1)) h2
          · split
            · exact .inl rfl
            · exact .inr (R.rndE_nonneg (EReal.div_nonneg hx hy))

theorem notNeg_exp (x : Dbl R) : NotNeg (Fl.exp x) := by
  by_cases h : x = nan
  · left; simp [h]
  · exact .inr (nonneg_exp h)

theorem notNeg_lit {q : ℚ} (h : 0 ≤ q) : NotNeg (lit q : Dbl R) := by
  right
  rw [lit_def, nonneg_num]
  have : R.rnd 0 ≤ R.rnd (q : ℝ) := R.mono (by exact_mod_cast h)
  rwa [R.zero] at this

theorem notNeg_max_zero (x : Dbl R) : NotNeg (Fl.max x (lit 0)) := by
  cases x with
  | nan => left; simp
  | num e => right; simp [Fl.max]; split <;> simp_all

end Dbl

theorem eval1_notNeg {R : Rounding} (p : Payoff (Dbl R)) (x v : Dbl R) (h : p.eval1 x = .ok v) :
    Dbl.NotNeg v := by
  cases p with
  | vanilla ty K =>
    simp only [Payoff.eval1] at h
    split at h <;> cases h <;> exact Dbl.notNeg_max_zero _
  | digital ty K =>
    simp only [Payoff.eval1] at h
    split at h <;> cases h <;> split <;> exact Dbl.notNeg_lit (by norm_num)
  | doubleDigital KL KU =>
    simp only [Payoff.eval1] at h
    cases h; split <;> exact Dbl.notNeg_lit (by norm_num)
  | floatingLookback ty => simp [Payoff.eval1] at h

theorem eval2_notNeg {R : Rounding} (p : Payoff (Dbl R)) (x y v : Dbl R)
    (h : p.eval2 x y = .ok v) : Dbl.NotNeg v := by
  cases p with
  | floatingLookback ty =>
    simp only [Payoff.eval2] at h
    split at h <;> cases h <;> exact Dbl.notNeg_max_zero _
  | _ => simp [Payoff.eval2] at h

theorem forN_invariant {σ α : Type} {P : α → Prop} {body : α → Eff σ α}
    (hb : ∀ a s a' s', P a → body a s = (.ok a', s') → P a') :
    ∀ (k : Nat) (a : α) (s : σ) (a' : α) (s' : σ), P a → Eff.forN body k a s = (.ok a', s') →
      P a' := by
  intro k
  induction k with
  | zero => intro a s a' s' ha h; cases h; exact ha
  | succ k ih =>
    intro a s a' s' ha h
    rcases hba : body a s with ⟨r, s₁⟩
    cases r with
    | ok a₁ =>
      rw [Eff.forN_succ_ok hba] at h
      exact ih _ _ _ _ (hb _ _ _ _ ha hba) h
    | throw e => rw [Eff.forN_succ_throw hba] at h; cases h
    | ub => rw [Eff.forN_succ_ub hba] at h; cases h

theorem bind_ok_inv {σ α β : Type} {x : Eff σ α} {f : α → Eff σ β} {s s' : σ} {b : β}
    (h : (x >>= f) s = (.ok b, s')) : ∃ a s₁, x s = (.ok a, s₁) ∧ f a s₁ = (.ok b, s') := by
  rcases hx : x s with ⟨r, s₁⟩
  cases r with
  | ok a => rw [Eff.bind_of_ok hx] at h; exact ⟨a, s₁, rfl, h⟩
  | throw e => rw [Eff.bind_of_throw hx] at h; cases h
  | ub => rw [Eff.bind_of_ub hx] at h; cases h

theorem payBody_notNeg {R : Rounding} {σ α : Type} {sim : Eff σ α} {pp : α → Res (Dbl R)}
    (hpp : ∀ a v, pp a = .ok v → Dbl.NotNeg v) (acc : Dbl R) (s : σ) (x : Dbl R) (s' : σ)
    (ha : Dbl.NotNeg acc) (h : MC.payBody sim pp acc s = (.ok x, s')) : Dbl.NotNeg x := by
  unfold MC.payBody at h
  obtain ⟨a, s₁, _, h⟩ := bind_ok_inv h
  obtain ⟨v, s₂, hv, h⟩ := bind_ok_inv h
  cases h
  refine Dbl.notNeg_add ha (hpp a v ?_)
  have := congrArg Prod.fst hv
  simpa using this

theorem longPricer_notNeg {R : Rounding} {σ α : Type} {sim : Eff σ α} {getR : Eff σ (Dbl R)}
    {pp : α → Res (Dbl R)} (hpp : ∀ a v, pp a = .ok v → Dbl.NotNeg v) {T : Dbl R} {N : Nat} {s s' : σ}
    {x : Dbl R} (h : MC.longPricer sim getR pp T N s = (.ok x, s')) : Dbl.NotNeg x := by
  unfold MC.longPricer at h
  obtain ⟨r, s₁, _, h⟩ := bind_ok_inv h
  obtain ⟨sum, s₂, hs, h⟩ := bind_ok_inv h
  cases h
  have := forN_invariant (P := Dbl.NotNeg) (fun a s a' s' ha hb => payBody_notNeg hpp a s a' s' ha hb)
    _ _ _ _ _ (Dbl.notNeg_lit (le_refl 0)) hs
  exact Dbl.notNeg_mul (Dbl.notNeg_div this (Dbl.notNeg_lit (by positivity))) (Dbl.notNeg_exp _)

theorem intPricer_notNeg {R : Rounding} {σ α : Type} {sim : Eff σ α} {getR : Eff σ (Dbl R)}
    {pp : α → Res (Dbl R)} (hpp : ∀ a v, pp a = .ok v → Dbl.NotNeg v) {T : Dbl R} {N : Nat} {s s' : σ}
    {x : Dbl R} (h : MC.intPricer sim getR pp T N s = (.ok x, s')) : Dbl.NotNeg x := by
  by_cases hN : N ≤ INT_MAX
  · rw [MC.intPricer_eq_long hN] at h; exact longPricer_notNeg hpp h
  · exfalso
    unfold MC.intPricer at h
    obtain ⟨r, s₁, _, h⟩ := bind_ok_inv h
    obtain ⟨sum, s₂, hs, h⟩ := bind_ok_inv h
    unfold Eff.forInt at hs
    obtain ⟨a, s₃, _, hs⟩ := bind_ok_inv hs
    rw [if_neg hN] at hs
    cases hs

/-- **C24.** In rounded arithmetic, with NaN and infinities and whatever the source of prices, the
rate and the maturity, no pricer ever returns a negative number: a returned price `x` never satisfies
`x < 0`. -/
theorem C24_neverNegative {R : Rounding} {σ : Type} (src : PathSource σ (Dbl R))
    (getR : Eff σ (Dbl R)) (p : Payoff (Dbl R)) (ka : MC.AsianKind) (kb : MC.KnockKind)
    (kl : MC.LookbackKind) (isActive : Dbl R → Bool) {T x : Dbl R} {N : Nat} {s s' : σ}
    (h : MC.singlePath src getR p.eval1 T N s = (.ok x, s') ∨
      MC.asian ka src getR p.eval1 T N s = (.ok x, s') ∨
      MC.barrier kb src getR isActive p.eval1 T N s = (.ok x, s') ∨
      MC.lookback kl src getR p T N s = (.ok x, s')) :
    Fl.lt x (lit 0) = false := by
  rw [← Dbl.notNeg_iff]
  rcases h with h | h | h | h
  · rw [MC.singlePath_eq] at h
    exact intPricer_notNeg (fun a v hv => eval1_notNeg p a v hv) h
  · rw [MC.asian_eq] at h
    refine longPricer_notNeg (fun a v hv => ?_) h
    unfold MC.asianPath at hv
    obtain ⟨y, _, hv⟩ := Res.bind_eq_ok.mp hv
    exact eval1_notNeg p _ v hv
  · rw [MC.barrier_eq] at h
    refine intPricer_notNeg (fun a v hv => ?_) h
    unfold MC.barrierPath at hv
    obtain ⟨y, _, hv⟩ := Res.bind_eq_ok.mp hv
    obtain ⟨z, _, hv⟩ := Res.bind_eq_ok.mp hv
    cases kb <;> simp only [MC.KnockKind.payoff] at hv <;> split at hv
    · exact eval1_notNeg p _ v hv
    · cases hv; exact Dbl.notNeg_lit (le_refl 0)
    · cases hv; exact Dbl.notNeg_lit (le_refl 0)
    · exact eval1_notNeg p _ v hv
  · rw [MC.lookback_eq] at h
    refine intPricer_notNeg (fun a v hv => ?_) h
    unfold MC.lookbackPath at hv
    obtain ⟨y, _, hv⟩ := Res.bind_eq_ok.mp hv
    obtain ⟨z, _, hv⟩ := Res.bind_eq_ok.mp hv
    cases kl <;> simp only [MC.LookbackKind.payoff] at hv <;> split at hv
    · exact eval2_notNeg p _ _ v hv
    · exact eval2_notNeg p _ _ v hv
    · exact eval1_notNeg p _ v hv
    · exact eval1_notNeg p _ v hv

/-- A price that is returned: one path with a finite price in exact arithmetic. -/
example : ∃ x, MC.singlePath (replay 1) (Eff.lift (.ok (.num 0 : Dbl .exact)))
    (Payoff.vanilla .put (.num 3)).eval1 (.num 1) 1 [[.num 1]] = (.ok x, []) ∧
    Fl.lt x (lit 0) = false := by
  have h := C23_singlePath (replay 1) (Eff.lift (.ok (.num 0 : Dbl .exact)))
    (Payoff.vanilla .put (.num 3)).eval1 (T := .num 1) rfl (prices := [.num 1])
    (s := [[.num 1]]) (.cons rfl (.nil _)) (by simp [INT_MAX]) (.cons rfl .nil)
  exact ⟨_, h, C24_neverNegative (replay 1) _ _ .arithmetic .knockIn .fixed (fun _ => true)
    (.inl h)⟩

/-! ## C21 -/

section
variable {R : Rounding}

theorem foldl_min_ofReal (xs : List ℝ) : ∀ a : EReal,
    ∃ e : EReal, (xs.map (Dbl.ofReal R)).foldl (fun a x => Fl.min a x) (.num a) = .num e ∧
      e ≤ a ∧ (∀ x ∈ xs, e ≤ x) ∧ (e = a ∨ ∃ x ∈ xs, e = (x : EReal)) := by
  induction xs with
  | nil => intro a; exact ⟨a, rfl, le_rfl, by simp, .inl rfl⟩
  | cons y ys ih =>
    intro a
    obtain ⟨e, h1, h2, h3, h4⟩ := ih (min a (y : EReal))
    refine ⟨e, ?_, h2.trans (min_le_left _ _), ?_, ?_⟩
    · rw [List.map_cons, List.foldl_cons]
      simpa [Dbl.ofReal] using h1
    · intro x hx
      rcases List.mem_cons.mp hx with rfl | hx
      · exact h2.trans (min_le_right _ _)
      · exact h3 x hx
    · rcases h4 with h4 | ⟨x, hx, h4⟩
      · rcases min_choice a (y : EReal) with h | h
        · exact .inl (h4.trans h)
        · exact .inr ⟨y, List.mem_cons_self .., h4.trans h⟩
      · exact .inr ⟨x, List.mem_cons_of_mem _ hx, h4⟩

theorem foldl_max_ofReal (xs : List ℝ) : ∀ a : EReal,
    ∃ e : EReal, (xs.map (Dbl.ofReal R)).foldl (fun a x => Fl.max a x) (.num a) = .num e ∧
      a ≤ e ∧ (∀ x ∈ xs, (x : EReal) ≤ e) ∧ (e = a ∨ ∃ x ∈ xs, e = (x : EReal)) := by
  induction xs with
  | nil => intro a; exact ⟨a, rfl, le_rfl, by simp, .inl rfl⟩
  | cons y ys ih =>
    intro a
    obtain ⟨e, h1, h2, h3, h4⟩ := ih (max a (y : EReal))
    refine ⟨e, ?_, (le_max_left _ _).trans h2, ?_, ?_⟩
    · rw [List.map_cons, List.foldl_cons]
      simpa [Dbl.ofReal] using h1
    · intro x hx
      rcases List.mem_cons.mp hx with rfl | hx
      · exact (le_max_right _ _).trans h2
      · exact h3 x hx
    · rcases h4 with h4 | ⟨x, hx, h4⟩
      · rcases max_choice a (y : EReal) with h | h
        · exact .inl (h4.trans h)
        · exact .inr ⟨y, List.mem_cons_self .., h4.trans h⟩
      · exact .inr ⟨x, List.mem_cons_of_mem _ hx, h4⟩

theorem foldl_min_eq {xs : List ℝ} {m : ℝ} (hm : IsMin xs m) :
    (xs.map (Dbl.ofReal R)).foldl (fun a x => Fl.min a x) (.num ⊤) = Dbl.ofReal R m := by
  obtain ⟨e, h1, -, h3, h4⟩ := foldl_min_ofReal (R := R) xs ⊤
  rw [h1, Dbl.ofReal]
  congr 1
  rcases h4 with rfl | ⟨x, hx, rfl⟩
  · have := h3 m hm.1; simp at this
  · exact le_antisymm (h3 m hm.1) (EReal.coe_le_coe_iff.mpr (hm.2 x hx))

theorem foldl_max_eq {xs : List ℝ} {M : ℝ} (hM : IsMax xs M) :
    (xs.map (Dbl.ofReal R)).foldl (fun a x => Fl.max a x) (.num ⊥) = Dbl.ofReal R M := by
  obtain ⟨e, h1, -, h3, h4⟩ := foldl_max_ofReal (R := R) xs ⊥
  rw [h1, Dbl.ofReal]
  congr 1
  rcases h4 with rfl | ⟨x, hx, rfl⟩
  · have := h3 M hM.1; simp at this
  · exact le_antisymm (EReal.coe_le_coe_iff.mpr (hM.2 x hx)) (h3 M hM.1)

theorem foldl_pair {α β γ : Type} (f : α → γ → α) (g : β → γ → β) (l : List γ) :
    ∀ (a : α) (b : β), l.foldl (fun (p : α × β) x => (f p.1 x, g p.2 x)) (a, b) =
      (l.foldl f a, l.foldl g b) := by
  induction l with
  | nil => intro a b; rfl
  | cons x l ih => intro a b; exact ih _ _

theorem lookback_scan {xs : List ℝ} {m M : ℝ} (hm : IsMin xs m) (hM : IsMax xs M)
    (hI : xs.length ≤ INT_MAX) :
    MC.scan (fun (a : Dbl R × Dbl R) x => ((Fl.min a.1 x, Fl.max a.2 x), false))
      (xs.map (Dbl.ofReal R)) xs.length 0 ((FlInf.inf, -FlInf.inf) : Dbl R × Dbl R) =
        .ok (Dbl.ofReal R m, Dbl.ofReal R M) := by
  rw [MC.scan_fold (by intros; rfl) _ _ _ _ (by simp) (by simpa using hI), List.drop_zero]
  have h := foldl_pair (fun a x => Fl.min a x) (fun a x => Fl.max a x) (xs.map (Dbl.ofReal R))
    (.num ⊤) (.num ⊥)
  have h0 : ((FlInf.inf, -FlInf.inf) : Dbl R × Dbl R) = (.num ⊤, .num ⊥) := by
    show (Dbl.num ⊤, -Dbl.num ⊤) = _
    simp
  rw [h0]
  dsimp only at h ⊢
  rw [h, foldl_min_eq hm, foldl_max_eq hM]

theorem Dbl.sub_ofReal_nonneg {a b : ℝ} (h : b ≤ a) :
    Dbl.Nonneg (Dbl.ofReal R a - Dbl.ofReal R b) := by
  show Dbl.Nonneg (Dbl.num (a : EReal) + Dbl.num (-(b : EReal)))
  rw [← EReal.coe_neg, Dbl.add_num, if_neg (by simp)]
  apply R.rndE_nonneg
  rw [← EReal.coe_add]
  exact EReal.coe_nonneg.mpr (by linarith)

theorem Dbl.max_zero_of_nonneg {x : Dbl R} (h : Dbl.Nonneg x) : Fl.max x (lit 0) = x := by
  cases x with
  | nan => exact h.elim
  | num e => simp only [Dbl.lit_zero, Dbl.max_num]; rw [max_eq_left h]

theorem vget_last_map {xs : List ℝ} (h : xs ≠ []) :
    vget (xs.map (Dbl.ofReal R)) (upred xs.length) = .ok (Dbl.ofReal R (xs.getLast h)) := by
  have := MC.vget_last (S := xs.map (Dbl.ofReal R)) (by simpa using h)
  rw [List.length_map] at this
  rw [this, List.getLast_map]

/-- **C21.** The fixed-strike lookback pricer returns the discounted mean of
`max(max_t S_t - K, 0)` (call) resp. `max(K - min_t S_t, 0)` (put), the extremes being taken over all
prices of each path, for all finite paths, in rounded arithmetic. -/
theorem C21_fixedStrike {σ : Type} (src : PathSource σ (Dbl R)) (getR : Eff σ (Dbl R))
    (ty : PayoffType) (K : Dbl R) {T r : Dbl R} {s s' : σ} {paths : List (List ℝ)}
    {vals : List (Dbl R)} (hR : getR s = (.ok r, s))
    (hD : Draws (src.simulatePrices T) s (paths.map (·.map (Dbl.ofReal R))) s')
    (hN : paths.length ≤ INT_MAX) (hsteps : src.steps ≤ INT_MAX)
    (hlen : ∀ S ∈ paths, S.length = src.steps)
    (hv : List.Forall₂ (FixedLookbackValue (ty = .call) K) paths vals) :
    MC.lookback .fixed src getR (.vanilla ty K) T paths.length s =
      (.ok (vals.foldl (· + ·) (lit 0) / lit (paths.length : ℚ) * Fl.exp (-r * T)), s') := by
  rw [MC.lookback_eq]
  have h := MC.intPricer_ok (T := T) (pp := MC.lookbackPath .fixed (.vanilla ty K) src.steps)
    (vals := vals) (by simpa using hN) hR hD ?_
  · simpa using h
  unfold Pays
  rw [List.forall₂_map_left_iff]
  clear hD hN
  induction hv with
  | nil => exact .nil
  | @cons S v _ _ h _ ih =>
    refine .cons ?_ (ih (fun S hS => hlen S (List.mem_cons_of_mem _ hS)))
    obtain ⟨m, M, hm, hM, hv⟩ := h
    have hl := hlen S (List.mem_cons_self ..)
    unfold MC.lookbackPath
    rw [← hl, lookback_scan hm hM (by omega), Res.bind_ok,
      vget_last_map (List.ne_nil_of_mem hm.1), Res.bind_ok, hv]
    simp only [MC.LookbackKind.payoff, Payoff.payoffType, Payoff.eval1]
    split <;> rfl

/-- **C21.** The floating-strike lookback pricer returns the discounted mean of `S_T - min_t S_t`
(call) resp. `max_t S_t - S_T` (put), for all finite paths, in rounded arithmetic. -/
theorem C21_floatingStrike {σ : Type} (src : PathSource σ (Dbl R)) (getR : Eff σ (Dbl R))
    (ty : PayoffType) {T r : Dbl R} {s s' : σ} {paths : List (List ℝ)}
    {vals : List (Dbl R)} (hR : getR s = (.ok r, s))
    (hD : Draws (src.simulatePrices T) s (paths.map (·.map (Dbl.ofReal R))) s')
    (hN : paths.length ≤ INT_MAX) (hsteps : src.steps ≤ INT_MAX)
    (hlen : ∀ S ∈ paths, S.length = src.steps)
    (hv : List.Forall₂ (FloatingLookbackValue (ty = .call)) paths vals) :
    MC.lookback .floating src getR (.floatingLookback ty) T paths.length s =
      (.ok (vals.foldl (· + ·) (lit 0) / lit (paths.length : ℚ) * Fl.exp (-r * T)), s') := by
  rw [MC.lookback_eq]
  have h := MC.intPricer_ok (T := T) (pp := MC.lookbackPath .floating (.floatingLookback ty) src.steps)
    (vals := vals) (by simpa using hN) hR hD ?_
  · simpa using h
  unfold Pays
  rw [List.forall₂_map_left_iff]
  clear hD hN
  induction hv with
  | nil => exact .nil
  | @cons S v _ _ h _ ih =>
    refine .cons ?_ (ih (fun S hS => hlen S (List.mem_cons_of_mem _ hS)))
    obtain ⟨m, M, hm, hM, hne, hv⟩ := h
    have hl := hlen S (List.mem_cons_self ..)
    unfold MC.lookbackPath
    rw [← hl, lookback_scan hm hM (by omega), Res.bind_ok,
      vget_last_map hne, Res.bind_ok, hv]
    simp only [MC.LookbackKind.payoff, Payoff.payoffType, Payoff.eval2]
    split
    · rw [Dbl.max_zero_of_nonneg (Dbl.sub_ofReal_nonneg (hm.2 _ (List.getLast_mem hne)))]
    · rw [Dbl.max_zero_of_nonneg (Dbl.sub_ofReal_nonneg (hM.2 _ (List.getLast_mem hne)))]

theorem Dbl.sub_le_sub_ofReal {a a' b b' : ℝ} (h : a - b ≤ a' - b') :
    Fl.le (Fl.max (Dbl.ofReal R a - Dbl.ofReal R b) (lit 0))
      (Fl.max (Dbl.ofReal R a' - Dbl.ofReal R b') (lit 0)) = true := by
  have e : ∀ x y : ℝ, Dbl.ofReal R x - Dbl.ofReal R y = .num (R.rnd (x - y)) := by
    intro x y
    show Dbl.num (x : EReal) + Dbl.num (-(y : EReal)) = _
    rw [← EReal.coe_neg, Dbl.add_num, if_neg (by simp), ← EReal.coe_add, Rounding.rndE_coe,
      sub_eq_add_neg]
  rw [e, e, Dbl.lit_zero, Dbl.max_num, Dbl.max_num, Dbl.le_num]
  exact max_le_max (R.mono h) le_rfl

/-- **C21.** A fixed-strike lookback value is at least the vanilla payoff of the last price, and never
negative, in rounded arithmetic. -/
theorem C21_fixedStrike_dominates (ty : PayoffType) (k : ℝ) {S : List ℝ} (h : S ≠ []) {v w : Dbl R}
    (hv : FixedLookbackValue (ty = .call) (Dbl.ofReal R k) S v)
    (hw : (Payoff.vanilla ty (Dbl.ofReal R k)).eval1 (Dbl.ofReal R (S.getLast h)) = .ok w) :
    Fl.le w v = true ∧ Dbl.Nonneg v := by
  obtain ⟨m, M, hm, hM, rfl⟩ := hv
  have h1 := hm.2 _ (List.getLast_mem h)
  have h2 := hM.2 _ (List.getLast_mem h)
  have hn : ∀ x y : ℝ, Dbl.Nonneg (Fl.max (Dbl.ofReal R x - Dbl.ofReal R y) (lit 0)) := by
    intro x y
    rcases Dbl.notNeg_max_zero (Dbl.ofReal R x - Dbl.ofReal R y) with h | h
    · exfalso
      have e := Dbl.sub_le_sub_ofReal (R := R) (a := x) (b := y) (a' := x) (b' := y) le_rfl
      rw [h] at e; simp at e
    · exact h
  by_cases ht : ty = .call
  · simp only [Payoff.eval1, ht, if_true] at hw ⊢
    cases hw
    exact ⟨Dbl.sub_le_sub_ofReal (by linarith), hn _ _⟩
  · simp only [Payoff.eval1, ht, if_false] at hw ⊢
    cases hw
    exact ⟨Dbl.sub_le_sub_ofReal (by linarith), hn _ _⟩

/-- **C21.** A floating-strike lookback value is never negative and at least the vanilla payoff of the
last price struck at any monitored price. -/
theorem C21_floatingStrike_dominates (ty : PayoffType) {S : List ℝ} (h : S ≠ []) {k : ℝ}
    (hk : k ∈ S) {v w : Dbl R} (hv : FloatingLookbackValue (ty = .call) S v)
    (hw : (Payoff.vanilla ty (Dbl.ofReal R k)).eval1 (Dbl.ofReal R (S.getLast h)) = .ok w) :
    Fl.le w v = true ∧ Dbl.Nonneg v := by
  obtain ⟨m, M, hm, hM, _, rfl⟩ := hv
  have h1 := hm.2 _ (List.getLast_mem h)
  have h2 := hM.2 _ (List.getLast_mem h)
  have h3 := hm.2 _ hk
  have h4 := hM.2 _ hk
  by_cases ht : ty = .call
  · simp only [Payoff.eval1, ht, if_true] at hw ⊢
    cases hw
    refine ⟨?_, Dbl.sub_ofReal_nonneg h1⟩
    rw [← Dbl.max_zero_of_nonneg (Dbl.sub_ofReal_nonneg (R := R) h1)]
    exact Dbl.sub_le_sub_ofReal (by linarith)
  · simp only [Payoff.eval1, ht, if_false] at hw ⊢
    cases hw
    refine ⟨?_, Dbl.sub_ofReal_nonneg h2⟩
    rw [← Dbl.max_zero_of_nonneg (Dbl.sub_ofReal_nonneg (R := R) h2)]
    exact Dbl.sub_le_sub_ofReal (by linarith)

theorem isMin_ex : IsMin [2, 1, 5, 3] 1 :=
  ⟨by simp, by intro x hx; simp at hx; rcases hx with rfl | rfl | rfl | rfl <;> norm_num⟩
theorem isMax_ex : IsMax [2, 1, 5, 3] 5 :=
  ⟨by simp, by intro x hx; simp at hx; rcases hx with rfl | rfl | rfl | rfl <;> norm_num⟩

/-- One path with its extremes in the middle. -/
example (k : Dbl R) : MC.lookback .fixed (replay 4) (Eff.lift (.ok (.num 0))) (.vanilla .call k)
      (.num 1) 1 [[2, 1, 5, 3].map (Dbl.ofReal R)] =
    (.ok ([Fl.max (Dbl.ofReal R 5 - k) (lit 0)].foldl (· + ·) (lit 0) / lit ((1 : ℕ) : ℚ) *
      Fl.exp (-(.num 0) * (.num 1))), []) :=
  C21_fixedStrike (replay 4) _ .call k rfl (paths := [[2, 1, 5, 3]])
    (replay_draws 4 (.num 1) _) (by simp [INT_MAX]) (by simp [replay, INT_MAX]) (by simp [replay])
    (.cons ⟨1, 5, isMin_ex, isMax_ex, by simp⟩ .nil)

example : MC.lookback .floating (replay 4) (Eff.lift (.ok (.num 0))) (.floatingLookback .put)
      (.num 1) 1 [[2, 1, 5, 3].map (Dbl.ofReal R)] =
    (.ok ([Dbl.ofReal R 5 - Dbl.ofReal R 3].foldl (· + ·) (lit 0) / lit ((1 : ℕ) : ℚ) *
      Fl.exp (-(.num 0) * (.num 1))), []) :=
  C21_floatingStrike (replay 4) _ .put rfl (paths := [[2, 1, 5, 3]])
    (replay_draws 4 (.num 1) _) (by simp [INT_MAX]) (by simp [replay, INT_MAX]) (by simp [replay])
    (.cons ⟨1, 5, isMin_ex, isMax_ex, by simp, by simp⟩ .nil)

example : Fl.le (Fl.max (Dbl.ofReal R 3 - Dbl.ofReal R 2) (lit 0))
    (Fl.max (Dbl.ofReal R 5 - Dbl.ofReal R 2) (lit 0)) = true :=
  (C21_fixedStrike_dominates .call 2 (S := [2, 1, 5, 3]) (by simp)
    ⟨1, 5, isMin_ex, isMax_ex, by simp⟩ (by simp [Payoff.eval1])).1

example : Fl.le (Fl.max (Dbl.ofReal R 3 - Dbl.ofReal R 2) (lit 0))
    (Dbl.ofReal R 3 - Dbl.ofReal R 1) = true :=
  (C21_floatingStrike_dominates .call (S := [2, 1, 5, 3]) (k := 2) (by simp) (by simp)
    ⟨1, 5, isMin_ex, isMax_ex, by simp, by simp⟩ (by simp [Payoff.eval1])).1

/-- **C21**, exact arithmetic: the values as real numbers. -/
theorem C21_exactValues (k : ℝ) {S : List ℝ} {m M : ℝ} (hm : IsMin S m) (hM : IsMax S M)
    (h : S ≠ []) :
    FixedLookbackValue True (Dbl.ofReal .exact k) S (Dbl.ofReal .exact (max (M - k) 0)) ∧
    FixedLookbackValue False (Dbl.ofReal .exact k) S (Dbl.ofReal .exact (max (k - m) 0)) ∧
    FloatingLookbackValue True S (Dbl.ofReal .exact (S.getLast h - m)) ∧
    FloatingLookbackValue False S (Dbl.ofReal .exact (M - S.getLast h)) := by
  refine ⟨⟨m, M, hm, hM, ?_⟩, ⟨m, M, hm, hM, ?_⟩, ⟨m, M, hm, hM, h, ?_⟩, ⟨m, M, hm, hM, h, ?_⟩⟩
  · rw [if_pos trivial, Dbl.exact_sub, Dbl.lit_zero, Dbl.ofReal, Dbl.ofReal, Dbl.max_num,
      EReal.coe_strictMono.monotone.map_max, EReal.coe_zero]
  · rw [if_neg id, Dbl.exact_sub, Dbl.lit_zero, Dbl.ofReal, Dbl.ofReal, Dbl.max_num,
      EReal.coe_strictMono.monotone.map_max, EReal.coe_zero]
  · rw [if_pos trivial, Dbl.exact_sub]
  · rw [if_neg id, Dbl.exact_sub]

example : FixedLookbackValue True (Dbl.ofReal .exact 2) [2, 1, 5, 3]
    (Dbl.ofReal .exact (max (5 - 2) 0)) :=
  (C21_exactValues 2 isMin_ex isMax_ex (by simp)).1

end

end Verif
