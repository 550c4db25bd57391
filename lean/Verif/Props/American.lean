import Verif.Lemmas.American
import Verif.Props.PathDependent

/-!
# C25 - C27: the American pricer
-/

set_option linter.unusedSectionVars false

namespace Verif
open Spec

section
variable {F σ : Type} [Fl F] [Add F] [Sub F] [Mul F] [Div F] [Neg F]

/-- Both methods, when they return. -/
theorem american_exists_run {bridge : Bool} {strat : Lsmc F} {src : PathSource σ F} {getR : Eff σ F}
    {pay : F → Res F} {T r v : F} {N : ℕ} {s s' : σ} (h0 : 0 < src.steps)
    (hI : src.steps ≤ INT_MAX) (hR : getR s = (.ok r, s))
    (h : MC.american bridge strat src getR pay T N s = (.ok v, s')) :
    0 < N ∧ ∃ S, Simulated bridge src T N S s s' ∧ ∃ D value,
      LsmcRun strat pay N src.steps (Fl.exp (-r * (T / lit (src.steps : ℚ))))
        (activeDates pay N S) S 1 D value ∧
      v = ((List.range N).map (value 1)).foldl (· + ·) (lit 0) / lit (N : ℚ) *
        Fl.exp (-r * (T / lit (src.steps : ℚ))) := by
  unfold MC.american at h
  cases bridge with
  | true =>
    simp only [if_true] at h
    obtain ⟨hN, S, st, h1, h2, h3, D, value, h4, h5⟩ := MC.americanBridge_run hI h0 hR h
    exact ⟨hN, S, by unfold Simulated; rw [if_pos rfl]; exact ⟨st, h1, h2, h3⟩, D, value, h4, h5⟩
  | false =>
    simp only [Bool.false_eq_true, if_false] at h
    obtain ⟨hN, -, paths, h1, h2, h3, D, value, h4, h5⟩ := MC.americanStandard_run hI hR h
    exact ⟨hN, priceAt paths, by
      unfold Simulated; rw [if_neg (by simp)]; exact ⟨paths, h1, h2, h3, rfl⟩, D, value, h4, h5⟩

/-- The same for the simulated prices, which are unique. -/
theorem american_run {bridge : Bool} {strat : Lsmc F} {src : PathSource σ F} {getR : Eff σ F}
    {pay : F → Res F} {T r v : F} {N : ℕ} {s s' s₁ : σ} {S : ℕ → ℕ → F} (h0 : 0 < src.steps)
    (hI : src.steps ≤ INT_MAX) (hR : getR s = (.ok r, s)) (hS : Simulated bridge src T N S s s₁)
    (h : MC.american bridge strat src getR pay T N s = (.ok v, s')) :
    0 < N ∧ s' = s₁ ∧ ∃ D value,
      LsmcRun strat pay N src.steps (Fl.exp (-r * (T / lit (src.steps : ℚ))))
        (activeDates pay N S) S 1 D value ∧
      v = ((List.range N).map (value 1)).foldl (· + ·) (lit 0) / lit (N : ℚ) *
        Fl.exp (-r * (T / lit (src.steps : ℚ))) := by
  obtain ⟨hN, S', hS', D, value, h1, h2⟩ := american_exists_run h0 hI hR h
  obtain ⟨e, hE⟩ := MC.Simulated_unique h0 hS' hS
  exact ⟨hN, e, D, value, MC.run_congr_range hE h1, h2⟩

/-- **C27.** One date of the backward induction, for all prices, exercise values and cash flows, in
any arithmetic: the exercise decisions `X` are those of the rule `DateRule` with the later cash flows
discounted once as targets; an exercised path gets its exercise value as its only cash flow, every
other path keeps its later cash flow, discounted once - unless no path at all is in the money, in
which case it is not discounted (see C25). -/
theorem C27_oneDate {strat : Lsmc F} {pay : F → Res F} {df : F} {n : ℕ} {P E C : ℕ → F}
    {out : List F} (hE : ∀ i, i < n → pay (P i) = .ok (E i))
    (h : MC.lsmcUpdate strat pay df ((List.range n).map P) ((List.range n).map E)
      ((List.range n).map C) = .ok out) :
    ∃ (X : ℕ → Prop) (C' : ℕ → F), out = (List.range n).map C' ∧
      DateRule strat pay n P (fun i => C i * df) X ∧
      ∀ i, i < n → (X i → C' i = E i) ∧
        (¬ X i → (∃ l, l < n ∧ InTheMoney pay (P l)) → C' i = C i * df) ∧
        (¬ X i → (¬ ∃ l, l < n ∧ InTheMoney pay (P l)) → C' i = C i) :=
  MC.lsmcUpdate_spec hE h

/-- **C27.** A pricing returns whenever the simulation does (`Simulated`), payoff and strategies being
total, and consumes nothing but the simulation. -/
theorem C27_returns {bridge : Bool} {strat : Lsmc F} (hs : Fits strat) {src : PathSource σ F}
    {getR : Eff σ F} {pay : F → Res F} (hpay : ∀ x, ∃ e, pay x = .ok e) {T r : F} {N : ℕ} {s s' : σ}
    (hN : 0 < N) (hNI : N ≤ INT_MAX) (h0 : 0 < src.steps) (hI : src.steps ≤ INT_MAX)
    (hR : getR s = (.ok r, s)) {S : ℕ → ℕ → F} (hS : Simulated bridge src T N S s s') :
    ∃ v, MC.american bridge strat src getR pay T N s = (.ok v, s') :=
  MC.american_total hs hpay hN hNI h0 hI hR hS

/-- **C27.** Conversely, when a pricing returns, the prices of all paths and dates were simulated. -/
theorem C27_simulated {bridge : Bool} {strat : Lsmc F} {src : PathSource σ F} {getR : Eff σ F}
    {pay : F → Res F} {T r v : F} {N : ℕ} {s s' : σ} (h0 : 0 < src.steps)
    (hI : src.steps ≤ INT_MAX) (hR : getR s = (.ok r, s))
    (h : MC.american bridge strat src getR pay T N s = (.ok v, s')) :
    0 < N ∧ ∃ S, Simulated bridge src T N S s s' := by
  obtain ⟨hN, S, hS, -⟩ := american_exists_run h0 hI hR h
  exact ⟨hN, S, hS⟩

/-- **C27.** A whole pricing, in any arithmetic and for both simulation methods: there are exercise
decisions `D` that follow the rule at each date `1, ..., m - 1`, with targets derived from the realised
later cash flow of each path under `D`.  The cash flows are discounted once for each *date with an
in-the-money path* in between (`activeDates`).  Missing for the full claim: discounting for the other
dates, see `C27_fails`. -/
theorem C27_run_partial {bridge : Bool} {strat : Lsmc F} {src : PathSource σ F} {getR : Eff σ F}
    {pay : F → Res F} {T r v : F} {N : ℕ} {s s' s₁ : σ} {S : ℕ → ℕ → F} (h0 : 0 < src.steps)
    (hI : src.steps ≤ INT_MAX) (hR : getR s = (.ok r, s)) (hS : Simulated bridge src T N S s s₁)
    (h : MC.american bridge strat src getR pay T N s = (.ok v, s')) :
    0 < N ∧ s' = s₁ ∧ ∃ D value,
      LsmcRun strat pay N src.steps (Fl.exp (-r * (T / lit (src.steps : ℚ))))
        (activeDates pay N S) S 1 D value ∧
      v = ((List.range N).map (value 1)).foldl (· + ·) (lit 0) / lit (N : ℚ) *
        Fl.exp (-r * (T / lit (src.steps : ℚ))) :=
  american_run h0 hI hR hS h

/-- With an in-the-money path at each date the discounting is right. -/
theorem run_of_active {strat : Lsmc F} {pay : F → Res F} {N m : ℕ} {df : F} {S : ℕ → ℕ → F}
    {D : ℕ → ℕ → Prop} {value : ℕ → ℕ → F}
    (h : LsmcRun strat pay N m df (activeDates pay N S) S 1 D value)
    (hact : ∀ l, 1 ≤ l → l < m → Active pay N S l) :
    LsmcRun strat pay N m df (fun j k => k - j) S 1 D value := by
  refine ⟨h.dates, ?_⟩
  intro j h1 h2 i hi
  obtain ⟨k, e, hs, hp, hv⟩ := h.values j h1 h2 i hi
  refine ⟨k, e, hs, hp, ?_⟩
  rw [hv, MC.activeDates_full]
  intro l hl hlk
  exact hact l (by omega) (by have := hs.2.1; omega)

/-- **C27.** When at each date before maturity some path is in the money, the run is exactly least
squares Monte Carlo: targets are the realised later cash flows discounted to the date. -/
theorem C27_run_allActive_partial {bridge : Bool} {strat : Lsmc F} {src : PathSource σ F}
    {getR : Eff σ F} {pay : F → Res F} {T r v : F} {N : ℕ} {s s' s₁ : σ} {S : ℕ → ℕ → F}
    (h0 : 0 < src.steps) (hI : src.steps ≤ INT_MAX) (hR : getR s = (.ok r, s))
    (hS : Simulated bridge src T N S s s₁)
    (hact : ∀ l, 1 ≤ l → l < src.steps → Active pay N S l)
    (h : MC.american bridge strat src getR pay T N s = (.ok v, s')) :
    ∃ D value, LsmcRun strat pay N src.steps (Fl.exp (-r * (T / lit (src.steps : ℚ))))
        (fun j k => k - j) S 1 D value ∧
      v = ((List.range N).map (value 1)).foldl (· + ·) (lit 0) / lit (N : ℚ) *
        Fl.exp (-r * (T / lit (src.steps : ℚ))) := by
  obtain ⟨hN, -, D, value, h1, h2⟩ := american_run h0 hI hR hS h
  exact ⟨D, value, run_of_active h1 hact, h2⟩

end

/-! ## C25 -/

theorem iterate_mul_real (df e : ℝ) (n : ℕ) : (fun x : ℝ => x * df)^[n] e = e * df ^ n := by
  induction n with
  | zero => simp
  | succ n ih => rw [Function.iterate_succ_apply', ih]; ring

theorem exp_periods (r dt : ℝ) (n : ℕ) :
    Real.exp (-r * dt) ^ n * Real.exp (-r * dt) = Real.exp (-(r * ((1 + n : ℕ) * dt))) := by
  rw [← Real.exp_nat_mul, ← Real.exp_add]
  congr 1
  push_cast
  ring

/-- The price as a mean, for any way of counting periods. -/
theorem run_price {strat : Lsmc ℝ} {pay : ℝ → Res ℝ} {N m : ℕ} {periods : ℕ → ℕ → ℕ}
    {S : ℕ → ℕ → ℝ} {D : ℕ → ℕ → Prop} {value : ℕ → ℕ → ℝ} {r dt : ℝ} (hm : 0 < m)
    (h : LsmcRun strat pay N m (Real.exp (-r * dt)) periods S 1 D value) :
    ∃ (τ : ℕ → ℕ) (e : ℕ → ℝ), (∀ i, i < N → Stops m (fun l => D l i) 1 (τ i) ∧
        pay (S i (τ i)) = .ok (e i)) ∧
      ((List.range N).map (value 1)).foldl (· + ·) (lit 0) / lit (N : ℚ) * Real.exp (-r * dt) =
        (∑ i ∈ Finset.range N, Real.exp (-(r * ((1 + periods 1 (τ i) : ℕ) * dt))) * e i) / N := by
  have hv : ∀ i : ℕ, ∃ k e, i < N → Stops m (fun l => D l i) 1 k ∧ pay (S i k) = .ok e ∧
      value 1 i = e * Real.exp (-r * dt) ^ periods 1 k := by
    intro i
    by_cases hi : i < N
    · obtain ⟨k, e, h1, h2, h3⟩ := h.values 1 le_rfl hm i hi
      rw [iterate_mul_real] at h3
      exact ⟨k, e, fun _ => ⟨h1, h2, h3⟩⟩
    · exact ⟨0, 0, fun h => absurd h hi⟩
  choose τ e hτ using hv
  refine ⟨τ, e, fun i hi => ⟨(hτ i hi).1, (hτ i hi).2.1⟩, ?_⟩
  rw [foldl_add_real]
  have hsum : ((List.range N).map (value 1)).sum = ∑ i ∈ Finset.range N, value 1 i := by
    simp [Finset.sum, Finset.range, Multiset.range]
  rw [hsum, div_mul_eq_mul_div, Finset.sum_mul]
  simp only [Fl.lit_real, Rat.cast_natCast]
  congr 1
  apply Finset.sum_congr rfl
  intro i hi
  rw [(hτ i (Finset.mem_range.mp hi)).2.2, mul_assoc, exp_periods, mul_comm]


section
variable {σ : Type}

/-- **C25.** The American price is the mean of the discounted cash flows `exp(-r tau_i) payoff(S_tau_i)`,
`tau_i` the exercise date of path `i` under the decisions of the run, *counting only the dates with an
in-the-money path* in the discounting: `1 + activeDates` periods instead of `tau_i`.  This is the exact
behaviour for all paths; the claim C25 itself fails, see `C25_fails`, and holds under the additional
hypothesis of `C25_mean_partial`. -/
theorem C25_characterisation_partial {bridge : Bool} {strat : Lsmc ℝ} {src : PathSource σ ℝ}
    {getR : Eff σ ℝ} {pay : ℝ → Res ℝ} {T r v : ℝ} {N : ℕ} {s s' s₁ : σ} {S : ℕ → ℕ → ℝ}
    (h0 : 0 < src.steps) (hI : src.steps ≤ INT_MAX) (hR : getR s = (.ok r, s))
    (hS : Simulated bridge src T N S s s₁)
    (h : MC.american bridge strat src getR pay T N s = (.ok v, s')) :
    ∃ (D : ℕ → ℕ → Prop) (value : ℕ → ℕ → ℝ)
      (τ : ℕ → ℕ) (e : ℕ → ℝ),
      LsmcRun strat pay N src.steps (Real.exp (-r * (T / src.steps)))
        (activeDates pay N S) S 1 D value ∧
      (∀ i, i < N → Stops src.steps (fun l => D l i) 1 (τ i) ∧ pay (S i (τ i)) = .ok (e i)) ∧
      v = (∑ i ∈ Finset.range N,
        Real.exp (-(r * ((1 + activeDates pay N S 1 (τ i) : ℕ) * (T / src.steps)))) * e i) / N := by
  obtain ⟨hN, -, D, value, h1, h2⟩ := american_run h0 hI hR hS h
  simp only [Fl.exp_real, Fl.lit_real, Rat.cast_natCast] at h1 h2
  obtain ⟨τ, e, h3, h4⟩ := run_price h0 h1
  refine ⟨D, value, τ, e, h1, h3, ?_⟩
  rw [← h4, h2]
  simp

/-- **C25.** If at each date before maturity some path is in the money, the American price is the mean
over the paths of `exp(-r tau_i) payoff(S_tau_i)`, where `tau_i` (here `τ i` periods of length
`T / m`) is the first date at which the exercise value beats the fitted value, else maturity. -/
theorem C25_mean_partial {bridge : Bool} {strat : Lsmc ℝ} {src : PathSource σ ℝ}
    {getR : Eff σ ℝ} {pay : ℝ → Res ℝ} {T r v : ℝ} {N : ℕ} {s s' s₁ : σ} {S : ℕ → ℕ → ℝ}
    (h0 : 0 < src.steps) (hI : src.steps ≤ INT_MAX) (hR : getR s = (.ok r, s))
    (hS : Simulated bridge src T N S s s₁)
    (hact : ∀ l, 1 ≤ l → l < src.steps → Active pay N S l)
    (h : MC.american bridge strat src getR pay T N s = (.ok v, s')) :
    ∃ (D : ℕ → ℕ → Prop) (value : ℕ → ℕ → ℝ) (τ : ℕ → ℕ) (e : ℕ → ℝ),
      LsmcRun strat pay N src.steps (Real.exp (-r * (T / src.steps))) (fun j k => k - j) S 1 D value ∧
      (∀ i, i < N → Stops src.steps (fun l => D l i) 1 (τ i) ∧ pay (S i (τ i)) = .ok (e i)) ∧
      v = (∑ i ∈ Finset.range N, Real.exp (-(r * (τ i * (T / src.steps)))) * e i) / N := by
  obtain ⟨hN, -, D, value, h1, h2⟩ := american_run h0 hI hR hS h
  have h1' := run_of_active h1 hact
  simp only [Fl.exp_real, Fl.lit_real, Rat.cast_natCast] at h1' h2
  obtain ⟨τ, e, h3, h4⟩ := run_price h0 h1'
  refine ⟨D, value, τ, e, h1', h3, ?_⟩
  rw [h2]
  have h5 := h4
  simp only [Fl.lit_real, Rat.cast_natCast, Rat.cast_zero] at h5 ⊢
  rw [h5]
  congr 1
  apply Finset.sum_congr rfl
  intro i hi
  have := (h3 i (Finset.mem_range.mp hi)).1.1
  rw [show 1 + (τ i - 1) = τ i by omega]

/-- **C25.** With a zero rate the number of periods does not matter: the price is the mean of the
undiscounted payoffs at the exercise dates, for all paths. -/
theorem C25_zeroRate_partial {bridge : Bool} {strat : Lsmc ℝ} {src : PathSource σ ℝ}
    {getR : Eff σ ℝ} {pay : ℝ → Res ℝ} {T v : ℝ} {N : ℕ} {s s' s₁ : σ} {S : ℕ → ℕ → ℝ}
    (h0 : 0 < src.steps) (hI : src.steps ≤ INT_MAX) (hR : getR s = (.ok 0, s))
    (hS : Simulated bridge src T N S s s₁)
    (h : MC.american bridge strat src getR pay T N s = (.ok v, s')) :
    ∃ (D : ℕ → ℕ → Prop) (value : ℕ → ℕ → ℝ)
      (τ : ℕ → ℕ) (e : ℕ → ℝ),
      LsmcRun strat pay N src.steps 1 (fun j k => k - j) S 1 D value ∧
      (∀ i, i < N → Stops src.steps (fun l => D l i) 1 (τ i) ∧ pay (S i (τ i)) = .ok (e i)) ∧
      v = (∑ i ∈ Finset.range N, e i) / N := by
  obtain ⟨D, value, τ, e, h1, h2, h3⟩ := C25_characterisation_partial h0 hI hR hS h
  refine ⟨D, value, τ, e, ⟨?_, ?_⟩, h2, by simpa using h3⟩
  · have := h1.dates
    simpa using this
  · intro j a b i hi
    obtain ⟨k, x, c1, c2, c3⟩ := h1.values j a b i hi
    refine ⟨k, x, c1, c2, ?_⟩
    rw [iterate_mul_real] at c3 ⊢
    simpa using c3

end

/-! ### Witnesses -/

/-- Regression on a constant: every price has the basis value 1, the coefficient is the mean of the
targets. -/
noncomputable def flat : Lsmc ℝ where
  generate xs := .ok (xs.map fun _ => [1])
  solve _ ys := .ok [ys.sum / ys.length]

theorem flat_fits : Fits flat := by
  intro xs ys _
  exact ⟨_, _, rfl, rfl, by simp, by simp⟩

/-- Prices 13/16, 2, 1/2 at the three dates; put with strike 1; `r = log 2`, `T = 3`: one period
discounts by 1/2.  Nobody is in the money at date 2. -/
theorem american_witness : MC.american false flat (replay 3) (Eff.lift (.ok (Real.log 2)))
    (Payoff.vanilla .put (1 : ℝ)).eval1 3 1 [[13 / 16, 2, 1 / 2]] = (.ok (1 / 8), []) := by
  have hdf : Real.exp (-Real.log 2 * (3 / ((3 : ℕ) : ℝ))) = 1 / 2 := by
    rw [show (-Real.log 2 * (3 / ((3 : ℕ) : ℝ))) = -Real.log 2 by norm_num, Real.exp_neg,
      Real.exp_log (by norm_num)]
    norm_num
  unfold MC.american MC.americanStandard
  simp only [Bool.false_eq_true, if_false]
  rw [Eff.bind_of_ok (Eff.lift_apply _ _)]
  have hsim : MC.simulateN (MC.simulateRow (replay 3) (3 : ℝ)) 1 [[13 / 16, 2, 1 / 2]] =
      (.ok [[13 / 16, 2, 1 / 2]], []) := by
    rw [MC.simulateN_iff (by simp [INT_MAX])]
    exact ⟨MC.draws_simulateRow (replay_draws 3 3 [[13 / 16, 2, 1 / 2]]) (by simp [replay]), rfl⟩
  rw [Eff.bind_of_ok hsim]
  simp only [Eff.lift_apply, Prod.mk.injEq, and_true]
  simp only [Fl.exp_real, Fl.lit_real, Rat.cast_natCast, replay]
  rw [hdf]
  simp [MC.standardValue, Res.each, vget, Payoff.eval1, toInt32, INT_MAX, MC.standardLoop,
    MC.standardStep, MC.lsmcUpdate, MC.collect, MC.mean, flat]
  norm_num
  simp [MC.exerciseOrContinue, vget, Payoff.eval1, MC.dot]
  norm_num

/-- The prices of the witness. -/
noncomputable abbrev wPaths : List (List ℝ) := [[13 / 16, 2, 1 / 2]]

theorem witness_simulated : Simulated false (replay 3) (3 : ℝ) 1 (priceAt wPaths) wPaths [] := by
  unfold Simulated
  rw [if_neg (by simp)]
  exact ⟨_, replay_draws 3 3 wPaths, rfl, by simp [replay], rfl⟩

theorem wPaths_price (i j : ℕ) (hi : i < 1) (h1 : 1 ≤ j) (h3 : j ≤ 3) :
    (j = 1 ∧ priceAt wPaths i j = 13 / 16) ∨ (j = 2 ∧ priceAt wPaths i j = 2) ∨
      (j = 3 ∧ priceAt wPaths i j = 1 / 2) := by
  obtain rfl : i = 0 := by omega
  obtain rfl | rfl | rfl : j = 1 ∨ j = 2 ∨ j = 3 := by omega
  all_goals simp [priceAt]

theorem exp_log_two (n : ℕ) (x : ℝ) (hx : x = n) : Real.exp (-(Real.log 2 * x)) = (1 / 2) ^ n := by
  rw [hx, show -(Real.log 2 * (n : ℝ)) = n * -Real.log 2 by ring, Real.exp_nat_mul, Real.exp_neg,
    Real.exp_log (by norm_num)]
  norm_num

theorem put_eval (K x : ℝ) : (Payoff.vanilla .put K).eval1 x = .ok (max (K - x) 0) := by
  simp [Payoff.eval1]

/-- **C25 fails**: a single path, a put of strike 1, three dates.  Whatever the exercise date `j` of
the path, the price is not `exp(-r t_j) payoff(S_j)`: nobody is in the money at date 2 and the code
forgets to discount over it. -/
theorem C25_fails : ∃ (paths : List (List ℝ)) (r v : ℝ),
    Simulated false (replay 3) (3 : ℝ) 1 (priceAt paths) paths [] ∧ 0 < r ∧
    MC.american false flat (replay 3) (Eff.lift (.ok r)) (Payoff.vanilla .put (1 : ℝ)).eval1 3 1
      paths = (.ok v, []) ∧
    ∀ j : ℕ, 1 ≤ j → j ≤ 3 → ∀ e, (Payoff.vanilla .put (1 : ℝ)).eval1 (priceAt paths 0 j) = .ok e →
      v ≠ Real.exp (-(r * (j * (3 / (3 : ℕ))))) * e := by
  refine ⟨wPaths, Real.log 2, 1 / 8, witness_simulated, Real.log_pos (by norm_num),
    american_witness, ?_⟩
  intro j h1 h3 e he
  rw [exp_log_two j _ (by norm_num)]
  rcases wPaths_price 0 j (by omega) h1 h3 with ⟨rfl, hp⟩ | ⟨rfl, hp⟩ | ⟨rfl, hp⟩ <;>
  · rw [hp] at he
    rw [put_eval, Res.ok.injEq] at he
    subst he
    norm_num

theorem put_itm (K x : ℝ) : InTheMoney (Payoff.vanilla .put K).eval1 x ↔ x < K := by
  unfold InTheMoney
  simp [Payoff.eval1]

/-- **C27 fails**: there are correct least squares Monte Carlo runs on the simulated prices, and none
of them has the price that the code returns.  (The correct run exercises at date 1: the exercise value
3/16 beats the fitted value 1/8.  The code forgets to discount over date 2, compares with 1/4 and
waits.) -/
theorem C27_fails : ∃ (paths : List (List ℝ)) (r v : ℝ),
    Simulated false (replay 3) (3 : ℝ) 1 (priceAt paths) paths [] ∧ 0 < r ∧
    MC.american false flat (replay 3) (Eff.lift (.ok r)) (Payoff.vanilla .put (1 : ℝ)).eval1 3 1
      paths = (.ok v, []) ∧
    (∃ D value, LsmcRun flat (Payoff.vanilla .put (1 : ℝ)).eval1 1 3
      (Real.exp (-r * (3 / (3 : ℕ)))) (fun j k => k - j) (priceAt paths) 1 D value) ∧
    ∀ D value, LsmcRun flat (Payoff.vanilla .put (1 : ℝ)).eval1 1 3
      (Real.exp (-r * (3 / (3 : ℕ)))) (fun j k => k - j) (priceAt paths) 1 D value →
      v ≠ value 1 0 * Real.exp (-r * (3 / (3 : ℕ))) := by
  have hdf : Real.exp (-Real.log 2 * (3 / ((3 : ℕ) : ℝ))) = 1 / 2 := by
    rw [show (-Real.log 2 * (3 / ((3 : ℕ) : ℝ))) = -(Real.log 2 * (1 : ℕ)) by norm_num,
      exp_log_two 1 _ rfl]
    norm_num
  refine ⟨wPaths, Real.log 2, 1 / 8, witness_simulated, Real.log_pos (by norm_num),
    american_witness, ?_, ?_⟩
  · rw [hdf]
    refine ⟨fun l i => i = 0 ∧ l = 1, fun j _ => if j = 1 then 3 / 16 else if j = 2 then 1 / 4 else 1 / 2,
      ⟨?_, ?_⟩⟩
    · intro j h1 h3
      obtain rfl | rfl : j = 1 ∨ j = 2 := by omega
      · refine ⟨[0], by simp, ?_, by simp, ?_⟩
        · intro i
          rw [put_itm]
          constructor
          · intro h; obtain rfl : i = 0 := by simpa using h
            exact ⟨by simp, by norm_num [priceAt]⟩
          · rintro ⟨h, -⟩; simp; omega
        · intro _
          refine ⟨[[1]], [1 / 8], by simp [flat], by simp [flat]; norm_num, ?_⟩
          intro k i hk
          obtain ⟨rfl, rfl⟩ : k = 0 ∧ i = 0 := by
            cases k <;> simp_all
          refine ⟨3 / 16, [1], 1 / 8, ?_, rfl, ⟨rfl, by simp⟩, ?_⟩
          · simp [Payoff.eval1, priceAt]; norm_num
          · simp; norm_num
      · refine ⟨[], by simp, ?_, by simp, by simp⟩
        intro i
        rw [put_itm]
        constructor
        · simp
        · rintro ⟨h, h'⟩
          obtain rfl : i = 0 := by omega
          norm_num [priceAt] at h'
    · intro j h1 h3 i hi
      obtain rfl : i = 0 := by omega
      obtain rfl | rfl | rfl : j = 1 ∨ j = 2 ∨ j = 3 := by omega
      · refine ⟨1, 3 / 16, ⟨by omega, by omega, by intros; omega, by simp⟩, ?_, by norm_num⟩
        simp [Payoff.eval1, priceAt]; norm_num
      · refine ⟨3, 1 / 2, ⟨by omega, by omega, by rintro l a b ⟨-, c⟩; omega, by omega⟩, ?_,
          by norm_num⟩
        simp [Payoff.eval1, priceAt]; norm_num
      · refine ⟨3, 1 / 2, ⟨by omega, by omega, by intros; omega, by omega⟩, ?_, by norm_num⟩
        simp [Payoff.eval1, priceAt]; norm_num
  · intro D value hrun
    rw [hdf] at hrun ⊢
    obtain ⟨k, e, hs, he, hv⟩ := hrun.values 1 le_rfl (by norm_num) 0 (by norm_num)
    rw [iterate_mul_real] at hv
    rw [hv]
    rcases wPaths_price 0 k (by omega) hs.1 hs.2.1 with ⟨rfl, hp⟩ | ⟨rfl, hp⟩ | ⟨rfl, hp⟩ <;>
    · rw [hp] at he
      rw [put_eval, Res.ok.injEq] at he
      subst he
      norm_num

/-- A source for the bridge: 1 at maturity, half of the later price before. -/
noncomputable def halving (m : ℕ) : PathSource Unit ℝ where
  steps := m
  simulatePrices _ := pure ((List.range m).map fun k => (1 / 2) ^ (m - (k + 1)))
  simulatePriceAtMaturity _ := pure 1
  simulatePriceBackward S _ _ := pure (S / 2)

theorem halving_simulated (m N : ℕ) (T : ℝ) :
    Simulated true (halving m) T N (fun _ j => (1 / 2) ^ (m - j)) () () := by
  unfold Simulated
  rw [if_pos rfl]
  refine ⟨fun _ => (), ?_, rfl, ?_⟩
  · simp only [halving, Nat.sub_self, pow_zero]
    induction N with
    | zero => exact .nil _
    | succ N ih =>
      rw [List.range_succ_eq_map, List.map_cons, List.map_map]
      exact .cons rfl ih
  · intro j h1 h2
    have : ∀ l : List ℕ, Chained (fun x => (halving m).simulatePriceBackward x
        (lit (j : ℚ) * (T / lit ((halving m).steps : ℚ)))
        (lit ((j + 1 : ℕ) : ℚ) * (T / lit ((halving m).steps : ℚ)))) ()
        (l.map fun _ => (1 / 2 : ℝ) ^ (m - (j + 1))) (l.map fun _ => (1 / 2 : ℝ) ^ (m - j)) () := by
      intro l
      induction l with
      | nil => exact .nil _
      | cons a l ih =>
        refine .cons (s₁ := ()) ?_ ih
        have h2' : j < m := h2
        have : (1 / 2 : ℝ) ^ (m - j) = (1 / 2) ^ (m - (j + 1)) / 2 := by
          rw [show m - j = m - (j + 1) + 1 by omega, pow_succ]; ring
        rw [this]
        rfl
    exact this _

theorem halving_active (m N : ℕ) (hN : 0 < N) (l : ℕ) :
    Active (Payoff.vanilla .put (2 : ℝ)).eval1 N (fun _ j => (1 / 2) ^ (m - j)) l := by
  refine ⟨0, hN, ?_⟩
  rw [put_itm]
  have : (1 / 2 : ℝ) ^ (m - l) ≤ 1 := pow_le_one₀ (by norm_num) (by norm_num)
  linarith

/-- The bridge with 4 dates and 10 paths returns, and with every path in the money at every date
satisfies all hypotheses of `C25_mean_partial` and `C27_run_allActive_partial`. -/
example : ∃ v, MC.american true flat (halving 4) (Eff.lift (.ok (1 / 10)))
    (Payoff.vanilla .put (2 : ℝ)).eval1 1 10 () = (.ok v, ()) ∧
    ∃ (D : ℕ → ℕ → Prop) (value : ℕ → ℕ → ℝ) (τ : ℕ → ℕ) (e : ℕ → ℝ),
      LsmcRun flat (Payoff.vanilla .put (2 : ℝ)).eval1 10 4 (Real.exp (-(1 / 10) * (1 / (4 : ℕ))))
        (fun j k => k - j) (fun _ j => (1 / 2) ^ (4 - j)) 1 D value ∧
      (∀ i, i < 10 → Stops 4 (fun l => D l i) 1 (τ i) ∧
        (Payoff.vanilla .put (2 : ℝ)).eval1 ((1 / 2) ^ (4 - τ i)) = .ok (e i)) ∧
      v = (∑ i ∈ Finset.range 10, Real.exp (-(1 / 10 * (τ i * (1 / (4 : ℕ))))) * e i) / (10 : ℕ) := by
  have hS := halving_simulated 4 10 1
  obtain ⟨v, hv⟩ := C27_returns (getR := Eff.lift (.ok (1 / 10))) flat_fits
    (pay := (Payoff.vanilla .put (2 : ℝ)).eval1) (fun x => ⟨_, rfl⟩) (by norm_num)
    (by simp [INT_MAX]) (by simp [halving]) (by simp [halving, INT_MAX]) rfl hS
  exact ⟨v, hv, C25_mean_partial (r := 1 / 10) (by simp [halving]) (by simp [halving, INT_MAX]) rfl hS
    (fun l _ _ => halving_active 4 10 (by norm_num) l) hv⟩

/-- The witness meets the hypotheses of the general theorems. -/
example := C27_run_partial (by simp [replay]) (by simp [replay, INT_MAX]) rfl witness_simulated
  american_witness

example := C25_characterisation_partial (by simp [replay]) (by simp [replay, INT_MAX]) rfl
  witness_simulated american_witness

example := C27_simulated (by simp [replay]) (by simp [replay, INT_MAX]) rfl american_witness

/-- One date of `C27_oneDate`: put of strike 1, prices 1/2 and 2, later cash flows 1 and 3.  Path 0 is
in the money but the fitted value 1/2 is not below its exercise value 1/2, so both are continued. -/
example : MC.lsmcUpdate flat (Payoff.vanilla .put (1 : ℝ)).eval1 (1 / 2) [1 / 2, 2] [1 / 2, 0] [1, 3] =
    .ok [1 / 2, 3 / 2] := by
  simp [MC.lsmcUpdate, MC.collect, flat]
  simp [MC.exerciseOrContinue, vget, Payoff.eval1, MC.dot]
  norm_num

/-- An exercised path: its later cash flow 3/4 is worth 3/8 < 1/2. -/
example : MC.lsmcUpdate flat (Payoff.vanilla .put (1 : ℝ)).eval1 (1 / 2) [1 / 2, 2] [1 / 2, 0]
    [3 / 4, 3] = .ok [1 / 2, 3 / 2] := by
  simp [MC.lsmcUpdate, MC.collect, flat]
  norm_num
  simp [MC.exerciseOrContinue, vget, Payoff.eval1, MC.dot]
  norm_num

/-! ## C26 -/

section
variable {σ : Type}

/-- **C26.** With a nonnegative rate the American price is nonnegative and at most the largest
exercise value seen: some simulated path and date has an exercise value of at least the price.
(For every payoff that is never negative - `C10` and `C11` show that the payoffs of the library are - and all
strategies.) -/
theorem C26_bounds {bridge : Bool} {strat : Lsmc ℝ} {src : PathSource σ ℝ}
    {getR : Eff σ ℝ} {pay : ℝ → Res ℝ} {T r v : ℝ} {N : ℕ} {s s' s₁ : σ} {S : ℕ → ℕ → ℝ}
    (h0 : 0 < src.steps) (hI : src.steps ≤ INT_MAX) (hR : getR s = (.ok r, s))
    (hS : Simulated bridge src T N S s s₁) (hr : 0 ≤ r) (hT : 0 ≤ T)
    (hpay : ∀ x e, pay x = .ok e → 0 ≤ e)
    (h : MC.american bridge strat src getR pay T N s = (.ok v, s')) :
    0 ≤ v ∧ ∃ i j e, i < N ∧ 1 ≤ j ∧ j ≤ src.steps ∧ pay (S i j) = .ok e ∧ v ≤ e := by
  obtain ⟨hN, -⟩ := american_run h0 hI hR hS h
  obtain ⟨D, value, τ, e, -, h2, h3⟩ := C25_characterisation_partial h0 hI hR hS h
  have he : ∀ i ∈ Finset.range N, 0 ≤ e i := fun i hi =>
    hpay _ _ (h2 i (Finset.mem_range.mp hi)).2
  have hN' : (0 : ℝ) < N := by exact_mod_cast hN
  have hle : ∀ i ∈ Finset.range N, Real.exp (-(r * ((1 + activeDates pay N S 1 (τ i) : ℕ) *
      (T / src.steps)))) * e i ≤ e i := by
    intro i hi
    have : Real.exp (-(r * ((1 + activeDates pay N S 1 (τ i) : ℕ) * (T / src.steps)))) ≤ 1 := by
      rw [Real.exp_le_one_iff, neg_nonpos]
      positivity
    nlinarith [he i hi]
  refine ⟨?_, ?_⟩
  · rw [h3]
    exact div_nonneg (Finset.sum_nonneg fun i hi => mul_nonneg (Real.exp_pos _).le (he i hi)) hN'.le
  · have hsum : ∑ _i ∈ Finset.range N, v ≤ ∑ i ∈ Finset.range N, e i := by
      rw [Finset.sum_const, Finset.card_range, nsmul_eq_mul, h3, mul_div_cancel₀ _ hN'.ne']
      exact Finset.sum_le_sum hle
    obtain ⟨i, hi, hvi⟩ := Finset.exists_le_of_sum_le ⟨0, Finset.mem_range.mpr hN⟩ hsum
    obtain ⟨hs, hp⟩ := h2 i (Finset.mem_range.mp hi)
    exact ⟨i, τ i, e i, Finset.mem_range.mp hi, hs.1, hs.2.1, hp, hvi⟩

/-- **C26.** With a nonnegative rate and nonnegative simulated prices an American put is worth at most
its strike. -/
theorem C26_put {bridge : Bool} {strat : Lsmc ℝ} {src : PathSource σ ℝ}
    {getR : Eff σ ℝ} {T r v K : ℝ} {N : ℕ} {s s' s₁ : σ} {S : ℕ → ℕ → ℝ}
    (h0 : 0 < src.steps) (hI : src.steps ≤ INT_MAX) (hR : getR s = (.ok r, s))
    (hS : Simulated bridge src T N S s s₁) (hr : 0 ≤ r) (hT : 0 ≤ T) (hK : 0 ≤ K)
    (hpos : ∀ i j, i < N → 1 ≤ j → j ≤ src.steps → 0 ≤ S i j)
    (h : MC.american bridge strat src getR (Payoff.vanilla .put K).eval1 T N s = (.ok v, s')) :
    0 ≤ v ∧ v ≤ K := by
  obtain ⟨h1, i, j, e, hi, hj1, hj2, he, hv⟩ := C26_bounds h0 hI hR hS hr hT (by
    intro x e he
    rw [put_eval, Res.ok.injEq] at he
    rw [← he]; exact le_max_right _ _) h
  refine ⟨h1, hv.trans ?_⟩
  rw [put_eval, Res.ok.injEq] at he
  have := hpos i j hi hj1 hj2
  rw [← he]
  exact max_le (by linarith) hK

end

/-- The witness is such a put: the price 1/8 is between 0 and the strike 1. -/
example : (0 : ℝ) ≤ 1 / 8 ∧ (1 / 8 : ℝ) ≤ 1 :=
  C26_put (by simp [replay]) (by simp [replay, INT_MAX]) rfl witness_simulated
    (Real.log_nonneg (by norm_num)) (by norm_num) (by norm_num)
    (by
      intro i j hi h1 h2
      rcases wPaths_price i j hi h1 (by simpa [replay] using h2) with ⟨-, h⟩ | ⟨-, h⟩ | ⟨-, h⟩ <;>
        rw [h] <;> norm_num)
    american_witness

section
variable {σ : Type} {R : Rounding}

theorem notNeg_foldl (l : List (Dbl R)) (hl : ∀ x ∈ l, Dbl.NotNeg x) (a : Dbl R)
    (ha : Dbl.NotNeg a) : Dbl.NotNeg (l.foldl (· + ·) a) := by
  induction l generalizing a with
  | nil => exact ha
  | cons x l ih =>
    exact ih (fun y hy => hl y (List.mem_cons_of_mem _ hy)) _
      (Dbl.notNeg_add ha (hl x (List.mem_cons_self ..)))

/-- **C26 in floating point.** With any rounding, for any rate, the price is never negative: it is a
nonnegative number, infinity or NaN. -/
theorem C26_notNegative {bridge : Bool} {strat : Lsmc (Dbl R)} {src : PathSource σ (Dbl R)}
    {getR : Eff σ (Dbl R)} (p : Payoff (Dbl R)) {T r v : Dbl R} {N : ℕ} {s s' : σ}
    (h0 : 0 < src.steps) (hI : src.steps ≤ INT_MAX) (hR : getR s = (.ok r, s))
    (h : MC.american bridge strat src getR p.eval1 T N s = (.ok v, s')) :
    Fl.lt v (lit 0) = false := by
  obtain ⟨hN, S, hS, D, value, h1, h2⟩ := american_exists_run h0 hI hR h
  rw [← Dbl.notNeg_iff, h2]
  have hdf := Dbl.notNeg_exp (-r * (T / lit (src.steps : ℚ)))
  refine Dbl.notNeg_mul (Dbl.notNeg_div (notNeg_foldl _ ?_ _ (Dbl.notNeg_lit le_rfl))
    (Dbl.notNeg_lit (by positivity))) hdf
  intro x hx
  obtain ⟨i, hi, rfl⟩ := List.mem_map.mp hx
  obtain ⟨k, e, -, he, hv⟩ := h1.values 1 le_rfl h0 i (List.mem_range.mp hi)
  rw [hv]
  have := eval1_notNeg p _ _ he
  generalize activeDates p.eval1 N S 1 k = n
  induction n with
  | zero => exact this
  | succ n ih => rw [Function.iterate_succ_apply']; exact Dbl.notNeg_mul ih hdf

/-- One path, one date, price 1; a put of strike 2. -/
example : ∃ v : Dbl R, MC.american (σ := Unit) true
    ⟨fun xs => .ok (xs.map fun _ => [lit 1]), fun _ _ => .ok [lit 0]⟩
    ⟨1, fun _ => pure [lit 1], fun _ => pure (lit 1), fun _ _ _ => pure (lit 1)⟩
    (Eff.lift (.ok (lit 1))) (Payoff.vanilla .put (lit 2)).eval1 (lit 1) 1 () = (.ok v, ()) ∧
    Fl.lt v (lit 0) = false := by
  have hS : Simulated (σ := Unit) true
      ⟨1, fun _ => pure [lit 1], fun _ => pure (lit 1), fun _ _ _ => pure (lit 1)⟩
      (lit 1 : Dbl R) 1 (fun _ _ => lit 1) () () := by
    unfold Simulated
    rw [if_pos rfl]
    exact ⟨fun _ => (), .cons rfl (.nil _), rfl, fun j h1 h2 => by simp at h2; omega⟩
  obtain ⟨v, hv⟩ := C27_returns (strat := ⟨fun xs => .ok (xs.map fun _ => [lit 1]),
      fun _ _ => .ok [lit 0]⟩) (getR := Eff.lift (.ok (lit 1)))
    (pay := (Payoff.vanilla .put (lit 2)).eval1)
    (fun xs ys _ => ⟨_, _, rfl, rfl, by simp, by simp⟩) (fun x => ⟨_, rfl⟩) (by norm_num)
    (by simp [INT_MAX]) (by norm_num) (by simp [INT_MAX]) rfl hS
  exact ⟨v, hv, C26_notNegative _ (by norm_num) (by simp [INT_MAX]) rfl hv⟩

end

end Verif
