import Verif.Props.FdmSchemes
import Verif.Lemmas.OptionValue

/-!
# Properties C60 and C62: boundary values and expiring options

The solver marches from the payoff (time 0) to the price today (time `tDom`): the argument `t` of the
boundary functions is the time to maturity.
-/

namespace Verif
open Spec Fdm Filter Topology

/-! ## C60 -/

/-- **C60 (partial).** For a vanilla call with strike `K ≥ 0` the left boundary value is right for every time to
maturity, and agrees with the payoff.  Missing: the right boundary value, see `C60_call_fails`. -/
theorem C60_callLeft_partial (o : OptObj ℝ) (m : Market ℝ) (d : StockData ℝ) (K : ℝ) (hd : BlackScholes.stock o m = .ok d)
    (ho : o.payoff = .vanilla .call K) (hK : 0 ≤ K) (t x : ℝ) (ht : 0 ≤ t) :
    ∃ g, (BlackScholes.pde o m).boundaryLeft t x = .ok g ∧
      LeftAsymptotic (fun x => max (x - K) 0) d.sigma m.r (d.coupon.getD 0) t g ∧ o.payoff.eval1 0 = .ok g := by
  refine ⟨0, (call_describes hd ho).boundaryLeft t x, call_left ht hK, ?_⟩
  rw [show o.payoff.eval1 0 = (BlackScholes.pde o m).initialCondition 0 from rfl, (call_describes hd ho).initialCondition]
  simp [callProblem, hK]

example : LeftAsymptotic (fun x => max (x - 1) 0) 1 1 0 (1 / 2) 0 := by
  obtain ⟨g, hg, h, -⟩ := C60_callLeft_partial (exampleOption .call) exampleMarket _ 1 (example_stock _) rfl zero_le_one (1 / 2) 0 (by norm_num)
  rw [example_call.boundaryLeft] at hg
  cases hg
  exact h

/-- **C60 (partial).** For a vanilla put with strike `K ≥ 0` the right boundary value is right for every time to maturity, and
agrees with the payoff from `K` on; the left boundary value agrees with the payoff, and is right at time 0.
Missing: the left boundary value at later times, see `C60_put_fails`. -/
theorem C60_put_partial (o : OptObj ℝ) (m : Market ℝ) (d : StockData ℝ) (K : ℝ) (hd : BlackScholes.stock o m = .ok d)
    (ho : o.payoff = .vanilla .put K) (hK : 0 ≤ K) (t : ℝ) :
    (∃ g, (∀ x, (BlackScholes.pde o m).boundaryRight t x = .ok (g x)) ∧
      RightAsymptotic (fun x => max (K - x) 0) d.sigma m.r (d.coupon.getD 0) t g ∧ ∀ x, K ≤ x → o.payoff.eval1 x = .ok (g x)) ∧
    ∃ g, (BlackScholes.pde o m).boundaryLeft 0 0 = .ok g ∧ o.payoff.eval1 0 = .ok g ∧
      LeftAsymptotic (fun x => max (K - x) 0) d.sigma m.r (d.coupon.getD 0) 0 g := by
  have hp := put_describes hd ho
  have hi : ∀ x, o.payoff.eval1 x = .ok (max (K - x) 0) := hp.initialCondition
  refine ⟨⟨fun _ => 0, fun x => hp.boundaryRight t x, put_right hK, fun x hx => ?_⟩, K, hp.boundaryLeft 0 0, ?_, ?_⟩
  · rw [hi, max_eq_right (by linarith)]
  · rw [hi, sub_zero, max_eq_left hK]
  · have := put_left (σ := d.sigma) (r := m.r) (c := d.coupon.getD 0) (τ := 0) hK
    rw [mul_zero, Real.exp_zero, mul_one] at this
    exact this

example : RightAsymptotic (fun x => max (1 - x) 0) 1 1 0 (1 / 2) fun _ => 0 := by
  obtain ⟨⟨g, hg, h, -⟩, -⟩ := C60_put_partial (exampleOption .put) exampleMarket _ 1 (example_stock _) rfl zero_le_one (1 / 2)
  have : g = fun _ => 0 := by
    funext x
    have := hg x
    rw [example_put.boundaryRight] at this
    exact (Res.ok.inj this).symm
  rw [this] at h
  exact h

/-- **C60 (partial).** Without interest and dividends all boundary values are right, for all times to maturity, and agree
with the payoff. -/
theorem C60_noRates_partial (o : OptObj ℝ) (m : Market ℝ) (d : StockData ℝ) (K : ℝ) (hd : BlackScholes.stock o m = .ok d)
    (hK : 0 ≤ K) (hr : m.r = 0) (hc : d.coupon.getD 0 = 0) (t : ℝ) (ht : 0 ≤ t) :
    (o.payoff = .vanilla .call K → ∃ g, (∀ x, (BlackScholes.pde o m).boundaryRight t x = .ok (g x)) ∧
      RightAsymptotic (fun x => max (x - K) 0) d.sigma m.r (d.coupon.getD 0) t g ∧ ∀ x, K ≤ x → o.payoff.eval1 x = .ok (g x)) ∧
    (o.payoff = .vanilla .put K → ∃ g, (BlackScholes.pde o m).boundaryLeft t 0 = .ok g ∧ o.payoff.eval1 0 = .ok g ∧
      LeftAsymptotic (fun x => max (K - x) 0) d.sigma m.r (d.coupon.getD 0) t g) := by
  constructor
  · intro ho
    have hp := call_describes hd ho
    have hi : ∀ x, o.payoff.eval1 x = .ok (max (x - K) 0) := hp.initialCondition
    refine ⟨fun x => x - K, fun x => ?_, ?_, fun x hx => ?_⟩
    · rw [hp.boundaryRight]; simp [callProblem, hr]
    · have := call_right (σ := d.sigma) (r := m.r) (c := d.coupon.getD 0) (τ := t) ht hK
      rw [hr, hc] at this ⊢
      simp only [neg_zero, zero_mul, Real.exp_zero, mul_one] at this
      exact this
    · rw [hi, max_eq_left (by linarith)]
  · intro ho
    have hp := put_describes hd ho
    have hi : ∀ x, o.payoff.eval1 x = .ok (max (K - x) 0) := hp.initialCondition
    refine ⟨K, hp.boundaryLeft t 0, ?_, ?_⟩
    · rw [hi, sub_zero, max_eq_left hK]
    · have := put_left (σ := d.sigma) (r := m.r) (c := d.coupon.getD 0) (τ := t) hK
      rw [hr, hc] at this ⊢
      simp only [neg_zero, zero_mul, Real.exp_zero, mul_one] at this
      exact this

example : ∃ g : ℝ → ℝ, (∀ x, (BlackScholes.pde (exampleOption .call) { exampleMarket with r := 0 }).boundaryRight 2 x = .ok (g x)) ∧
    RightAsymptotic (fun x => max (x - 1) 0) 1 0 0 2 g := by
  obtain ⟨g, h1, h2, -⟩ := (C60_noRates_partial (exampleOption .call) { exampleMarket with r := 0 } ⟨1, 1, none⟩ 1 rfl zero_le_one rfl rfl 2
    (by norm_num)).1 rfl
  exact ⟨g, h1, h2⟩

/-- **C60 fails.** For a call with nonzero rate, strike and maturity, the right boundary value at the start of the
marching differs from the payoff. -/
theorem C60_callStart_fails (o : OptObj ℝ) (m : Market ℝ) (d : StockData ℝ) (K : ℝ) (hd : BlackScholes.stock o m = .ok d)
    (ho : o.payoff = .vanilla .call K) (hK : K ≠ 0) (hr : m.r ≠ 0) (hT : o.T ≠ 0) (x : ℝ) (hx : K ≤ x) :
    (BlackScholes.pde o m).boundaryRight 0 x ≠ o.payoff.eval1 x := by
  have hp := call_describes hd ho
  have hi : ∀ x, o.payoff.eval1 x = .ok (max (x - K) 0) := hp.initialCondition
  rw [hp.boundaryRight, hi, max_eq_left (by linarith)]
  intro h
  have h := Res.ok.inj h
  change x - K * Real.exp (-m.r * (o.T - 0)) = x - K at h
  have h' : K * Real.exp (-m.r * (o.T - 0)) = K * Real.exp 0 := by rw [Real.exp_zero]; linarith
  have := Real.exp_injective (mul_left_cancel₀ hK h')
  have : m.r * o.T = 0 := by linear_combination -this
  rcases mul_eq_zero.mp this with h | h
  · exact hr h
  · exact hT h

example : (BlackScholes.pde (exampleOption .call) exampleMarket).boundaryRight 0 2 ≠ (exampleOption .call : OptObj ℝ).payoff.eval1 2 :=
  C60_callStart_fails (exampleOption .call) exampleMarket _ 1 (example_stock _) rfl one_ne_zero one_ne_zero (by norm_num [exampleOption]) 2
    (by norm_num)

/-- **C60 fails.** For a call without dividends and with nonzero rate and strike, the right boundary value does not
describe the option for large prices, at any time to maturity but `T/2`: it discounts the strike over `T - t` instead
of `t`. -/
theorem C60_call_fails (o : OptObj ℝ) (m : Market ℝ) (d : StockData ℝ) (K : ℝ) (hd : BlackScholes.stock o m = .ok d)
    (ho : o.payoff = .vanilla .call K) (hK : 0 < K) (hr : m.r ≠ 0) (hc : d.coupon = none) (t : ℝ) (ht : 0 ≤ t) (ht2 : t ≠ o.T / 2)
    (g : ℝ → ℝ) (hg : ∀ x, (BlackScholes.pde o m).boundaryRight t x = .ok (g x)) :
    ¬ RightAsymptotic (fun x => max (x - K) 0) d.sigma m.r 0 t g := by
  have hp := call_describes hd ho
  have e : g = fun x => x - K * Real.exp (-m.r * (o.T - t)) := by
    funext x
    have := hg x
    rw [hp.boundaryRight] at this
    exact (Res.ok.inj this).symm
  intro h
  have h2 := call_right (σ := d.sigma) (r := m.r) (c := 0) (τ := t) ht hK.le
  unfold RightAsymptotic at h h2
  have h3 := h2.sub h
  rw [sub_zero] at h3
  have h4 : (fun S => optionValue (callPayoff K) d.sigma m.r 0 t S - (S * Real.exp (-0 * t) - K * Real.exp (-m.r * t)) -
      (optionValue (fun x => max (x - K) 0) d.sigma m.r 0 t S - g S)) =
      fun _ => K * Real.exp (-m.r * t) - K * Real.exp (-m.r * (o.T - t)) := by
    funext S
    rw [e]
    change optionValue (callPayoff K) d.sigma m.r 0 t S - (S * Real.exp (-0 * t) - K * Real.exp (-m.r * t)) -
      (optionValue (callPayoff K) d.sigma m.r 0 t S - (S - K * Real.exp (-m.r * (o.T - t)))) = _
    simp only [neg_zero, zero_mul, Real.exp_zero, mul_one]
    ring
  rw [h4] at h3
  have h5 := tendsto_nhds_unique h3 tendsto_const_nhds
  have h6 : Real.exp (-m.r * t) = Real.exp (-m.r * (o.T - t)) := mul_left_cancel₀ hK.ne' (by linarith)
  have h7 := Real.exp_injective h6
  have : m.r * (t - o.T / 2) = 0 := by linear_combination -(1 / 2) * h7
  rcases mul_eq_zero.mp this with h | h
  · exact hr h
  · exact ht2 (by linarith)

example : ¬ RightAsymptotic (fun x => max (x - 1) 0) 1 1 0 1 (fun x => x - 1) := by
  refine C60_call_fails (exampleOption .call) exampleMarket _ 1 (example_stock _) rfl one_pos one_ne_zero rfl 1 zero_le_one
    (by norm_num [exampleOption]) _ fun x => ?_
  rw [example_call.boundaryRight]
  simp [callProblem]

/-- **C60 fails.** For a put with nonzero rate and strike, the left boundary value is wrong at every later time: the strike
is not discounted. -/
theorem C60_put_fails (o : OptObj ℝ) (m : Market ℝ) (d : StockData ℝ) (K : ℝ) (hd : BlackScholes.stock o m = .ok d)
    (ho : o.payoff = .vanilla .put K) (hK : 0 < K) (hr : m.r ≠ 0) (t : ℝ) (ht : 0 < t) (g : ℝ)
    (hg : (BlackScholes.pde o m).boundaryLeft t 0 = .ok g) :
    ¬ LeftAsymptotic (fun x => max (K - x) 0) d.sigma m.r (d.coupon.getD 0) t g := by
  have hp := put_describes hd ho
  rw [hp.boundaryLeft] at hg
  have e : g = K := (Res.ok.inj hg).symm
  intro h
  have h2 := put_left (σ := d.sigma) (r := m.r) (c := d.coupon.getD 0) (τ := t) hK.le
  have h3 := tendsto_nhds_unique h h2
  rw [e] at h3
  have h4 : Real.exp (-m.r * t) = Real.exp 0 := by
    rw [Real.exp_zero]
    exact mul_left_cancel₀ hK.ne' (by linarith)
  have := Real.exp_injective h4
  have : m.r * t = 0 := by linear_combination -this
  rcases mul_eq_zero.mp this with h | h
  · exact hr h
  · exact ht.ne' h

example : ¬ LeftAsymptotic (fun x => max (1 - x) 0) 1 1 0 (1 / 2) 1 :=
  C60_put_fails (exampleOption .put) exampleMarket _ 1 (example_stock _) rfl one_pos one_ne_zero (1 / 2) (by norm_num) 1
    (by rw [example_put.boundaryLeft]; rfl)

/-- **C60 fails.** The dividends are ignored: with a positive dividend rate the distance between the option value and the
right boundary value of a call grows without bound, at every time to maturity. -/
theorem C60_dividend_fails (o : OptObj ℝ) (m : Market ℝ) (d : StockData ℝ) (K c : ℝ) (hd : BlackScholes.stock o m = .ok d)
    (ho : o.payoff = .vanilla .call K) (hK : 0 ≤ K) (hc : d.coupon = some c) (hc0 : 0 < c) (t : ℝ) (ht : 0 < t)
    (g : ℝ → ℝ) (hg : ∀ x, (BlackScholes.pde o m).boundaryRight t x = .ok (g x)) :
    Tendsto (fun S => g S - optionValue (fun x => max (x - K) 0) d.sigma m.r c t S) atTop atTop := by
  have hp := call_describes hd ho
  have e : g = fun x => x - K * Real.exp (-m.r * (o.T - t)) := by
    funext x
    have := hg x
    rw [hp.boundaryRight] at this
    exact (Res.ok.inj this).symm
  have h2 := call_right (σ := d.sigma) (r := m.r) (c := c) (τ := t) ht.le hK
  unfold RightAsymptotic at h2
  have hpos : 0 < 1 - Real.exp (-c * t) := by
    have : Real.exp (-c * t) < 1 := by rw [← Real.exp_zero]; exact Real.exp_lt_exp.mpr (by nlinarith)
    linarith
  have h3 : Tendsto (fun S : ℝ => S * (1 - Real.exp (-c * t)) + (K * Real.exp (-m.r * t) - K * Real.exp (-m.r * (o.T - t)))) atTop atTop :=
    tendsto_atTop_add_const_right _ _ (tendsto_id.atTop_mul_const hpos)
  have h4 := h3.atTop_add h2.neg
  refine h4.congr fun S => ?_
  rw [e]
  change _ = (S - K * Real.exp (-m.r * (o.T - t))) - optionValue (callPayoff K) d.sigma m.r c t S
  ring

example : ∃ g : ℝ → ℝ, (∀ x, (BlackScholes.pde (exampleOption .call) { exampleMarket with heap := [⟨1, 1, some 1⟩] }).boundaryRight 1 x = .ok (g x)) ∧
    Tendsto (fun S => g S - optionValue (fun x => max (x - 1) 0) 1 1 1 1 S) atTop atTop :=
  have hp := (call_describes (o := exampleOption .call) (m := { exampleMarket with heap := [⟨1, 1, some 1⟩] }) (d := ⟨1, 1, some 1⟩) rfl
    (K := 1) rfl)
  ⟨_, fun x => hp.boundaryRight 1 x, C60_dividend_fails (exampleOption .call) { exampleMarket with heap := [⟨1, 1, some 1⟩] }
    ⟨1, 1, some 1⟩ 1 1 rfl rfl zero_le_one rfl one_pos 1 one_pos _ fun x => hp.boundaryRight 1 x⟩

/-! ## C62 -/

/-- **C62 fails.** With time domain 0 (or less) `solve()` returns zeros, for every scheme, every option and every grid. -/
theorem C62_fails (sc : Scheme ℝ) (p : Pde ℝ) (q : Problem) (hp : Describes p q) (xDom tDom : ℝ) (J N : ℕ) (junk : ℕ → ℝ) (hJ : 2 ≤ J)
    (hm : J - 2 ≤ INT_MAX) (hN : 2 ≤ N) (hT : tDom ≤ 0) :
    ∃ s, construct sc xDom J tDom N p junk = .ok s ∧ ∀ fuel, 1 ≤ fuel →
      (solve sc p fuel s).1 = .ok (List.replicate J 0) := by
  obtain ⟨s, hs⟩ := construct_returns (xDom := xDom) (tDom := tDom) (N := N) hp junk hJ hm sc
  refine ⟨s, hs, fun fuel hf => ?_⟩
  obtain ⟨old, -, -, rfl⟩ := construct_ok hs hJ hN
  rw [solve_at_end hT hf]
  simp [vec]

/-- **C62 (partial).** So the vector returned is the payoff on the grid exactly if the payoff vanishes there. -/
theorem C62_partial (sc : Scheme ℝ) (p : Pde ℝ) (q : Problem) (hp : Describes p q) (xDom tDom : ℝ) (J N : ℕ) (junk : ℕ → ℝ) (hJ : 2 ≤ J)
    (hm : J - 2 ≤ INT_MAX) (hN : 2 ≤ N) (hT : tDom ≤ 0) :
    ∃ s, construct sc xDom J tDom N p junk = .ok s ∧ ∀ fuel, 1 ≤ fuel →
      ((solve sc p fuel s).1 = .ok ((List.range J).map fun j : ℕ => q.initial (j * (xDom / (J - 1)))) ↔
        ∀ j < J, q.initial (j * (xDom / (J - 1))) = 0) := by
  obtain ⟨s, hs, h⟩ := C62_fails sc p q hp xDom tDom J N junk hJ hm hN hT
  refine ⟨s, hs, fun fuel hf => ?_⟩
  rw [h fuel hf]
  constructor
  · intro e j hj
    have e := Res.ok.inj e
    have := congrArg (fun l : List ℝ => l[j]?) e
    simp [hj] at this
    exact this.symm
  · intro e
    congr 1
    refine List.ext_getElem (by simp) fun j h1 h2 => ?_
    simp at h1
    simp [e j h1]

/-- A put with strike 1: the payoff on the grid 0, 1, 2 is `[1, 0, 0]`. -/
example : ∃ s, construct .explicit 2 3 0 2 (BlackScholes.pde (exampleOption .put) exampleMarket) (fun _ => 0) = .ok s ∧
    (solve .explicit (BlackScholes.pde (exampleOption .put) exampleMarket) 1 s).1 = .ok [0, 0, 0] :=
  have ⟨s, hs, h⟩ := C62_fails .explicit _ _ example_put 2 0 3 2 (fun _ => 0) (by norm_num) (by decide) le_rfl le_rfl
  ⟨s, hs, h 1 le_rfl⟩

example : ∃ s, construct .explicit 2 3 0 2 (BlackScholes.pde (exampleOption .put) exampleMarket) (fun _ => 0) = .ok s ∧
    ¬ (solve .explicit (BlackScholes.pde (exampleOption .put) exampleMarket) 1 s).1 =
      .ok ((List.range 3).map fun j : ℕ => (putProblem 1 1 0 1).initial (j * (2 / ((3 : ℕ) - 1)))) := by
  obtain ⟨s, hs, h⟩ := C62_partial .explicit _ _ example_put 2 0 3 2 (fun _ => 0) (by norm_num) (by decide) le_rfl le_rfl
  refine ⟨s, hs, fun e => ?_⟩
  have := (h 1 le_rfl).mp e 0 (by norm_num)
  norm_num [putProblem] at this

end Verif
