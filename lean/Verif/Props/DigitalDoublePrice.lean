import Verif.Spec.DigitalDoubleSpec
import Verif.Props.FdmDigital
import Verif.Props.CNDoublePrice
import Verif.Props.ImplicitDoublePrice

/-!
# Property C96: finite difference prices of digital options in double precision
-/

set_option exponentiation.threshold 3000

namespace Verif
open Spec MeasureTheory ProbabilityTheory

namespace Fdm
open Set

/-- A scheme in double precision, the same scheme in exact arithmetic, and a bound for the rounding errors of a run on a grid of moderate size. -/
inductive ModerateScheme (σ r c K S T X : ℝ) (J N : ℕ) : Scheme (Dbl .binary64) → Scheme ℝ → ℝ → Prop
  | explicit (G : ModerateGrid σ r c K S T X J N) : ModerateScheme σ r c K S T X J N .explicit .explicit (fdmRounding K X J N)
  | implicit (G : ModerateImplicit σ r c K S T X J N) : ModerateScheme σ r c K S T X J N (.implicit thomas) (.implicit thomas) (implicitRounding σ r K T X J N)
  | crankNicolson (G : ModerateCN σ r c K S T X J N) : ModerateScheme σ r c K S T X J N (.crankNicolson thomas) (.crankNicolson thomas) (cnRounding K X J N)

variable {σ r c K S T X δ ρ : ℝ} {J N : ℕ} {scd : Scheme (Dbl .binary64)} {sc : Scheme ℝ}

theorem ModerateScheme.sizes (h : ModerateScheme σ r c K S T X J N scd sc ρ) : GridSizes σ r c K S T X J N := by
  cases h with
  | explicit G => exact G.toGridSizes
  | implicit G => exact G.toGridSizes
  | crankNicolson G => exact G.toGridSizes

theorem ModerateScheme.stable (h : ModerateScheme σ r c K S T X J N scd sc ρ) : Stable (T / (N - 1)) (σ ^ 2 * (J : ℝ) ^ 2 + r) sc := by
  cases h with
  | explicit G => exact .explicit G.weights
  | implicit G => exact .implicit
  | crankNicolson G => exact .crankNicolson G.weights

/-- The payoff `v` of a digital put at a node `z` whose computed value is within `η`. -/
def Sharp (K η z v : ℝ) : Prop := (v = 0 ∨ v = 1) ∧ (z < K - η → v = 1) ∧ (K + η < z → v = 0)

theorem node_error (G : GridSizes σ r c K S T X J N) {j : ℕ} (hj : j < J) {x : Dbl .binary64} (hx : Nr 1 2 (j * (X / ((J : ℝ) - 1))) x (j * (X / ((J : ℝ) - 1)))) :
    ∃ y : ℝ, x = .num y ∧ |y - j * (X / ((J : ℝ) - 1))| ≤ (X + K) / 2 ^ 49 := by
  obtain ⟨h1, h2, h3, h4⟩ := grid_h G
  obtain ⟨m1, m2, m3⟩ := grid_M G
  have hK := G.strike.1
  have hxX := h4 j hj
  have hx0 : 0 ≤ (j : ℝ) * (X / ((J : ℝ) - 1)) := by positivity
  generalize (j : ℝ) * (X / ((J : ℝ) - 1)) = z at *
  obtain ⟨y, e, hy⟩ := hx.error (by omega) (by norm_num)
  refine ⟨y, e, hy.trans ((add_le_add (mul_le_mul_of_nonneg_left (by linarith : z ≤ X + K) (by positivity)) m3).trans ?_)⟩
  have : 2 * ((2 : ℕ) : ℝ) * 2 ^ (-53 : ℤ) * (X + K) + (X + K) / 2 ^ 100 = (2 * ((2 : ℕ) : ℝ) * 2 ^ (-53 : ℤ) + 1 / 2 ^ 100) * (X + K) := by ring
  rw [this]
  calc (2 * ((2 : ℕ) : ℝ) * 2 ^ (-53 : ℤ) + 1 / 2 ^ 100) * (X + K) ≤ 1 / 2 ^ 49 * (X + K) :=
        mul_le_mul_of_nonneg_right (by norm_num) (by linarith)
    _ = (X + K) / 2 ^ 49 := by ring

theorem digital_put_node {K y z η : ℝ} (h : |y - z| ≤ η) :
    ∃ v : ℝ, (Payoff.digital .put (.num K) : Payoff (Dbl .binary64)).eval1 (.num y) = .ok (.num v) ∧ Sharp K η z v := by
  obtain ⟨h1, h2⟩ := abs_le.mp h
  by_cases hy : y < K
  · refine ⟨1, ?_, Or.inr rfl, fun _ => rfl, fun h => by linarith⟩
    simp [Payoff.eval1, Fl.gt, Dbl.lt_num, hy]
  · refine ⟨0, ?_, Or.inl rfl, fun h => by linarith [not_lt.mp hy], fun _ => rfl⟩
    simp [Payoff.eval1, Fl.gt, Dbl.lt_num, not_lt.mp hy]

theorem digital_call_node {K y z η : ℝ} (h : |y - z| ≤ η) :
    ∃ v : ℝ, (Payoff.digital .call (.num K) : Payoff (Dbl .binary64)).eval1 (.num y) = .ok (.num v) ∧ Sharp K η z (1 - v) := by
  obtain ⟨h1, h2⟩ := abs_le.mp h
  by_cases hy : K < y
  · refine ⟨1, ?_, Or.inl (by norm_num), fun h => by linarith, fun _ => by norm_num⟩
    simp [Payoff.eval1, Fl.gt, Dbl.lt_num, hy]
  · refine ⟨0, ?_, Or.inr (by norm_num), fun _ => by norm_num, fun h => by linarith [not_lt.mp hy]⟩
    simp [Payoff.eval1, Fl.gt, Dbl.lt_num, not_lt.mp hy]

section
variable {o : OptObj (Dbl .binary64)} {m : Market (Dbl .binary64)} {d : StockData (Dbl .binary64)}
  (hd : BlackScholes.stock o m = .ok d) (hσ' : d.sigma = .num σ) (hr' : m.r = .num r) (hc' : d.coupon.getD (lit 0) = .num c)

/-- The boundary values computed for the time level `i`, those of the problem `q`, their distance and their size. -/
def BoundaryNear (o : OptObj (Dbl .binary64)) (m : Market (Dbl .binary64)) (q : Problem) (T X : ℝ) (J N : ℕ) (e M : ℝ) (i : ℕ) : Prop :=
  (∀ dt dx : Dbl .binary64, Nr 0 1 (T / ((N : ℝ) - 1)) dt (T / ((N : ℝ) - 1)) → Nr 1 2 X (lit ((J - 1 : ℕ) : ℚ) * dx) X →
    (∃ l : ℝ, (BlackScholes.pde o m).boundaryLeft (times dt i) (lit ((0 : ℕ) : ℚ) * dx) = .ok (.num l) ∧ |l - q.left (i * (T / ((N : ℝ) - 1))) 0| ≤ e) ∧
    ∃ l : ℝ, (BlackScholes.pde o m).boundaryRight (times dt i) (lit ((J - 1 : ℕ) : ℚ) * dx) = .ok (.num l) ∧ |l - q.right (i * (T / ((N : ℝ) - 1))) X| ≤ e) ∧
  |q.left (i * (T / ((N : ℝ) - 1))) 0| ≤ M ∧ |q.right (i * (T / ((N : ℝ) - 1))) X| ≤ M

include hd hσ' hr' hc' in
/-- A run in doubles against an exact run that starts with the payoffs at the computed nodes. -/
theorem digital_run (hsc : ModerateScheme σ r c K S T X J N scd sc ρ) (hXK : 1 ≤ X + K) {P : ℕ → ℝ → Prop} (hP : ∀ j v, P j v → |v| ≤ 1)
    (hv : ∀ j < J, ∀ x : Dbl .binary64, Nr 1 2 (j * (X / ((J : ℝ) - 1))) x (j * (X / ((J : ℝ) - 1))) →
      ∃ v : ℝ, (BlackScholes.pde o m).initialCondition x = .ok (.num v) ∧ P j v) (junk : ℕ → Dbl .binary64) :
    ∃ (s : Fdm (Dbl .binary64)) (v : ℕ → ℝ), construct scd (.num X) J (.num T) N (BlackScholes.pde o m) junk = .ok s ∧ (∀ j < J, P j (v j)) ∧ ∃ n, (n = N - 1 ∨ n = N) ∧
      ∀ q : Problem, BlackScholesCoefficients q σ r c → DiffusionDominates q J (X / (J - 1)) → (∀ j < J, q.initial (j * (X / (J - 1))) = v j) →
        (∀ i < N, BoundaryNear o m q T X J N (N * (X + K) / 2 ^ 38) (X + K) i) → (∀ i ≤ N, BoundaryNear o m q T X J N (N * (X + K) / 2 ^ 36) (4 * (X + K)) i) →
        ∀ fuel, N < fuel → ∀ p, Describes p q → ∀ (junk' : ℕ → ℝ) (s' : Fdm ℝ),
        construct sc X J (n * (T / (N - 1))) (n + 1) p junk' = .ok s' → ∀ fuel', n + 1 ≤ fuel' → ∃ y y' : ℝ,
          (calculatePrice scd .linear (BlackScholes.pde o m) (.ok (.num S)) fuel s).1 = .ok (.num y) ∧
          (calculatePrice sc .linear p (.ok S) fuel' s').1 = .ok y' ∧ |y - y'| ≤ ρ := by
  have G0 := hsc.sizes
  obtain ⟨h1, h2, h3, h4⟩ := grid_h G0
  obtain ⟨k1, k2, k3⟩ := grid_k G0
  obtain ⟨m1, m2, m3⟩ := grid_M G0
  have hN1 := G0.levels.1
  obtain ⟨s, v, hs, hg, ht, hsol, hold, hv⟩ := construct_grid (o := o) (m := m) G0 scd junk hv
  obtain ⟨n, hn, hloop⟩ := steps_moderate G0 hs
  have hn0 : 0 < n := by omega
  have hnr : (0 : ℝ) < n := by exact_mod_cast hn0
  have hlast := node_double h1 h2 G0.nodes.2 hg.dx (j := J - 1) (by have := G0.nodes.1; omega)
  rw [grid_last G0] at hlast
  have hτ : ∀ i : ℕ, (i : ℝ) * (T / ((N : ℝ) - 1)) + T / ((N : ℝ) - 1) = ((i + 1 : ℕ) : ℝ) * (T / ((N : ℝ) - 1)) := fun i => by push_cast; ring
  refine ⟨s, v, hs, hv, n, hn, fun q hq hdom hini hb1 hb2 fuel hf p hp junk' s' hs' fuel' hf' => ?_⟩
  have ek : T / ((N : ℝ) - 1) = n * (T / (N - 1)) / (((n + 1 : ℕ) : ℝ) - 1) := by push_cast; rw [add_sub_cancel_right, mul_div_cancel_left₀ _ hnr.ne']
  have hpos : ∀ a : ℝ, 0 < a → 0 ≤ N * (X + K) / a := fun a ha => by positivity
  cases hsc with
  | explicit G =>
    obtain ⟨t1, t2⟩ := total_error G0 (n := n) (e := N * (X + K) / 2 ^ 38) (by omega) le_rfl
    obtain ⟨y, y', e1, e2, e3⟩ := price_double hd hσ' hr' hc' k1 G.rate.1 G.drift G.weights (by rw [abs_of_pos G.vol.1]; exact G.vol.2) G.rate.2
      (k2.trans G.maturity.2) h1 h2 G.nodes.2 hg ht hsol hold hp hq (X := X) (T := n * (T / (N - 1))) (M := X + K) (e := N * (X + K) / 2 ^ 38) (S := S) hn0 rfl
      ek m1 (m2.trans (by norm_num)) t1 (fun j hj => by rw [hini j hj, sub_self, abs_zero]; exact hpos _ (by norm_num))
      (fun j hj => by rw [hini j hj]; exact (hP _ _ (hv j hj)).trans hXK)
      (fun i hi => ((hb1 i (by omega)).1 _ _ hg.dt hlast).1) (fun i hi => (hb1 i (by omega)).2.1)
      (fun i hi => ((hb1 i (by omega)).1 _ _ hg.dt hlast).2) (fun i hi => (hb1 i (by omega)).2.2)
      (hloop fuel hf) (by linarith [G.spot.1]) G.spot.2 hs' hf'
    exact ⟨y, y', e1, e2, e3.trans t2⟩
  | implicit G =>
    obtain ⟨t1, t2⟩ := implicit_total G (n := n) (e := N * (X + K) / 2 ^ 36) (by omega) le_rfl
    obtain ⟨y, y', e1, e2, e3⟩ := implicitPrice_double hd hσ' hr' hc' k1 G.rate.1 G.drift le_rfl G.load (by rw [abs_of_pos G.vol.1]; exact G.vol.2) G.rate.2
      (k2.trans G.maturity.2) h1 h2 G.inner G.nodes.2 hg ht hsol hold hp hq hdom (X := X) (T := n * (T / (N - 1))) (M := 4 * (X + K)) (e := N * (X + K) / 2 ^ 36) (S := S) hn0 rfl
      ek (m1.trans (by linarith)) ((by linarith : 4 * (X + K) ≤ 4 * 2 ^ 20).trans (by norm_num)) t1
      (fun j hj => by rw [hini j hj, sub_self, abs_zero]; exact hpos _ (by norm_num))
      (fun j hj => by rw [hini j hj]; exact (hP _ _ (hv j hj)).trans (by linarith))
      (fun i hi => by rw [hτ]; exact ((hb2 (i + 1) (by omega)).1 _ _ hg.dt hlast).1) (fun i hi => by rw [hτ]; exact (hb2 (i + 1) (by omega)).2.1)
      (fun i hi => by rw [hτ]; exact ((hb2 (i + 1) (by omega)).1 _ _ hg.dt hlast).2) (fun i hi => by rw [hτ]; exact (hb2 (i + 1) (by omega)).2.2)
      (hloop fuel hf) (by linarith [G.spot.1]) G.spot.2 hs' hf'
    exact ⟨y, y', e1, e2, e3.trans t2⟩
  | crankNicolson G =>
    obtain ⟨t1, t2⟩ := cn_total G (n := n) (e := N * (X + K) / 2 ^ 36) (by omega) le_rfl
    obtain ⟨y, y', e1, e2, e3⟩ := cnPrice_double hd hσ' hr' hc' G.rate.1 G.drift (by linarith [G.weights]) (by rw [abs_of_pos G.vol.1]; exact G.vol.2) G.rate.2
      (k2.trans G.maturity.2) h1 h2 G.inner G.nodes.2 k1 hg (construct_b hs) ht hsol hold hp hq hdom (X := X) (T := n * (T / (N - 1))) (M := 4 * (X + K)) (e := N * (X + K) / 2 ^ 36) (S := S) hn0 rfl
      ek (m1.trans (by linarith)) ((by linarith : 4 * (X + K) ≤ 4 * 2 ^ 20).trans (by norm_num)) t1
      (fun j hj => by rw [hini j hj, sub_self, abs_zero]; exact hpos _ (by norm_num))
      (fun j hj => by rw [hini j hj]; exact (hP _ _ (hv j hj)).trans (by linarith))
      (fun i hi => by rw [hτ]; exact ((hb2 (i + 1) (by omega)).1 _ _ hg.dt hlast).1) (fun i hi => by rw [hτ]; exact (hb2 (i + 1) (by omega)).2.1)
      (fun i hi => by rw [hτ]; exact ((hb2 (i + 1) (by omega)).1 _ _ hg.dt hlast).2) (fun i hi => by rw [hτ]; exact (hb2 (i + 1) (by omega)).2.2)
      (hloop fuel hf) (by linarith [G.spot.1]) G.spot.2 hs' hf'
    exact ⟨y, y', e1, e2, e3.trans t2⟩

end

/-! ### The steps -/

theorem abs_softStep (hδ : 0 < δ) (a y : ℝ) : |softStep δ a y| ≤ 1 := by
  rw [abs_of_nonneg (softStep_mem hδ a y).1]; exact (softStep_mem hδ a y).2

/-- The smooth steps for a strike `K`. -/
noncomputable def widePayoff (hδ : 0 < δ) {a : ℝ} (ha : a ≤ K + 5 * δ) :
    SmoothPayoff (softStep δ a) (K + 10 * δ) 1 (1 / δ) (1 / δ / δ) (1 / δ / δ / δ) (1 / δ / δ / δ / δ) := by
  rw [show K + 10 * δ = K + 6 * δ + 4 * δ by ring]
  exact softStepPayoff hδ (by linarith)

theorem wide_gap {T x : ℝ} (hδ : 0 < δ) (hK : 0 < K) (hδK : 20 * δ ≤ K) (hσ : 0 < σ) (hT : 0 < T) (hr : 0 ≤ r) (hx : 0 ≤ x) :
    optionValue (softStep δ (K + 5 * δ)) σ r c T x - optionValue (softStep δ (K - 6 * δ)) σ r c T x ≤ roundedJumpEffect σ T K δ := by
  have hs : 0 < σ * Real.sqrt T := by positivity
  have ha : 0 < K - 10 * δ := by linarith
  refine (value_gap (a := K - 10 * δ) (b := K + 10 * δ) hσ hT hr ha (by linarith) hx (continuous_softStep hδ _).measurable (continuous_softStep hδ _).measurable
    (abs_softStep hδ _) (abs_softStep hδ _)
    (fun y => by linarith [(softStep_mem hδ (K + 5 * δ) y).2, (softStep_mem hδ (K - 6 * δ) y).1]) (fun y hy h => ?_)).trans ?_
  · rcases h with h | h
    · rw [softStep_one hδ (a := K - 6 * δ) (by rw [abs_of_nonneg hy]; linarith)]
      linarith [(softStep_mem hδ (K + 5 * δ) y).2]
    · rw [softStep_zero hδ (a := K + 5 * δ) (by rw [abs_of_nonneg hy]; linarith)]
      linarith [(softStep_mem hδ (K - 6 * δ) y).1]
  · rw [roundedJumpEffect, div_le_div_iff₀ (by positivity) (by positivity)]
    have : (K + 10 * δ - (K - 10 * δ)) * K ≤ 40 * δ * (K - 10 * δ) := by nlinarith
    nlinarith [mul_le_mul_of_nonneg_right this hs.le]

/-- Between the two steps. -/
theorem sharp_between {η z v : ℝ} (hδ : 0 < δ) (hη : η ≤ δ) (hz : 0 ≤ z) (h : Sharp K η z v) : softStep δ (K - 6 * δ) z ≤ v ∧ v ≤ softStep δ (K + 5 * δ) z := by
  obtain ⟨h0, h1, h2⟩ := h
  constructor
  · by_cases hzK : z < K - η
    · rw [h1 hzK]; exact (softStep_mem hδ _ z).2
    · rw [softStep_zero hδ (by rw [abs_of_nonneg hz]; linarith [not_lt.mp hzK])]
      rcases h0 with h | h <;> rw [h] <;> norm_num
  · by_cases hzK : K + η < z
    · rw [h2 hzK]; exact (softStep_mem hδ _ z).1
    · rw [softStep_one hδ (by rw [abs_of_nonneg hz]; linarith [not_lt.mp hzK])]
      rcases h0 with h | h <;> rw [h] <;> norm_num

/-- Values at the nodes of a grid with the step `h`, continued by a function. -/
noncomputable def onNodes (h : ℝ) (J : ℕ) (v : ℕ → ℝ) (g : ℝ → ℝ) (x : ℝ) : ℝ := if x = ⌊x / h⌋₊ * h ∧ ⌊x / h⌋₊ < J then v ⌊x / h⌋₊ else g x

theorem onNodes_node {h : ℝ} (hh : 0 < h) {v : ℕ → ℝ} {g : ℝ → ℝ} {j : ℕ} (hj : j < J) : onNodes h J v g (j * h) = v j := by
  have : ⌊(j : ℝ) * h / h⌋₊ = j := by rw [mul_div_cancel_right₀ _ hh.ne', Nat.floor_natCast]
  rw [onNodes, this, if_pos ⟨rfl, hj⟩]

theorem onNodes_sharp {h η : ℝ} {v : ℕ → ℝ} {g : ℝ → ℝ} (hv : ∀ j < J, Sharp K η (j * h) (v j)) (hg : ∀ x, Sharp K η x (g x)) (x : ℝ) :
    Sharp K η x (onNodes h J v g x) := by
  unfold onNodes
  split_ifs with hx
  · have := hv _ hx.2
    rwa [← hx.1] at this
  · exact hg x

theorem sharp_digitalPut {η : ℝ} (hη : 0 ≤ η) (x : ℝ) : Sharp K η x (digitalPut K x) := by
  unfold digitalPut
  split_ifs with h
  · exact ⟨Or.inr rfl, fun _ => rfl, fun h' => by linarith⟩
  · exact ⟨Or.inl rfl, fun h' => by linarith, fun _ => rfl⟩

theorem sharp_digitalCall {η : ℝ} (hη : 0 ≤ η) (x : ℝ) : Sharp K η x (1 - digitalCall K x) := by
  unfold digitalCall
  split_ifs with h
  · exact ⟨Or.inl (by norm_num), fun h' => by linarith, fun _ => by norm_num⟩
  · exact ⟨Or.inr (by norm_num), fun _ => by norm_num, fun h' => by linarith⟩

theorem roundedError_le {h k X T S BL BR M : ℝ} (hT : 0 ≤ T) (hk : 0 ≤ k) (hM : M ≤ roundedTimeConstant σ r c K δ + r ^ 2) :
    5 / 4 * (roundedJumpEffect σ T K δ + T * truncation h k (σ ^ 2 / 2 * X ^ 2) (|r - c| * X) M (1 / δ / δ / δ * Real.exp ((3 * |r - c| + 3 * σ ^ 2) * T))
      (1 / δ / δ / δ / δ * Real.exp ((4 * |r - c| + 6 * σ ^ 2) * T)) + boundaryEffect σ r c T S X h BL BR) +
      1 / δ / δ * Real.exp ((2 * |r - c| + σ ^ 2) * T) * h ^ 2 / 2 + roundedJumpEffect σ T K δ ≤ roundedDigitalError σ r c T K S X h k δ BL BR := by
  have e : truncation h k (σ ^ 2 / 2 * X ^ 2) (|r - c| * X) M (1 / δ / δ / δ * Real.exp ((3 * |r - c| + 3 * σ ^ 2) * T))
      (1 / δ / δ / δ / δ * Real.exp ((4 * |r - c| + 6 * σ ^ 2) * T)) = M / 2 * k + spaceConstant σ r c T X δ / δ * h ^ 2 := by
    rw [truncation, spaceConstant]; ring
  have m : M / 2 * k ≤ (roundedTimeConstant σ r c K δ + r ^ 2) / 2 * k := mul_le_mul_of_nonneg_right (by linarith) hk
  have := mul_le_mul_of_nonneg_left (add_le_add_left m (spaceConstant σ r c T X δ / δ * h ^ 2)) hT
  rw [e, roundedDigitalError]
  linarith

/-! ### The boundary values -/

section
variable {o : OptObj (Dbl .binary64)} {m : Market (Dbl .binary64)}

theorem digital_put_boundary (G : GridSizes σ r c K S T X J N) (ho : o.payoff = .digital .put (.num K)) {ini : ℝ → ℝ} {e M : ℝ} (he : 0 ≤ e) (hM : K ≤ M) (i : ℕ) :
    BoundaryNear o m { putProblem σ r c K with initial := ini } T X J N e M i := by
  have hK := G.strike.1
  refine ⟨fun dt dx _ _ => ⟨⟨K, ?_, ?_⟩, ⟨0, ?_, ?_⟩⟩, ?_, ?_⟩
  · simp [BlackScholes.pde, BlackScholes.boundaryLeft, BlackScholes.strike, Payoff.clone, Payoff.payoffType, ho]
  · simpa [putProblem] using he
  · simp [BlackScholes.pde, BlackScholes.boundaryRight, BlackScholes.strike, Payoff.clone, Payoff.payoffType, ho]
  · simpa [putProblem] using he
  · simpa [putProblem, abs_of_pos hK] using hM
  · simpa [putProblem] using hK.le.trans hM

theorem digital_call_boundary (ho : o.payoff = .digital .call (.num K)) (hr' : m.r = .num r) (hT' : o.T = .num T) {ini : ℝ → ℝ} {e M : ℝ}
    (he : 0 ≤ e) (hM : 0 ≤ M) {i : ℕ}
    (h : ∀ dt x : Dbl .binary64, Nr 0 1 (T / ((N : ℝ) - 1)) dt (T / ((N : ℝ) - 1)) → Nr 1 2 X x X → ∃ y : ℝ, x - .num K * Fl.exp (-.num r * (.num T - times dt i)) = .num y ∧
      |y - (X - K * Real.exp (-r * (T - i * (T / ((N : ℝ) - 1)))))| ≤ e) (hs : |X - K * Real.exp (-r * (T - i * (T / ((N : ℝ) - 1))))| ≤ M) :
    BoundaryNear o m { callProblem σ r c K T with initial := ini } T X J N e M i := by
  refine ⟨fun dt dx hdt hx => ⟨⟨0, ?_, ?_⟩, ?_⟩, ?_, hs⟩
  · simp [BlackScholes.pde, BlackScholes.boundaryLeft, BlackScholes.strike, Payoff.clone, Payoff.payoffType, ho]
  · simpa [callProblem] using he
  · obtain ⟨y, e1, e2⟩ := h dt _ hdt hx
    refine ⟨y, ?_, e2⟩
    rw [← e1]
    simp [BlackScholes.pde, BlackScholes.boundaryRight, BlackScholes.strike, Payoff.clone, Payoff.payoffType, ho, hr', hT']
  · simpa [callProblem] using hM

end

end Fdm

open Fdm

section
variable (o : OptObj (Dbl .binary64)) (m : Market (Dbl .binary64)) (d : StockData (Dbl .binary64)) (hd : BlackScholes.stock o m = .ok d)
  (σ r c K S T X : ℝ) (J N : ℕ) (hσ : d.sigma = .num σ) (hr : m.r = .num r) (hc : d.coupon.getD (lit 0) = .num c) (hS : d.price = .num S) (hT : o.T = .num T)
  (scd : Scheme (Dbl .binary64)) (sc : Scheme ℝ) (ρ : ℝ) (hsc : ModerateScheme σ r c K S T X J N scd sc ρ) (hJ : 4 ≤ J) (hXK : 1 ≤ X + K)
  (junk : ℕ → Dbl .binary64) (δ : ℝ) (hδ : (X + K) / 2 ^ 49 ≤ δ) (hδK : 20 * δ ≤ K)
include hd hσ hr hc hS hT hsc hJ hXK hδ hδK

/-- **C96.** A digital put in double precision, by any of the three schemes with linear interpolation: `calculatePrice()` returns a number within `roundedDigitalError` plus the rounding bound of the
scheme of the discounted probability of ending below the strike, for the maturity at which the computed time loop ends: `T`, or one time step later. A node next to
the strike may get the payoff of the other side, because the node is rounded. -/
theorem C96_put (ho : o.payoff = .digital .put (.num K)) :
    ∃ s, construct scd (.num X) J o.T N (BlackScholes.pde o m) junk = .ok s ∧ ∃ T', (T' = T ∨ T' = T + T / (N - 1)) ∧ ∀ fuel, N < fuel → ∃ y : ℝ,
      (calculatePrice scd .linear (BlackScholes.pde o m) (FdmWorld.spot o m) fuel s).1 = .ok (.num y) ∧
      |y - Real.exp (-(r * T')) * (1 - exceedance S σ r c T' K)| ≤ roundedDigitalError σ r c T' K S X (X / (J - 1)) (T / (N - 1)) δ (K + 1) 1 + ρ := by
  have G := hsc.sizes
  obtain ⟨h1, h2, h3, h4⟩ := grid_h G
  obtain ⟨k1, k2, k3⟩ := grid_k G
  obtain ⟨m1, m2, m3⟩ := grid_M G
  have hN := G.levels.1
  have hX : 0 < X := lt_of_lt_of_le (by norm_num) G.width.1
  have hK := G.strike.1
  have hr0 := G.rate.1
  have hS0 : 0 < S := by linarith [G.spot.1]
  have hvol := G.vol.1
  have hN2 : (N : ℝ) - 1 ≠ 0 := by
    have : (2 : ℝ) ≤ N := by exact_mod_cast hN
    linarith
  have hη : 0 ≤ (X + K) / 2 ^ 49 := by positivity
  have hδ0 : 0 < δ := lt_of_lt_of_le (by positivity) hδ
  obtain ⟨s, v, hs, hv, n, hn, h⟩ := digital_run hd hσ hr hc hsc hXK (P := fun j v => Sharp K ((X + K) / 2 ^ 49) (j * (X / ((J : ℝ) - 1))) v)
    (fun j v hv => by rcases hv.1 with h | h <;> rw [h] <;> norm_num)
    (fun j hj x hx => by
      obtain ⟨y, e, hy⟩ := node_error G hj hx
      obtain ⟨v, e1, e2⟩ := digital_put_node (K := K) hy
      exact ⟨v, by rw [e]; simpa [BlackScholes.pde, ho] using e1, e2⟩) junk
  have hn0 : 0 < n := by omega
  have hnr : (0 : ℝ) < n := by exact_mod_cast hn0
  have hTn : 0 < n * (T / ((N : ℝ) - 1)) := mul_pos hnr k1
  have ek : n * (T / ((N : ℝ) - 1)) / (((n + 1 : ℕ) : ℝ) - 1) = T / ((N : ℝ) - 1) := by
    push_cast
    rw [add_sub_cancel_right, mul_div_cancel_left₀ _ hnr.ne']
  have hini : ∀ x, Sharp K ((X + K) / 2 ^ 49) x (onNodes (X / ((J : ℝ) - 1)) J v (digitalPut K) x) := onNodes_sharp hv (sharp_digitalPut hη)
  set ini := onNodes (X / ((J : ℝ) - 1)) J v (digitalPut K) with eini
  set T' := n * (T / ((N : ℝ) - 1)) with eT'
  have hb : ∀ t, 0 ≤ t → ∀ a x, portfolio (softStep δ a) σ r c 0 0 t x ∈ Set.Icc 0 1 := fun t ht a x => by
    simpa [portfolio] using step_value (σ := σ) (c := c) (x := x) (softStep_mem hδ0 a) hr0 ht
  have pz : ∀ (g : ℝ → ℝ) t x, portfolio g σ r c 0 0 t x = optionValue g σ r c t x := fun g t x => by simp [portfolio]
  have gap : ∀ x, 0 ≤ x → optionValue (softStep δ (K + 5 * δ)) σ r c T' x - optionValue (softStep δ (K - 6 * δ)) σ r c T' x ≤ roundedJumpEffect σ T' K δ :=
    fun x hx => wide_gap hδ0 hK hδK G.vol.1 hTn hr0 hx
  have hb1 : ∀ u v : ℝ, u ∈ Set.Icc 0 1 → v ∈ Set.Icc 0 1 → |K - u| ≤ K + 1 ∧ |0 - v| ≤ 1 := fun u v hu hv =>
    ⟨abs_le.mpr ⟨by linarith [hu.2], by linarith [hu.1]⟩, abs_le.mpr ⟨by linarith [hv.2], by linarith [hv.1]⟩⟩
  have hb0 : ∀ u v : ℝ, u ∈ Set.Icc 0 1 → v ∈ Set.Icc 0 1 → |u| ≤ K + 1 ∧ |v| ≤ 1 := fun u v hu hv =>
    ⟨abs_le.mpr ⟨by linarith [hu.1], by linarith [hu.2]⟩, abs_le.mpr ⟨by linarith [hv.1], by linarith [hv.2]⟩⟩
  have hq : BlackScholesCoefficients { putProblem σ r c K with initial := ini } σ r c := ⟨fun _ _ => rfl, fun _ _ => rfl, fun _ _ => rfl, fun _ _ => rfl⟩
  have hdom : DiffusionDominates { putProblem σ r c K with initial := ini } J (X / (J - 1)) := put_dominates (K := K) G.drift hr0 J h3.le
  obtain ⟨s', hs', hy'⟩ := sandwich_price (A := 0) (B := 0) (BL := K + 1) (BR := 1) (Γ := roundedJumpEffect σ T' K δ) (N := n + 1) (valuesPde_describes _)
    (q := { putProblem σ r c K with initial := ini }) hq hr0 hX hTn hdom (by rw [ek]; exact G.step)
    (widePayoff (K := K) hδ0 (a := K - 6 * δ) (by linarith)) (widePayoff (K := K) hδ0 (a := K + 5 * δ) le_rfl) (by positivity)
    (fun x hx => by
      change portfolio (softStep δ (K - 6 * δ)) σ r c 0 0 0 x ≤ ini x ∧ ini x ≤ portfolio (softStep δ (K + 5 * δ)) σ r c 0 0 0 x
      rw [pz, pz, optionValue_zero, optionValue_zero]
      exact sharp_between hδ0 hδ hx (hini x))
    (fun t ht => hb0 _ _ (hb t ht.1 _ 0) (hb t ht.1 _ X)) (fun t ht => hb0 _ _ (hb t ht.1 _ 0) (hb t ht.1 _ X))
    (fun t _ t' ht' => hb1 _ _ (hb t' ht'.1 _ 0) (hb t' ht'.1 _ X)) (fun t _ t' ht' => hb1 _ _ (hb t' ht'.1 _ 0) (hb t' ht'.1 _ X))
    (fun x hx => by
      rw [pz, pz]
      exact gap x hx)
    .linear hJ (G.nodes.2.trans (by norm_num)) (by omega) (by rw [ek]; exact hsc.stable) (by rw [roundedJumpEffect]; positivity) (fun _ => 0) hS0 (by linarith [G.spot.2]) G.spot.1
  refine ⟨s, by rw [hT]; exact hs, T', end_time hN hn, fun fuel hf => ?_⟩
  obtain ⟨y, y', e1, e2, e3⟩ := h _ hq hdom (fun j hj => onNodes_node h3 hj) (fun i _ => digital_put_boundary G ho (by positivity) (by linarith) i)
    (fun i _ => digital_put_boundary G ho (by positivity) (by linarith) i) fuel hf _ (valuesPde_describes _) _ s' hs' (n + 1) le_rfl
  obtain ⟨z, z1, z2⟩ := hy' (n + 1) le_rfl
  obtain rfl : y' = z := Res.ok.inj (e2.symm.trans z1)
  refine ⟨y, by rw [show FdmWorld.spot o m = .ok (.num S) by rw [FdmWorld.spot, hd, Res.bind_ok, hS]; rfl]; exact e1, ?_⟩
  rw [ek, pz] at z2
  rw [← value_digitalPut hS0 G.vol.1 hTn hK]
  have le := roundedError_le (σ := σ) (r := r) (c := c) (K := K) (δ := δ) (S := S) (BL := K + 1) (BR := 1) (X := X) (h := X / (J - 1)) (k := T / (N - 1)) (M := roundedTimeConstant σ r c K δ + |(0 : ℝ)| * X * c ^ 2 *
    Real.exp (|c| * T') + |(0 : ℝ)| * r ^ 2) hTn.le k1.le (by rw [abs_zero]; nlinarith [sq_nonneg r])
  have ms : ∀ a, Measurable (softStep δ a) := fun a => (continuous_softStep hδ0 a).measurable
  have lo := optionValue_mono (σ := σ) (r := r) (c := c) (T := T') hS0.le (ms (K - 6 * δ)) (measurable_digitalPut K) (abs_softStep hδ0 _)
    abs_digitalPut (fun y hy => (sharp_between hδ0 hδ hy (sharp_digitalPut hη y)).1)
  have hi := optionValue_mono (σ := σ) (r := r) (c := c) (T := T') hS0.le (measurable_digitalPut K) (ms (K + 5 * δ)) abs_digitalPut
    (abs_softStep hδ0 _) (fun y hy => (sharp_between hδ0 hδ hy (sharp_digitalPut hη y)).2)
  have g := gap S hS0.le
  have a1 := abs_sub_le y y' (optionValue (digitalPut K) σ r c T' S)
  have a2 := abs_sub_le y' (optionValue (softStep δ (K - 6 * δ)) σ r c T' S) (optionValue (digitalPut K) σ r c T' S)
  have a3 : |optionValue (softStep δ (K - 6 * δ)) σ r c T' S - optionValue (digitalPut K) σ r c T' S| ≤ roundedJumpEffect σ T' K δ := by
    rw [abs_le]
    constructor <;> linarith
  rw [roundedTimeConstant] at le
  linarith

/-- **C96.** A digital call in double precision. -/
theorem C96_call (ho : o.payoff = .digital .call (.num K)) (hrk : r * (T / (N - 1)) ≤ 1) :
    ∃ s, construct scd (.num X) J o.T N (BlackScholes.pde o m) junk = .ok s ∧ ∃ T', (T' = T ∨ T' = T + T / (N - 1)) ∧ ∀ fuel, N < fuel → ∃ y : ℝ,
      (calculatePrice scd .linear (BlackScholes.pde o m) (FdmWorld.spot o m) fuel s).1 = .ok (.num y) ∧
      |y - Real.exp (-(r * T')) * exceedance S σ r c T' K| ≤ roundedDigitalError σ r c T' K S X (X / (J - 1)) (T / (N - 1)) δ 1 (X + (3 * K + 1)) + ρ := by
  have G := hsc.sizes
  obtain ⟨h1, h2, h3, h4⟩ := grid_h G
  obtain ⟨k1, k2, k3⟩ := grid_k G
  obtain ⟨m1, m2, m3⟩ := grid_M G
  have hN := G.levels.1
  have hX : 0 < X := lt_of_lt_of_le (by norm_num) G.width.1
  have hK := G.strike.1
  have hr0 := G.rate.1
  have hS0 : 0 < S := by linarith [G.spot.1]
  have hvol := G.vol.1
  have hN2 : (N : ℝ) - 1 ≠ 0 := by
    have : (2 : ℝ) ≤ N := by exact_mod_cast hN
    linarith
  have hη : 0 ≤ (X + K) / 2 ^ 49 := by positivity
  have hδ0 : 0 < δ := lt_of_lt_of_le (by positivity) hδ
  obtain ⟨s, v, hs, hv, n, hn, h⟩ := digital_run hd hσ hr hc hsc hXK (P := fun j v => Sharp K ((X + K) / 2 ^ 49) (j * (X / ((J : ℝ) - 1))) (1 - v))
    (fun j v hv => by
      rcases hv.1 with h | h
      · rw [show v = 1 by linarith]; norm_num
      · rw [show v = 0 by linarith]; norm_num)
    (fun j hj x hx => by
      obtain ⟨y, e, hy⟩ := node_error G hj hx
      obtain ⟨v, e1, e2⟩ := digital_call_node (K := K) hy
      exact ⟨v, by rw [e]; simpa [BlackScholes.pde, ho] using e1, e2⟩) junk
  have hn0 : 0 < n := by omega
  have hnr : (0 : ℝ) < n := by exact_mod_cast hn0
  have hTn : 0 < n * (T / ((N : ℝ) - 1)) := mul_pos hnr k1
  have ek : n * (T / ((N : ℝ) - 1)) / (((n + 1 : ℕ) : ℝ) - 1) = T / ((N : ℝ) - 1) := by
    push_cast
    rw [add_sub_cancel_right, mul_div_cancel_left₀ _ hnr.ne']
  have hini' : ∀ x, Sharp K ((X + K) / 2 ^ 49) x (onNodes (X / ((J : ℝ) - 1)) J (fun j => 1 - v j) (fun x => 1 - digitalCall K x) x) := onNodes_sharp hv (sharp_digitalCall hη)
  have hini : ∀ x, Sharp K ((X + K) / 2 ^ 49) x (1 - onNodes (X / ((J : ℝ) - 1)) J v (digitalCall K) x) := fun x => by
    have := hini' x
    unfold onNodes at this ⊢
    split_ifs at this ⊢ <;> exact this
  set ini := onNodes (X / ((J : ℝ) - 1)) J v (digitalCall K) with eini
  set T' := n * (T / ((N : ℝ) - 1)) with eT'
  have pv : ∀ (g : ℝ → ℝ) t x, portfolio (fun y => -g y) σ r c 0 1 t x = Real.exp (-r * t) - optionValue g σ r c t x := fun g t x => by
    rw [portfolio, optionValue_neg]; ring
  have hexp : ∀ t, 0 ≤ t → 0 ≤ Real.exp (-r * t) ∧ Real.exp (-r * t) ≤ 1 := fun t ht =>
    ⟨(Real.exp_pos _).le, Real.exp_le_one_iff.mpr (by nlinarith [mul_nonneg hr0 ht])⟩
  have hb : ∀ t, 0 ≤ t → ∀ a x, |portfolio (fun y => -softStep δ a y) σ r c 0 1 t x| ≤ 1 := fun t ht a x => by
    have := step_value (σ := σ) (c := c) (x := x) (softStep_mem hδ0 a) hr0 ht
    rw [pv, abs_le]
    constructor <;> linarith [this.1, this.2, (hexp t ht).1, (hexp t ht).2]
  have gap : ∀ x, 0 ≤ x → optionValue (softStep δ (K + 5 * δ)) σ r c T' x - optionValue (softStep δ (K - 6 * δ)) σ r c T' x ≤ roundedJumpEffect σ T' K δ :=
    fun x hx => wide_gap hδ0 hK hδK G.vol.1 hTn hr0 hx
  have hb0 : ∀ u v : ℝ, |u| ≤ 1 → |v| ≤ 1 → |u| ≤ 1 ∧ |v| ≤ X + (3 * K + 1) := fun u v hu hv => ⟨hu, hv.trans (by linarith)⟩
  have hb1 : ∀ t ∈ Set.Icc 0 T', ∀ u v : ℝ, |u| ≤ 1 → |v| ≤ 1 → |0 - u| ≤ 1 ∧ |X - K * Real.exp (-r * (T - t)) - v| ≤ X + (3 * K + 1) := fun t ht u v hu hv => by
    have hE : Real.exp (-r * (T - t)) ≤ 3 := by
      refine (Real.exp_le_exp.mpr (?_ : -r * (T - t) ≤ 1)).trans (Real.exp_one_lt_d9.le.trans (by norm_num))
      have h1 : t ≤ T + T / (N - 1) := by rcases end_time (T := T) hN hn with e | e <;> linarith [ht.2]
      have := mul_le_mul_of_nonneg_left h1 hr0
      linarith
    have m0 := mul_nonneg hK.le (Real.exp_pos (-r * (T - t))).le
    have m1 := mul_le_mul_of_nonneg_left hE hK.le
    rw [zero_sub, abs_neg]
    refine ⟨hu, abs_le.mpr ⟨?_, ?_⟩⟩ <;> linarith [(abs_le.mp hv).1, (abs_le.mp hv).2]
  have hq : BlackScholesCoefficients { callProblem σ r c K T with initial := ini } σ r c := ⟨fun _ _ => rfl, fun _ _ => rfl, fun _ _ => rfl, fun _ _ => rfl⟩
  have hdom : DiffusionDominates { callProblem σ r c K T with initial := ini } J (X / (J - 1)) := call_dominates (K := K) (T := T) G.drift hr0 J h3.le
  obtain ⟨s', hs', hy'⟩ := sandwich_price (A := 0) (B := 1) (BL := 1) (BR := X + (3 * K + 1)) (Γ := roundedJumpEffect σ T' K δ) (N := n + 1) (valuesPde_describes _)
    (q := { callProblem σ r c K T with initial := ini }) hq hr0 hX hTn hdom (by rw [ek]; exact G.step)
    (negPayoff (widePayoff (K := K) hδ0 (a := K + 5 * δ) le_rfl)) (negPayoff (widePayoff (K := K) hδ0 (a := K - 6 * δ) (by linarith))) (by positivity)
    (fun x hx => by
      change portfolio (fun y => -softStep δ (K + 5 * δ) y) σ r c 0 1 0 x ≤ ini x ∧ ini x ≤ portfolio (fun y => -softStep δ (K - 6 * δ) y) σ r c 0 1 0 x
      rw [pv, pv, optionValue_zero, optionValue_zero, mul_zero, Real.exp_zero]
      obtain ⟨a, b⟩ := sharp_between hδ0 hδ hx (hini x)
      exact ⟨by linarith, by linarith⟩)
    (fun t ht => hb0 _ _ (hb t ht.1 _ 0) (hb t ht.1 _ X)) (fun t ht => hb0 _ _ (hb t ht.1 _ 0) (hb t ht.1 _ X))
    (fun t ht t' ht' => hb1 t ht _ _ (hb t' ht'.1 _ 0) (hb t' ht'.1 _ X)) (fun t ht t' ht' => hb1 t ht _ _ (hb t' ht'.1 _ 0) (hb t' ht'.1 _ X))
    (fun x hx => by
      rw [pv, pv]
      linarith [gap x hx])
    .linear hJ (G.nodes.2.trans (by norm_num)) (by omega) (by rw [ek]; exact hsc.stable) (by rw [roundedJumpEffect]; positivity) (fun _ => 0) hS0 (by linarith [G.spot.2]) G.spot.1
  refine ⟨s, by rw [hT]; exact hs, T', end_time hN hn, fun fuel hf => ?_⟩
  have hsize : ∀ i < N, |X - K * Real.exp (-r * (T - i * (T / ((N : ℝ) - 1))))| ≤ X + K := fun i hi => by
    have e0 : 0 ≤ T - i * (T / ((N : ℝ) - 1)) := by
      have e1 : (i : ℝ) ≤ N - 1 := by
        have : (i : ℝ) + 1 ≤ N := by exact_mod_cast hi
        linarith
      have e2 := mul_le_mul_of_nonneg_right e1 k1.le
      have e3 : ((N : ℝ) - 1) * (T / (N - 1)) = T := mul_div_cancel₀ _ hN2
      linarith
    obtain ⟨e1, e2⟩ := hexp _ e0
    have m0 := mul_nonneg hK.le e1
    have m1 := mul_le_mul_of_nonneg_left e2 hK.le
    rw [abs_le]
    constructor <;> linarith
  have hsize' : ∀ i ≤ N, |X - K * Real.exp (-r * (T - i * (T / ((N : ℝ) - 1))))| ≤ 4 * (X + K) := fun i hi => by
    have hE : Real.exp (-r * (T - i * (T / ((N : ℝ) - 1)))) ≤ 3 := by
      refine (Real.exp_le_exp.mpr (?_ : -r * (T - i * (T / ((N : ℝ) - 1))) ≤ 1)).trans (Real.exp_one_lt_d9.le.trans (by norm_num))
      have h1 : i * (T / ((N : ℝ) - 1)) ≤ T + T / (N - 1) := by
        have e1 : (i : ℝ) ≤ N - 1 + 1 := by
          have : (i : ℝ) ≤ N := by exact_mod_cast hi
          linarith
        have e2 := mul_le_mul_of_nonneg_right e1 k1.le
        have e3 : ((N : ℝ) - 1) * (T / (N - 1)) = T := mul_div_cancel₀ _ hN2
        linarith
      have := mul_le_mul_of_nonneg_left h1 hr0
      linarith
    have m0 := mul_nonneg hK.le (Real.exp_pos (-r * (T - i * (T / ((N : ℝ) - 1))))).le
    have m1 := mul_le_mul_of_nonneg_left hE hK.le
    rw [abs_le]
    constructor <;> linarith
  obtain ⟨y, y', e1, e2, e3⟩ := h _ hq hdom (fun j hj => onNodes_node h3 hj)
    (fun i hi => digital_call_boundary ho hr hT (by positivity) (by positivity)
      (fun dt x hdt hx => (right_error G hdt hx hi).imp fun y hy => ⟨hy.1, hy.2.1⟩) (hsize i hi))
    (fun i hi => digital_call_boundary ho hr hT (by positivity) (by positivity)
      (fun dt x hdt hx => (right_late hrk G hdt hx hi).imp fun y hy => ⟨hy.1, hy.2.1⟩) (hsize' i hi)) fuel hf _ (valuesPde_describes _) _ s' hs' (n + 1) le_rfl
  obtain ⟨z, z1, z2⟩ := hy' (n + 1) le_rfl
  obtain rfl : y' = z := Res.ok.inj (e2.symm.trans z1)
  refine ⟨y, by rw [show FdmWorld.spot o m = .ok (.num S) by rw [FdmWorld.spot, hd, Res.bind_ok, hS]; rfl]; exact e1, ?_⟩
  rw [ek, pv] at z2
  rw [← value_digitalCall hS0 G.vol.1 hTn hK]
  have le := roundedError_le (σ := σ) (r := r) (c := c) (K := K) (δ := δ) (S := S) (BL := 1) (BR := X + (3 * K + 1)) (X := X) (h := X / (J - 1)) (k := T / (N - 1)) (M := roundedTimeConstant σ r c K δ + |(0 : ℝ)| * X * c ^ 2 *
    Real.exp (|c| * T') + |(1 : ℝ)| * r ^ 2) hTn.le k1.le (by rw [abs_zero, abs_one]; linarith)
  have mc : Measurable fun y => 1 - digitalCall K y := measurable_const.sub (measurable_digitalCall K)
  have bc : ∀ y, |1 - digitalCall K y| ≤ 1 := fun y => by unfold digitalCall; split_ifs <;> norm_num
  have sp : optionValue (fun y => 1 - digitalCall K y) σ r c T' S = Real.exp (-r * T') - optionValue (digitalCall K) σ r c T' S := by
    have i : Integrable (fun z => digitalCall K (terminalPrice σ r c T' S z)) (gaussianReal 0 1) :=
      Integrable.of_bound ((measurable_digitalCall K).comp (continuous_terminalPrice S).measurable).aestronglyMeasurable 1 (ae_of_all _ fun z => abs_digitalCall _)
    rw [optionValue, integral_sub (integrable_const _) i, optionValue]
    simp [mul_sub]
  have ms : ∀ a, Measurable (softStep δ a) := fun a => (continuous_softStep hδ0 a).measurable
  have lo := optionValue_mono (σ := σ) (r := r) (c := c) (T := T') hS0.le (ms (K - 6 * δ)) mc (abs_softStep hδ0 _)
    bc (fun y hy => (sharp_between hδ0 hδ hy (sharp_digitalCall hη y)).1)
  have hi := optionValue_mono (σ := σ) (r := r) (c := c) (T := T') hS0.le mc (ms (K + 5 * δ)) bc
    (abs_softStep hδ0 _) (fun y hy => (sharp_between hδ0 hδ hy (sharp_digitalCall hη y)).2)
  have g := gap S hS0.le
  rw [sp] at lo hi
  have a1 := abs_sub_le y y' (optionValue (digitalCall K) σ r c T' S)
  have a2 := abs_sub_le y' (Real.exp (-r * T') - optionValue (softStep δ (K + 5 * δ)) σ r c T' S) (optionValue (digitalCall K) σ r c T' S)
  have a3 : |Real.exp (-r * T') - optionValue (softStep δ (K + 5 * δ)) σ r c T' S - optionValue (digitalCall K) σ r c T' S| ≤ roundedJumpEffect σ T' K δ := by
    rw [abs_le]
    constructor <;> linarith
  rw [roundedTimeConstant] at le
  linarith

end

namespace FdmDoubleExample

/-- A digital option with strike 100 and one year to maturity. -/
def digitalOption (ty : PayoffType) : OptObj (Dbl .binary64) := ⟨.european, "A", .digital ty (.num ((100 : ℝ) : EReal)), .num ((1 : ℝ) : EReal), none⟩

theorem digitalStock (ty : PayoffType) : BlackScholes.stock (digitalOption ty) market = .ok ⟨.num ((100 : ℝ) : EReal), .num ((1 / 4 : ℝ) : EReal), none⟩ := rfl

/-- The hypotheses are met by 101 nodes on `[0, 500]` and 1001 time levels for explicit Euler; the strike is a node. -/
example : ∃ s, construct .explicit (.num ((500 : ℝ) : EReal)) 101 (digitalOption .put).T 1001 (BlackScholes.pde (digitalOption .put) market) (fun _ => lit 0) = .ok s ∧
    ∃ T' : ℝ, (T' = 1 ∨ T' = 1 + 1 / ((1001 : ℕ) - 1)) ∧ ∀ fuel, 1001 < fuel → ∃ y : ℝ,
      (calculatePrice .explicit .linear (BlackScholes.pde (digitalOption .put) market) (FdmWorld.spot (digitalOption .put) market) fuel s).1 = .ok (.num y) ∧
      |y - Real.exp (-(1 / 16 * T')) * (1 - exceedance 100 (1 / 4) (1 / 16) 0 T' 100)| ≤
        roundedDigitalError (1 / 4) (1 / 16) 0 T' 100 100 500 (500 / ((101 : ℕ) - 1)) (1 / ((1001 : ℕ) - 1)) (1 / 10) (100 + 1) 1 + fdmRounding 100 500 101 1001 :=
  C96_put (digitalOption .put) market _ (digitalStock _) (1 / 4) (1 / 16) 0 100 100 1 500 101 1001 rfl rfl Dbl.lit_zero rfl rfl _ _ _ (.explicit grid) (by norm_num) (by norm_num) _
    (1 / 10) (by norm_num) (by norm_num) rfl

/-- The same for implicit Euler with 21 time levels. -/
example : ∃ s, construct (.implicit thomas) (.num ((500 : ℝ) : EReal)) 101 (digitalOption .put).T 21 (BlackScholes.pde (digitalOption .put) market) (fun _ => lit 0) = .ok s ∧
    ∃ T' : ℝ, (T' = 1 ∨ T' = 1 + 1 / ((21 : ℕ) - 1)) ∧ ∀ fuel, 21 < fuel → ∃ y : ℝ,
      (calculatePrice (.implicit thomas) .linear (BlackScholes.pde (digitalOption .put) market) (FdmWorld.spot (digitalOption .put) market) fuel s).1 = .ok (.num y) ∧
      |y - Real.exp (-(1 / 16 * T')) * (1 - exceedance 100 (1 / 4) (1 / 16) 0 T' 100)| ≤
        roundedDigitalError (1 / 4) (1 / 16) 0 T' 100 100 500 (500 / ((101 : ℕ) - 1)) (1 / ((21 : ℕ) - 1)) 1 (100 + 1) 1 + implicitRounding (1 / 4) (1 / 16) 100 1 500 101 21 :=
  C96_put (digitalOption .put) market _ (digitalStock _) (1 / 4) (1 / 16) 0 100 100 1 500 101 21 rfl rfl Dbl.lit_zero rfl rfl _ _ _ (.implicit implicitGrid) (by norm_num) (by norm_num) _
    1 (by norm_num) (by norm_num) rfl

/-- A digital call by Crank-Nicolson. -/
example : ∃ s, construct (.crankNicolson thomas) (.num ((500 : ℝ) : EReal)) 101 (digitalOption .call).T 501 (BlackScholes.pde (digitalOption .call) market) (fun _ => lit 0) = .ok s ∧
    ∃ T' : ℝ, (T' = 1 ∨ T' = 1 + 1 / ((501 : ℕ) - 1)) ∧ ∀ fuel, 501 < fuel → ∃ y : ℝ,
      (calculatePrice (.crankNicolson thomas) .linear (BlackScholes.pde (digitalOption .call) market) (FdmWorld.spot (digitalOption .call) market) fuel s).1 = .ok (.num y) ∧
      |y - Real.exp (-(1 / 16 * T')) * exceedance 100 (1 / 4) (1 / 16) 0 T' 100| ≤
        roundedDigitalError (1 / 4) (1 / 16) 0 T' 100 100 500 (500 / ((101 : ℕ) - 1)) (1 / ((501 : ℕ) - 1)) 1 1 (500 + (3 * 100 + 1)) + cnRounding 100 500 101 501 :=
  C96_call (digitalOption .call) market _ (digitalStock _) (1 / 4) (1 / 16) 0 100 100 1 500 101 501 rfl rfl Dbl.lit_zero rfl rfl _ _ _ (.crankNicolson cnGrid) (by norm_num) (by norm_num) _
    1 (by norm_num) (by norm_num) rfl (by norm_num)

end FdmDoubleExample
end Verif
