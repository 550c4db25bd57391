import Verif.Spec.QuasiDoubleSpec
import Verif.Props.QuantileDouble
import Verif.Props.PathDependentError
import Verif.Props.DoubleSession
import Verif.Props.PathSession
import Verif.Spec.ClosedFormSpec
import Verif.Lemmas.Koksma

/-!
# Property C95: quasi Monte Carlo prices in double precision
-/

set_option exponentiation.threshold 3000

namespace Verif
open Spec ProbabilityTheory MeasureTheory Set

/-! ## The normal numbers -/

section
variable {Q : Type} {q : Quasi.Sequence Q (Dbl .binary64)} {c : ℝ}

theorem score_double {u : ℝ} (h0 : 2 ^ (-64 : ℤ) ≤ u) (h1 : u ≤ 1 - 2 ^ (-53 : ℤ)) :
    ∃ z : ℝ, ∀ p : ℝ, p / c = u → moroInvCdf (.num p / .num c : Dbl .binary64) = .ok (.num z) ∧ |cdf (gaussianReal 0 1) z - u| ≤ 7 / 10000000000 ∧ |z| ≤ 10 := by
  have h0' : (2 : ℝ) ^ (-900 : ℤ) ≤ u := (zpow_le_zpow_right₀ (by norm_num) (by norm_num)).trans h0
  have hu : 0 < u := lt_of_lt_of_le (by positivity) h0
  obtain ⟨x, ex, hx, hx0, hx1, bx⟩ := quotient_double h0' h1
  obtain ⟨z, e, b, -, d⟩ := quantile_double hx hx0 hx1
  refine ⟨z, fun p hp => ⟨?_, ?_, d ?_⟩⟩
  · have hc : c ≠ 0 := by
      rintro rfl
      rw [div_zero] at hp
      exact hu.ne hp
    rw [Dbl.div_coe _ hc, hp, ex, e]
  · have := abs_sub_le (cdf (gaussianReal 0 1) z) x u
    change |cdf (gaussianReal 0 1) z - x| ≤ _ at b
    linarith
  · obtain ⟨y, ey, by'⟩ := binary64_close (x := u) (by rw [abs_of_pos hu]; exact (h1.trans (by norm_num : (1 : ℝ) - 2 ^ (-53 : ℤ) ≤ 1)).trans (one_le_zpow₀ (by norm_num) (by norm_num)))
    rw [ex, EReal.coe_eq_coe_iff] at ey
    subst ey
    rw [abs_of_pos hu] at by'
    have n1 : (2 : ℝ) ^ (-1075 : ℤ) ≤ 1 / 8 * 2 ^ (-64 : ℤ) := by
      rw [show (2 : ℝ) ^ (-1075 : ℤ) = 2 ^ (-1011 : ℤ) * 2 ^ (-64 : ℤ) by rw [← zpow_add₀ (by norm_num)]; norm_num]
      gcongr
      exact (zpow_le_zpow_right₀ (by norm_num) (by norm_num : (-1011 : ℤ) ≤ -3)).trans (by norm_num)
    have n2 : (2 : ℝ) ^ (-53 : ℤ) * u ≤ 1 / 8 * u := by gcongr; norm_num
    have n3 : (2 : ℝ) ^ (-65 : ℤ) = 1 / 2 * 2 ^ (-64 : ℤ) := by norm_num
    obtain ⟨b1, b2⟩ := abs_le.mp by'
    rw [n3]
    generalize (2 : ℝ) ^ (-53 : ℤ) * u = e at *
    generalize (2 : ℝ) ^ (-1075 : ℤ) = t at *
    generalize (2 : ℝ) ^ (-64 : ℤ) = w at *
    linarith

theorem serves_draws {cs rest : List (Dbl .binary64)} {zs : List ℝ} (h : List.Forall₂ (fun c z => moroInvCdf (c / q.scale) = .ok (.num (z : ℝ))) cs zs) :
    ∀ {st : Quasi.State Q (Dbl .binary64)}, Quasi.Serves q st (cs ++ rest) →
      ∃ st', Draws (Quasi.draw q .stdNormal) st (zs.map fun x : ℝ => .num x) st' ∧ Quasi.Serves q st' rest := by
  induction h with
  | nil => exact fun h => ⟨_, .nil _, h⟩
  | @cons c z cs zs h1 _ ih =>
    intro st h
    obtain ⟨st₁, e, h'⟩ := Quasi.draw_serves .stdNormal h
    obtain ⟨st', d, hs⟩ := ih h'
    refine ⟨st', .cons ?_ d, hs⟩
    rw [e]
    exact congrArg (·, st₁) h1

theorem serves_paths {dim : ℕ} {pts : List (List (Dbl .binary64))} {zss : List (List ℝ)}
    (h : List.Forall₂ (fun cs zs => cs.length = dim ∧ List.Forall₂ (fun c z => moroInvCdf (c / q.scale) = .ok (.num (z : ℝ))) cs zs) pts zss) :
    ∀ {st : Quasi.State Q (Dbl .binary64)}, Quasi.Serves q st pts.flatten → ∃ st', PathDraws (Quasi.gen q) dim st zss st' := by
  induction h with
  | nil => exact fun _ => ⟨_, .nil _⟩
  | @cons cs zs pts zss h1 _ ih =>
    intro st h
    rw [List.flatten_cons] at h
    obtain ⟨st₁, d, hs⟩ := serves_draws h1.2 h
    obtain ⟨st', t⟩ := ih hs
    exact ⟨st', .cons (h1.1 ▸ h1.2.length_eq.symm) d t⟩

variable {dim seed N : ℕ} {p : ℕ → Fin dim → ℝ}

/-- The normal numbers a new generator delivers, path by path. -/
theorem quasi_scores (h : QuasiRun q dim seed N p c) :
    ∃ st z, Quasi.construct q dim seed = .ok st ∧ NormalScores N (fun n j => p n j / c) z ∧
      ∃ st', PathDraws (Quasi.gen q) dim st ((List.range N).map fun n => List.ofFn (z n)) st' := by
  have key : ∀ n j, ∃ z : ℝ, n < N → moroInvCdf (.num (p n j) / .num c : Dbl .binary64) = .ok (.num z) ∧ |cdf (gaussianReal 0 1) z - p n j / c| ≤ 7 / 10000000000 ∧ |z| ≤ 10 := by
    intro n j
    by_cases hn : n < N
    · obtain ⟨z, hz⟩ := score_double (c := c) (h.inside n hn j).1 (h.inside n hn j).2
      exact ⟨z, fun _ => hz _ rfl⟩
    · exact ⟨0, fun h => absurd h hn⟩
  choose z hz using key
  obtain ⟨s₀, s₁, e0, hd⟩ := h.points
  obtain ⟨st, e, -, hs⟩ := Quasi.construct_serves h.dates.1 h.dates.2 e0 hd (by simp) (by
    have := h.paths.1
    simp
    omega)
  refine ⟨st, z, e, fun n hn j => (hz n j hn).2, serves_paths ?_ hs⟩
  rw [List.forall₂_map_left_iff, List.forall₂_map_right_iff, List.forall₂_same]
  intro n hn
  refine ⟨by simp, List.forall₂_iff_get.mpr ⟨by simp, fun i h1 h2 => ?_⟩⟩
  simp only [List.get_eq_getElem, List.getElem_ofFn]
  rw [h.scale]
  exact (hz n _ (List.mem_range.mp hn)).1

end

/-! ## The paths -/

/-- Paths of normal numbers up to ten, with data that keep away from the limits of the format. -/
theorem scores_moderate {S sigma r q T : ℝ} {n : ℕ} (hn : 0 < n) (hC : Comfortable S sigma r q T n (10 * Real.sqrt n) 0) {z : ℕ → ℝ} (hz : ∀ j < n, |z j| ≤ 10) :
    Moderate S sigma r q T n z := by
  refine calm_moderate hC (z := z) (fun j hj => ⟨?_, ?_⟩) (fun j _ => by simp) hn
  · have : (1 : ℝ) ≤ Real.sqrt n := by
      rw [Real.one_le_sqrt]
      exact_mod_cast hn
    linarith [hz j hj]
  · refine (Finset.abs_sum_le_sum_abs _ _).trans ?_
    calc ∑ l ∈ Finset.range (j + 1), |z l| ≤ ∑ _l ∈ Finset.range (j + 1), (10 : ℝ) := Finset.sum_le_sum fun l hl => hz l (by have := Finset.mem_range.mp hl; omega)
      _ = 10 * (Real.sqrt ((j + 1 : ℕ) : ℝ) * Real.sqrt ((j + 1 : ℕ) : ℝ)) := by
        rw [Finset.sum_const, Finset.card_range, nsmul_eq_mul, Real.mul_self_sqrt (by positivity), mul_comm]
      _ ≤ 10 * (Real.sqrt n * Real.sqrt ((j + 1 : ℕ) : ℝ)) := by
        have : ((j + 1 : ℕ) : ℝ) ≤ n := by exact_mod_cast hj
        gcongr
      _ = _ := by ring

/-! ## The prices -/

section
variable {Q : Type} {sq : Quasi.Sequence Q (Dbl .binary64)} {dim seed N : ℕ} {p : ℕ → Fin dim → ℝ} {c : ℝ} {S sigma r T K : ℝ} {q : Option ℝ}

theorem scores_bound {u z : ℕ → Fin dim → ℝ} (h : NormalScores N u z) {n : ℕ} (hn : n < N) : ∀ l < dim, |(List.ofFn (z n)).getD l 0| ≤ 10 := by
  intro l hl
  rw [List.getD_eq_getElem?_getD, List.getElem?_eq_getElem (by simpa using hl), Option.getD_some, List.getElem_ofFn]
  exact (h n hn _).2

theorem scores_all {u z : ℕ → Fin dim → ℝ} (h : NormalScores N u z) (h0 : 0 < dim) (hC : Comfortable S sigma r (q.getD 0) T dim (10 * Real.sqrt dim) 0) :
    ∀ zs ∈ (List.range N).map fun n => List.ofFn (z n), Moderate S sigma r (q.getD 0) T dim fun l => zs.getD l 0 := by
  intro zs hzs
  obtain ⟨n, hn, rfl⟩ := List.mem_map.mp hzs
  exact scores_moderate h0 hC (scores_bound h (List.mem_range.mp hn))

theorem sum_small (hN : N ≤ INT_MAX) {ws : ℝ} (h : ws ≤ N * 2 ^ (510 : ℤ)) : ws ≤ 2 ^ (1000 : ℤ) := by
  have b1 : (N : ℝ) ≤ INT_MAX := by exact_mod_cast hN
  refine h.trans ((mul_le_mul_of_nonneg_right b1 (by positivity)).trans ?_)
  norm_num [INT_MAX]

theorem scores_work (h0 : 0 < dim) {zs : List ℝ} (hm : Moderate S sigma r (q.getD 0) T dim fun l => zs.getD l 0) :
    (dim : ℝ) ≤ workOf sigma r q T dim zs ∧ workOf sigma r q T dim zs ≤ 2 ^ 40 ∧ 0 ≤ 2 ^ (-49 : ℤ) * workOf sigma r q T dim zs ∧ 2 ^ (-49 : ℤ) * workOf sigma r q T dim zs ≤ 1 := by
  have h1 := natCast_le_gbmWork (sigma := sigma) (r := r) (q := q.getD 0) (z := fun l => zs.getD l 0) (le_trans (by positivity) hm.step.1) h0
  have h2 := hm.work
  exact ⟨h1, h2, mul_nonneg (by positivity) ((Nat.cast_nonneg _).trans h1), (mul_le_mul_of_nonneg_left h2 (by positivity)).trans (by norm_num)⟩

/-- **C95.** European options. -/
theorem C95_european (h : QuasiRun sq dim seed N p c) (ty : PayoffType) (hK : |K| ≤ 2 ^ (500 : ℤ)) (hrT : |r * T| ≤ 1)
    (hC : Comfortable S sigma r (q.getD 0) T dim (10 * Real.sqrt dim) 0) :
    ∃ st z, Quasi.construct sq dim seed = .ok st ∧ NormalScores N (fun n j => p n j / c) z ∧
      MeanUpTo (MC.singlePath (ModelKind.source (Quasi.gen sq) dim ⟨.num S, .num sigma, q.map fun x : ℝ => .num x, .num r⟩ .gbm) (pure (.num r))
          (Payoff.vanilla ty (.num K)).eval1 (.num T) N st).1 r T
        ((List.range N).map fun n => vanillaValue (ty = .call) K (pathOf S sigma r q T dim (List.ofFn (z n)) (dim - 1)))
        ((List.range N).map fun n => payoffError S sigma r (q.getD 0) T K dim fun l => (List.ofFn (z n)).getD l 0) := by
  obtain ⟨st, z, e, hz, st', hD⟩ := quasi_scores h
  refine ⟨st, z, e, hz, ?_⟩
  obtain ⟨as, w, a1, a2, a3, a4, a5, a6⟩ := paths_error (Quasi.gen sq) (K := K) h.dates.1 h.dates.2 ty hK hD (scores_all hz h.dates.1 hC)
  rw [List.length_map, List.length_range] at a3 a5
  obtain ⟨y, y1, y2⟩ := C66_singlePath (ModelKind.source (Quasi.gen sq) dim ⟨.num S, .num sigma, q.map fun x : ℝ => .num x, .num r⟩ .gbm) (getR := pure (.num r))
    (pay := (Payoff.vanilla ty (.num K) : Payoff (Dbl .binary64)).eval1) (r := r) (t := T) hrT (s := st) (s' := st') rfl a1 a2 a4 (a3 ▸ h.paths.1) (a3 ▸ h.paths.2) (sum_small h.paths.2 a5)
  rw [a3] at y1 y2
  refine meanUpTo_of (y := y) (ws := w.sum) (by rw [y1]) (by simp) (by simpa using h.paths.1) (by rw [List.length_map, List.length_range]; exact y2) ?_
  rw [List.map_map, List.map_map] at a6
  exact a6

/-- **C95.** Asian options on the arithmetic mean. -/
theorem C95_arithmeticAsian (h : QuasiRun sq dim seed N p c) (ty : PayoffType) (hK : |K| ≤ 2 ^ (500 : ℤ)) (hrT : |r * T| ≤ 1)
    (hC : Comfortable S sigma r (q.getD 0) T dim (10 * Real.sqrt dim) 0) :
    ∃ st z, Quasi.construct sq dim seed = .ok st ∧ NormalScores N (fun n j => p n j / c) z ∧
      MeanUpTo (MC.asian .arithmetic (ModelKind.source (Quasi.gen sq) dim ⟨.num S, .num sigma, q.map fun x : ℝ => .num x, .num r⟩ .gbm) (pure (.num r))
          (Payoff.vanilla ty (.num K)).eval1 (.num T) N st).1 r T
        ((List.range N).map fun n => vanillaValue (ty = .call) K (meanOf dim (pathOf S sigma r q T dim (List.ofFn (z n)))))
        ((List.range N).map fun n => valueError (2 ^ (-48 : ℤ) * workOf sigma r q T dim (List.ofFn (z n))) K (meanOf dim (pathOf S sigma r q T dim (List.ofFn (z n))))) := by
  obtain ⟨st, z, e, hz, st', hD⟩ := quasi_scores h
  refine ⟨st, z, e, hz, ?_⟩
  have hm := scores_all hz h.dates.1 hC
  obtain ⟨as, w, a1, a2, a3, a4, a5, a6⟩ := whole_paths (Quasi.gen sq) h.dates.1 h.dates.2 (ev := MC.asianPath .arithmetic (Payoff.vanilla ty (.num (K : ℝ))).eval1 dim) hD hm
    (f := fun zs => vanillaValue (ty = .call) K (meanOf dim (pathOf S sigma r q T dim zs)))
    (e := fun zs => valueError (2 ^ (-48 : ℤ) * workOf sigma r q T dim zs) K (meanOf dim (pathOf S sigma r q T dim zs)))
    (fun zs hz p hp => arithmetic_pays h.dates.1 h.dates.2 ty hK (scores_work h.dates.1 (hm zs hz)).1 (scores_work h.dates.1 (hm zs hz)).2.1 (hm zs hz).prices hp)
  rw [List.length_map, List.length_range] at a3 a5
  obtain ⟨y, y1, y2⟩ := C66_asian .arithmetic (ModelKind.source (Quasi.gen sq) dim ⟨.num S, .num sigma, q.map fun x : ℝ => .num x, .num r⟩ .gbm) (getR := pure (.num r))
    (pay := (Payoff.vanilla ty (.num (K : ℝ))).eval1) hrT (s := st) (s' := st') rfl a1 a2 a4 (a3 ▸ h.paths.1) (a3 ▸ h.paths.2.trans (by norm_num [INT_MAX])) (sum_small h.paths.2 a5)
  rw [a3] at y1 y2
  refine meanUpTo_of (y := y) (ws := w.sum) (by rw [y1]) (by simp) (by simpa using h.paths.1) (by rw [List.length_map, List.length_range]; exact y2) ?_
  rw [List.map_map, List.map_map] at a6
  exact a6

/-- **C95.** Asian options on the geometric mean. -/
theorem C95_geometricAsian (h : QuasiRun sq dim seed N p c) (ty : PayoffType) (hK : |K| ≤ 2 ^ (500 : ℤ)) (hrT : |r * T| ≤ 1)
    (hC : Comfortable S sigma r (q.getD 0) T dim (10 * Real.sqrt dim) 0) :
    ∃ st z, Quasi.construct sq dim seed = .ok st ∧ NormalScores N (fun n j => p n j / c) z ∧
      MeanUpTo (MC.asian .geometric (ModelKind.source (Quasi.gen sq) dim ⟨.num S, .num sigma, q.map fun x : ℝ => .num x, .num r⟩ .gbm) (pure (.num r))
          (Payoff.vanilla ty (.num K)).eval1 (.num T) N st).1 r T
        ((List.range N).map fun n => vanillaValue (ty = .call) K (geomMeanOf dim (pathOf S sigma r q T dim (List.ofFn (z n)))))
        ((List.range N).map fun n => valueError (2 ^ (-40 : ℤ) * workOf sigma r q T dim (List.ofFn (z n))) K (geomMeanOf dim (pathOf S sigma r q T dim (List.ofFn (z n))))) := by
  obtain ⟨st, z, e, hz, st', hD⟩ := quasi_scores h
  refine ⟨st, z, e, hz, ?_⟩
  have hm := scores_all hz h.dates.1 hC
  obtain ⟨as, w, a1, a2, a3, a4, a5, a6⟩ := whole_paths (Quasi.gen sq) h.dates.1 h.dates.2 (ev := MC.asianPath .geometric (Payoff.vanilla ty (.num (K : ℝ))).eval1 dim) hD hm
    (f := fun zs => vanillaValue (ty = .call) K (geomMeanOf dim (pathOf S sigma r q T dim zs)))
    (e := fun zs => valueError (2 ^ (-40 : ℤ) * workOf sigma r q T dim zs) K (geomMeanOf dim (pathOf S sigma r q T dim zs)))
    (fun zs hz p hp => geometric_pays h.dates.1 h.dates.2 ty hK (scores_work h.dates.1 (hm zs hz)).1 (scores_work h.dates.1 (hm zs hz)).2.1 (hm zs hz).prices hp)
  rw [List.length_map, List.length_range] at a3 a5
  obtain ⟨y, y1, y2⟩ := C66_asian .geometric (ModelKind.source (Quasi.gen sq) dim ⟨.num S, .num sigma, q.map fun x : ℝ => .num x, .num r⟩ .gbm) (getR := pure (.num r))
    (pay := (Payoff.vanilla ty (.num (K : ℝ))).eval1) hrT (s := st) (s' := st') rfl a1 a2 a4 (a3 ▸ h.paths.1) (a3 ▸ h.paths.2.trans (by norm_num [INT_MAX])) (sum_small h.paths.2 a5)
  rw [a3] at y1 y2
  refine meanUpTo_of (y := y) (ws := w.sum) (by rw [y1]) (by simp) (by simpa using h.paths.1) (by rw [List.length_map, List.length_range]; exact y2) ?_
  rw [List.map_map, List.map_map] at a6
  exact a6

/-- **C95.** Fixed-strike lookback options. -/
theorem C95_fixedLookback (h : QuasiRun sq dim seed N p c) (ty : PayoffType) (hK : |K| ≤ 2 ^ (500 : ℤ)) (hrT : |r * T| ≤ 1)
    (hC : Comfortable S sigma r (q.getD 0) T dim (10 * Real.sqrt dim) 0) :
    ∃ st z, Quasi.construct sq dim seed = .ok st ∧ NormalScores N (fun n j => p n j / c) z ∧
      MeanUpTo (MC.lookback .fixed (ModelKind.source (Quasi.gen sq) dim ⟨.num S, .num sigma, q.map fun x : ℝ => .num x, .num r⟩ .gbm) (pure (.num r))
          (.vanilla ty (.num K)) (.num T) N st).1 r T
        ((List.range N).map fun n => fixedLookback (ty = .call) K dim (pathOf S sigma r q T dim (List.ofFn (z n))))
        ((List.range N).map fun n => valueError (2 ^ (-49 : ℤ) * workOf sigma r q T dim (List.ofFn (z n))) K
          (if ty = .call then highest dim (pathOf S sigma r q T dim (List.ofFn (z n))) else lowest dim (pathOf S sigma r q T dim (List.ofFn (z n))))) := by
  obtain ⟨st, z, e, hz, st', hD⟩ := quasi_scores h
  refine ⟨st, z, e, hz, ?_⟩
  have hm := scores_all hz h.dates.1 hC
  obtain ⟨as, w, a1, a2, a3, a4, a5, a6⟩ := whole_paths (Quasi.gen sq) h.dates.1 h.dates.2 (ev := MC.lookbackPath .fixed (.vanilla ty (.num (K : ℝ))) dim) hD hm
    (f := fun zs => fixedLookback (ty = .call) K dim (pathOf S sigma r q T dim zs))
    (e := fun zs => valueError (2 ^ (-49 : ℤ) * workOf sigma r q T dim zs) K
        (if ty = .call then highest dim (pathOf S sigma r q T dim zs) else lowest dim (pathOf S sigma r q T dim zs)))
    (fun zs hz p hp => fixed_pays h.dates.1 h.dates.2 ty hK (scores_work h.dates.1 (hm zs hz)).2.2.1 (scores_work h.dates.1 (hm zs hz)).2.2.2 (hm zs hz).prices hp)
  rw [List.length_map, List.length_range] at a3 a5
  obtain ⟨y, y1, y2⟩ := C66_lookback .fixed (ModelKind.source (Quasi.gen sq) dim ⟨.num S, .num sigma, q.map fun x : ℝ => .num x, .num r⟩ .gbm) (getR := pure (.num r))
    (.vanilla ty (.num (K : ℝ))) hrT (s := st) (s' := st') rfl a1 a2 a4 (a3 ▸ h.paths.1) (a3 ▸ h.paths.2) (sum_small h.paths.2 a5)
  rw [a3] at y1 y2
  refine meanUpTo_of (y := y) (ws := w.sum) (by rw [y1]) (by simp) (by simpa using h.paths.1) (by rw [List.length_map, List.length_range]; exact y2) ?_
  rw [List.map_map, List.map_map] at a6
  exact a6

/-- **C95.** Floating-strike lookback options. -/
theorem C95_floatingLookback (h : QuasiRun sq dim seed N p c) (ty : PayoffType) (hrT : |r * T| ≤ 1)
    (hC : Comfortable S sigma r (q.getD 0) T dim (10 * Real.sqrt dim) 0) :
    ∃ st z, Quasi.construct sq dim seed = .ok st ∧ NormalScores N (fun n j => p n j / c) z ∧
      MeanUpTo (MC.lookback .floating (ModelKind.source (Quasi.gen sq) dim ⟨.num S, .num sigma, q.map fun x : ℝ => .num x, .num r⟩ .gbm) (pure (.num r))
          (.floatingLookback ty) (.num T) N st).1 r T
        ((List.range N).map fun n => floatingLookback (ty = .call) dim (pathOf S sigma r q T dim (List.ofFn (z n))))
        ((List.range N).map fun n => (2 ^ (-49 : ℤ) * workOf sigma r q T dim (List.ofFn (z n)) + 2 ^ (-51 : ℤ)) * (pathOf S sigma r q T dim (List.ofFn (z n)) (dim - 1) +
          if ty = .call then lowest dim (pathOf S sigma r q T dim (List.ofFn (z n))) else highest dim (pathOf S sigma r q T dim (List.ofFn (z n))))) := by
  obtain ⟨st, z, e, hz, st', hD⟩ := quasi_scores h
  refine ⟨st, z, e, hz, ?_⟩
  have hm := scores_all hz h.dates.1 hC
  obtain ⟨as, w, a1, a2, a3, a4, a5, a6⟩ := whole_paths (Quasi.gen sq) h.dates.1 h.dates.2 (ev := MC.lookbackPath .floating (.floatingLookback ty) dim) hD hm
    (f := fun zs => floatingLookback (ty = .call) dim (pathOf S sigma r q T dim zs))
    (e := fun zs => (2 ^ (-49 : ℤ) * workOf sigma r q T dim zs + 2 ^ (-51 : ℤ)) * (pathOf S sigma r q T dim zs (dim - 1) +
        if ty = .call then lowest dim (pathOf S sigma r q T dim zs) else highest dim (pathOf S sigma r q T dim zs)))
    (fun zs hz p hp => floating_pays h.dates.1 h.dates.2 ty (scores_work h.dates.1 (hm zs hz)).2.2.1 (scores_work h.dates.1 (hm zs hz)).2.2.2 (hm zs hz).prices hp)
  rw [List.length_map, List.length_range] at a3 a5
  obtain ⟨y, y1, y2⟩ := C66_lookback .floating (ModelKind.source (Quasi.gen sq) dim ⟨.num S, .num sigma, q.map fun x : ℝ => .num x, .num r⟩ .gbm) (getR := pure (.num r))
    (.floatingLookback ty) hrT (s := st) (s' := st') rfl a1 a2 a4 (a3 ▸ h.paths.1) (a3 ▸ h.paths.2) (sum_small h.paths.2 a5)
  rw [a3] at y1 y2
  refine meanUpTo_of (y := y) (ws := w.sum) (by rw [y1]) (by simp) (by simpa using h.paths.1) (by rw [List.length_map, List.length_range]; exact y2) ?_
  rw [List.map_map, List.map_map] at a6
  exact a6

/-- **C95.** Knock-in options, when no exact price is within rounding distance of the barrier. -/
theorem C95_knockIn (h : QuasiRun sq dim seed N p c) (ty : PayoffType) (hK : |K| ≤ 2 ^ (500 : ℤ)) (hrT : |r * T| ≤ 1)
    (hC : Comfortable S sigma r (q.getD 0) T dim (10 * Real.sqrt dim) 0) (B : ℝ) (d : BarrierDirection) :
    ∃ st z, Quasi.construct sq dim seed = .ok st ∧ NormalScores N (fun n j => p n j / c) z ∧
      ((∀ n < N, ClearOf B (2 ^ (-49 : ℤ) * workOf sigma r q T dim (List.ofFn (z n))) dim (pathOf S sigma r q T dim (List.ofFn (z n)))) →
      MeanUpTo (MC.barrier .knockIn (ModelKind.source (Quasi.gen sq) dim ⟨.num S, .num sigma, q.map fun x : ℝ => .num x, .num r⟩ .gbm) (pure (.num r))
          (OptionModel.knockInIsActive (.num B) d) (Payoff.vanilla ty (.num K)).eval1 (.num T) N st).1 r T
        ((List.range N).map fun n => knockInValue (ty = .call) K B d dim (pathOf S sigma r q T dim (List.ofFn (z n))))
        ((List.range N).map fun n => valueError (2 ^ (-49 : ℤ) * workOf sigma r q T dim (List.ofFn (z n))) K (pathOf S sigma r q T dim (List.ofFn (z n)) (dim - 1)))) := by
  obtain ⟨st, z, e, hz, st', hD⟩ := quasi_scores h
  refine ⟨st, z, e, hz, fun hclear => ?_⟩
  have hm := scores_all hz h.dates.1 hC
  obtain ⟨as, w, a1, a2, a3, a4, a5, a6⟩ := whole_paths (Quasi.gen sq) h.dates.1 h.dates.2
    (ev := MC.barrierPath .knockIn (OptionModel.knockInIsActive (.num B) d) (Payoff.vanilla ty (.num (K : ℝ))).eval1 dim) hD hm
    (f := fun zs => knockInValue (ty = .call) K B d dim (pathOf S sigma r q T dim zs))
    (e := fun zs => valueError (2 ^ (-49 : ℤ) * workOf sigma r q T dim zs) K (pathOf S sigma r q T dim zs (dim - 1)))
    (fun zs hz p hp => knockIn_pays h.dates.1 h.dates.2 d ty hK (scores_work h.dates.1 (hm zs hz)).2.2.2 (hm zs hz).prices hp (by
      obtain ⟨n, hn, rfl⟩ := List.mem_map.mp hz
      exact hclear n (List.mem_range.mp hn)))
  rw [List.length_map, List.length_range] at a3 a5
  obtain ⟨y, y1, y2⟩ := C66_barrier .knockIn (ModelKind.source (Quasi.gen sq) dim ⟨.num S, .num sigma, q.map fun x : ℝ => .num x, .num r⟩ .gbm) (getR := pure (.num r))
    (OptionModel.knockInIsActive (.num B) d) (pay := (Payoff.vanilla ty (.num (K : ℝ))).eval1) hrT (s := st) (s' := st') rfl a1 a2 a4 (a3 ▸ h.paths.1) (a3 ▸ h.paths.2) (sum_small h.paths.2 a5)
  rw [a3] at y1 y2
  refine meanUpTo_of (y := y) (ws := w.sum) (by rw [y1]) (by simp) (by simpa using h.paths.1) (by rw [List.length_map, List.length_range]; exact y2) ?_
  rw [List.map_map, List.map_map] at a6
  exact a6

/-- **C95.** Knock-out options, when no exact price is within rounding distance of the barrier. -/
theorem C95_knockOut (h : QuasiRun sq dim seed N p c) (ty : PayoffType) (hK : |K| ≤ 2 ^ (500 : ℤ)) (hrT : |r * T| ≤ 1)
    (hC : Comfortable S sigma r (q.getD 0) T dim (10 * Real.sqrt dim) 0) (B : ℝ) (d : BarrierDirection) :
    ∃ st z, Quasi.construct sq dim seed = .ok st ∧ NormalScores N (fun n j => p n j / c) z ∧
      ((∀ n < N, ClearOf B (2 ^ (-49 : ℤ) * workOf sigma r q T dim (List.ofFn (z n))) dim (pathOf S sigma r q T dim (List.ofFn (z n)))) →
      MeanUpTo (MC.barrier .knockOut (ModelKind.source (Quasi.gen sq) dim ⟨.num S, .num sigma, q.map fun x : ℝ => .num x, .num r⟩ .gbm) (pure (.num r))
          (OptionModel.knockOutIsActive (.num B) d) (Payoff.vanilla ty (.num K)).eval1 (.num T) N st).1 r T
        ((List.range N).map fun n => knockOutValue (ty = .call) K B d dim (pathOf S sigma r q T dim (List.ofFn (z n))))
        ((List.range N).map fun n => valueError (2 ^ (-49 : ℤ) * workOf sigma r q T dim (List.ofFn (z n))) K (pathOf S sigma r q T dim (List.ofFn (z n)) (dim - 1)))) := by
  obtain ⟨st, z, e, hz, st', hD⟩ := quasi_scores h
  refine ⟨st, z, e, hz, fun hclear => ?_⟩
  have hm := scores_all hz h.dates.1 hC
  obtain ⟨as, w, a1, a2, a3, a4, a5, a6⟩ := whole_paths (Quasi.gen sq) h.dates.1 h.dates.2
    (ev := MC.barrierPath .knockOut (OptionModel.knockOutIsActive (.num B) d) (Payoff.vanilla ty (.num (K : ℝ))).eval1 dim) hD hm
    (f := fun zs => knockOutValue (ty = .call) K B d dim (pathOf S sigma r q T dim zs))
    (e := fun zs => valueError (2 ^ (-49 : ℤ) * workOf sigma r q T dim zs) K (pathOf S sigma r q T dim zs (dim - 1)))
    (fun zs hz p hp => knockOut_pays h.dates.1 h.dates.2 d ty hK (scores_work h.dates.1 (hm zs hz)).2.2.2 (hm zs hz).prices hp (by
      obtain ⟨n, hn, rfl⟩ := List.mem_map.mp hz
      exact hclear n (List.mem_range.mp hn)))
  rw [List.length_map, List.length_range] at a3 a5
  obtain ⟨y, y1, y2⟩ := C66_barrier .knockOut (ModelKind.source (Quasi.gen sq) dim ⟨.num S, .num sigma, q.map fun x : ℝ => .num x, .num r⟩ .gbm) (getR := pure (.num r))
    (OptionModel.knockOutIsActive (.num B) d) (pay := (Payoff.vanilla ty (.num (K : ℝ))).eval1) hrT (s := st) (s' := st') rfl a1 a2 a4 (a3 ▸ h.paths.1) (a3 ▸ h.paths.2) (sum_small h.paths.2 a5)
  rw [a3] at y1 y2
  refine meanUpTo_of (y := y) (ws := w.sum) (by rw [y1]) (by simp) (by simpa using h.paths.1) (by rw [List.length_map, List.length_range]; exact y2) ?_
  rw [List.map_map, List.map_map] at a6
  exact a6

end

/-! ## One date: the distance from the Black-Scholes price -/

/-- From the discrepancy of the points to the distribution of the normal numbers. -/
theorem scores_law {N : ℕ} (hN : 0 < N) {u z : ℕ → ℝ} {D : ℝ} (hD : DiscrepancyAtMost N u D) (hz : ∀ n < N, |Phi (z n) - u n| ≤ 7 / 10000000000) (x : ℝ) :
    |(((Finset.range N).filter fun n => z n ≤ x).card : ℝ) - N * Phi x| ≤ N * (D + 7 / 10000000000) := by
  have hN' : (0 : ℝ) < N := by exact_mod_cast hN
  have hP0 := Phi_nonneg x
  have hP1 : Phi x ≤ 1 := cdf_le_one _ x
  have hD0 : 0 ≤ D := (abs_nonneg _).trans (hD 0 le_rfl zero_le_one)
  have key : ∀ t : ℝ, 0 ≤ t → t ≤ 1 → |(((Finset.range N).filter fun n => u n ≤ t).card : ℝ) - N * t| ≤ N * D := by
    intro t h0 h1
    have := hD t h0 h1
    rw [show (((Finset.range N).filter fun n => u n ≤ t).card : ℝ) - N * t = N * ((((Finset.range N).filter fun n => u n ≤ t).card : ℝ) / N - t) by field_simp,
      abs_mul, abs_of_pos hN']
    exact mul_le_mul_of_nonneg_left this hN'.le
  have hcard : (((Finset.range N).filter fun n => z n ≤ x).card : ℝ) ≤ N := by
    have := Finset.card_filter_le (Finset.range N) fun n => z n ≤ x
    rw [Finset.card_range] at this
    exact_mod_cast this
  rw [abs_le]
  constructor
  · by_cases hc : Phi x - 7 / 10000000000 < 0
    · have : (0 : ℝ) ≤ ((Finset.range N).filter fun n => z n ≤ x).card := Nat.cast_nonneg _
      have := mul_le_mul_of_nonneg_left (by linarith : Phi x ≤ D + 7 / 10000000000) hN'.le
      linarith
    · have a := (abs_le.mp (key (Phi x - 7 / 10000000000) (not_lt.mp hc) (by linarith))).1
      have b : ((Finset.range N).filter fun n => u n ≤ Phi x - 7 / 10000000000).card ≤ ((Finset.range N).filter fun n => z n ≤ x).card := by
        refine Finset.card_le_card fun n hn => ?_
        rw [Finset.mem_filter] at hn ⊢
        refine ⟨hn.1, Phi_strictMono.le_iff_le.mp ?_⟩
        have := (abs_le.mp (hz n (Finset.mem_range.mp hn.1))).2
        linarith
      have b' : (((Finset.range N).filter fun n => u n ≤ Phi x - 7 / 10000000000).card : ℝ) ≤ ((Finset.range N).filter fun n => z n ≤ x).card := by exact_mod_cast b
      linarith
  · by_cases hc : 1 < Phi x + 7 / 10000000000
    · have := mul_le_mul_of_nonneg_left (by linarith : 1 - Phi x ≤ D + 7 / 10000000000) hN'.le
      linarith
    · have a := (abs_le.mp (key (Phi x + 7 / 10000000000) (by linarith) (not_lt.mp hc))).2
      have b : ((Finset.range N).filter fun n => z n ≤ x).card ≤ ((Finset.range N).filter fun n => u n ≤ Phi x + 7 / 10000000000).card := by
        refine Finset.card_le_card fun n hn => ?_
        rw [Finset.mem_filter] at hn ⊢
        refine ⟨hn.1, ?_⟩
        have := (abs_le.mp (hz n (Finset.mem_range.mp hn.1))).1
        have := Phi_mono hn.2
        linarith
      have b' : (((Finset.range N).filter fun n => z n ≤ x).card : ℝ) ≤ ((Finset.range N).filter fun n => u n ≤ Phi x + 7 / 10000000000).card := by exact_mod_cast b
      linarith

theorem scores_mean {N : ℕ} (hN : 0 < N) {u z : ℕ → ℝ} {D : ℝ} (hD : DiscrepancyAtMost N u D) (hz : ∀ n < N, |Phi (z n) - u n| ≤ 7 / 10000000000)
    {f : ℝ → ℝ} (hf : Measurable f) {K : ℝ} (hK : 0 ≤ K) (h0 : ∀ a, 0 ≤ f a) (h1 : ∀ a, f a < K) (hl : ∀ t ∈ Ioo 0 K, ∃ x, ∀ a, t ≤ f a ↔ a ≤ x) :
    |((List.range N).map fun n => f (z n)).sum / N - ∫ a, f a ∂gaussianReal 0 1| ≤ (D + 7 / 10000000000) * K := by
  have hN' : (0 : ℝ) < N := by exact_mod_cast hN
  have := koksma (N := N) (z := fun i => z i) (γ := gaussianReal 0 1) (κ := D + 7 / 10000000000) (fun x => by
    have a := scores_law hN hD hz x
    have b : (Finset.univ.filter fun i : Fin N => z i ≤ x).card = ((Finset.range N).filter fun n => z n ≤ x).card := by
      rw [Finset.card_filter, Finset.card_filter, Finset.sum_range]
    rw [b]
    rwa [show (gaussianReal 0 1).real (Iic x) = Phi x from (cdf_eq_real _ x).symm]) hf hK h0 h1 hl
  have e : ((List.range N).map fun n => f (z n)).sum = ∑ i : Fin N, f (z i) := by
    rw [← Finset.sum_range fun n => f (z n)]
    rfl
  rw [e, show (∑ i : Fin N, f (z i)) / N - ∫ a, f a ∂gaussianReal 0 1 = (∑ i : Fin N, f (z i) - N * ∫ a, f a ∂gaussianReal 0 1) / N by field_simp, abs_div, abs_of_pos hN', div_le_iff₀ hN']
  linarith

theorem put_integral {S sigma r T K : ℝ} {q : Option ℝ} (hS : 0 < S) (hσ : 0 < sigma) (hT : 0 < T) (hK : 0 < K) :
    Real.exp (-(r * T)) * ∫ z, max (K - S * Real.exp ((r - q.getD 0 - sigma ^ 2 / 2) * T + sigma * Real.sqrt T * z)) 0 ∂gaussianReal 0 1 =
      blackScholesPut S sigma r (q.getD 0) T K := by
  letI : FlInf ℝ := ⟨0⟩
  haveI : IsProbabilityMeasure normals := by unfold normals; infer_instance
  have hb := (blackScholes_gbmPrice iidNormal_normals ⟨S, sigma, q, r⟩ hS hσ hT hK one_pos (by decide)).2
  refine Eq.trans ?_ hb
  congr 1
  have e := map_gbmPrice_last iidNormal_normals ⟨S, sigma, q, r⟩ hT.le one_pos 0
  have a1 := integral_map (μ := normals) (measurable_gbmPrice iidNormal_normals ⟨S, sigma, q, r⟩ T 1 0 (1 - 1)).aemeasurable (f := fun y => max (K - y) 0) (by fun_prop)
  have a2 := integral_map (μ := gaussianReal 0 1) (measurable_blackScholesPrice ⟨S, sigma, q, r⟩ T).aemeasurable (f := fun y => max (K - y) 0) (by fun_prop)
  rw [e, a2] at a1
  exact a1

section
variable {Q : Type} {sq : Quasi.Sequence Q (Dbl .binary64)} {seed N : ℕ} {p : ℕ → Fin 1 → ℝ} {c : ℝ} {S sigma r T K : ℝ} {q : Option ℝ}

/-- **C95.** A put with one date: the price in double precision is the Black-Scholes price up to the discounted strike times the star
discrepancy of the points (plus 7e-10), and the rounding errors of `C95_european`. -/
theorem C95_put (h : QuasiRun sq 1 seed N p c) (hK0 : 0 < K) (hK : K ≤ 2 ^ (500 : ℤ)) (hrT : |r * T| ≤ 1) (hσ : 0 < sigma)
    (hC : Comfortable S sigma r (q.getD 0) T 1 10 0) {D : ℝ} (hD : DiscrepancyAtMost N (fun n => p n 0 / c) D) :
    ∃ st z, Quasi.construct sq 1 seed = .ok st ∧ NormalScores N (fun n j => p n j / c) z ∧
      ∃ y : ℝ, (MC.singlePath (ModelKind.source (Quasi.gen sq) 1 ⟨.num S, .num sigma, q.map fun x : ℝ => .num x, .num r⟩ .gbm) (pure (.num r))
          (Payoff.vanilla .put (.num K)).eval1 (.num T) N st).1 = .ok (.num y) ∧
        |y - blackScholesPut S sigma r (q.getD 0) T K| ≤ Real.exp (-(r * T)) * K * (D + 7 / 10000000000 + (N + 9) * 2 ^ (-52 : ℤ)) +
          (1 + (N + 9) * 2 ^ (-52 : ℤ)) * discountedMean r T ((List.range N).map fun n => payoffError S sigma r (q.getD 0) T K 1 fun l => (List.ofFn (z n)).getD l 0) +
          2 ^ (-1070 : ℤ) := by
  have hT0 : 0 < T := by
    have h3 : 0 < T / (1 : ℕ) := lt_of_lt_of_le (by positivity) hC.step.1
    simpa using h3
  have hS0 := hC.pos.1
  obtain ⟨st, z, e, hz, y, y1, y2⟩ := C95_european (S := S) (sigma := sigma) (T := T) (q := q) (r := r) h .put (by rwa [abs_of_pos hK0]) hrT (by simpa using hC)
  refine ⟨st, z, e, hz, y, y1, ?_⟩
  set f : ℝ → ℝ := fun a => max (K - S * Real.exp ((r - q.getD 0 - sigma ^ 2 / 2) * T + sigma * Real.sqrt T * a)) 0 with hf
  have ef : ∀ n, vanillaValue (PayoffType.put = .call) K (pathOf S sigma r q T 1 (List.ofFn (z n)) (1 - 1)) = f (z n 0) := by
    intro n
    simp [vanillaValue, pathOf, gbmPath, hf]
  simp only [ef, List.length_map, List.length_range] at y2
  have hN' : (0 : ℝ) < N := by exact_mod_cast h.paths.1
  have hsq : 0 < sigma * Real.sqrt T := mul_pos hσ (Real.sqrt_pos.mpr hT0)
  have f1 : ∀ a, f a < K := by
    intro a
    have : 0 < S * Real.exp ((r - q.getD 0 - sigma ^ 2 / 2) * T + sigma * Real.sqrt T * a) := mul_pos hS0 (Real.exp_pos _)
    exact max_lt (by linarith) hK0
  have hm := scores_mean h.paths.1 hD (z := fun n => z n 0) (fun n hn => (hz n hn 0).1) (f := f) (by fun_prop) hK0.le (fun a => le_max_right _ _) f1 (by
    intro t ht
    refine ⟨(Real.log ((K - t) / S) - (r - q.getD 0 - sigma ^ 2 / 2) * T) / (sigma * Real.sqrt T), fun a => ?_⟩
    have h1 : 0 < (K - t) / S := div_pos (by linarith [ht.2]) hS0
    have h2 : ∀ x, S * Real.exp x ≤ K - t ↔ x ≤ Real.log ((K - t) / S) := fun x => by rw [Real.le_log_iff_exp_le h1, le_div_iff₀ hS0, mul_comm]
    rw [hf, le_max_iff, or_iff_left (not_le.mpr ht.1), le_sub_comm, h2, le_div_iff₀ hsq]
    constructor <;> intro h <;> linarith)
  have hb := put_integral (r := r) (q := q) hS0 hσ hT0 hK0
  have hd := Real.exp_pos (-(r * T))
  have hs : ((List.range N).map fun n => f (z n 0)).sum / N ≤ K := by
    rw [div_le_iff₀ hN']
    have := List.sum_le_card_nsmul ((List.range N).map fun n => f (z n 0)) K (by
      intro x hx
      obtain ⟨n, -, rfl⟩ := List.mem_map.mp hx
      exact (f1 _).le)
    simpa [mul_comm] using this
  have e1 : discountedMean r T ((List.range N).map fun n => f (z n 0)) = Real.exp (-(r * T)) * (((List.range N).map fun n => f (z n 0)).sum / N) := by
    unfold discountedMean
    simp
  rw [e1] at y2
  rw [← hb]
  have c1 : |Real.exp (-(r * T)) * (((List.range N).map fun n => f (z n 0)).sum / N) - Real.exp (-(r * T)) * ∫ a, f a ∂gaussianReal 0 1| ≤
      Real.exp (-(r * T)) * ((D + 7 / 10000000000) * K) := by
    rw [← mul_sub, abs_mul, abs_of_pos hd]
    exact mul_le_mul_of_nonneg_left hm hd.le
  have c2 : ((N : ℝ) + 9) * 2 ^ (-52 : ℤ) * (Real.exp (-(r * T)) * (((List.range N).map fun n => f (z n 0)).sum / N)) ≤ ((N : ℝ) + 9) * 2 ^ (-52 : ℤ) * (Real.exp (-(r * T)) * K) := by
    gcongr
  have c3 := abs_sub_le y (Real.exp (-(r * T)) * (((List.range N).map fun n => f (z n 0)).sum / N)) (Real.exp (-(r * T)) * ∫ a, f a ∂gaussianReal 0 1)
  generalize (2 : ℝ) ^ (-1070 : ℤ) = t at *
  generalize ((N : ℝ) + 9) * 2 ^ (-52 : ℤ) = B at *
  linarith

/-- **C95.** A digital option with one date, when no exact price at maturity is within rounding distance of the strike: the price in double
precision is the discounted probability of the payment up to the discrepancy of the points (plus 7e-10) and the rounding of the mean. -/
theorem C95_digital (h : QuasiRun sq 1 seed N p c) (ty : PayoffType) (hK0 : 0 < K) (hrT : |r * T| ≤ 1) (hσ : 0 < sigma)
    (hC : Comfortable S sigma r (q.getD 0) T 1 10 0) {D : ℝ} (hD : DiscrepancyAtMost N (fun n => p n 0 / c) D) :
    ∃ st z, Quasi.construct sq 1 seed = .ok st ∧ NormalScores N (fun n j => p n j / c) z ∧
      ((∀ n < N, 2 ^ (-49 : ℤ) * workOf sigma r q T 1 (List.ofFn (z n)) * pathOf S sigma r q T 1 (List.ofFn (z n)) 0 < |pathOf S sigma r q T 1 (List.ofFn (z n)) 0 - K|) →
      ∃ y : ℝ, (MC.singlePath (ModelKind.source (Quasi.gen sq) 1 ⟨.num S, .num sigma, q.map fun x : ℝ => .num x, .num r⟩ .gbm) (pure (.num r))
          (Payoff.digital ty (.num K)).eval1 (.num T) N st).1 = .ok (.num y) ∧
        |y - Real.exp (-(r * T)) * (if ty = .call then exceedance S sigma r (q.getD 0) T K else 1 - exceedance S sigma r (q.getD 0) T K)| ≤
          Real.exp (-(r * T)) * (D + 7 / 10000000000 + (N + 9) * 2 ^ (-52 : ℤ)) + 2 ^ (-1070 : ℤ)) := by
  have hT0 : 0 < T := by
    have h3 : 0 < T / (1 : ℕ) := lt_of_lt_of_le (by positivity) hC.step.1
    simpa using h3
  have hS0 := hC.pos.1
  obtain ⟨st, z, e, hz, st', hDr⟩ := quasi_scores h
  refine ⟨st, z, e, hz, fun hclear => ?_⟩
  have hm := scores_all hz h.dates.1 (S := S) (sigma := sigma) (T := T) (q := q) (r := r) (by simpa using hC)
  obtain ⟨as, w, a1, a2, a3, a4, a5, a6⟩ := last_prices (Quasi.gen sq) h.dates.1 h.dates.2 (ev := (Payoff.digital ty (.num (K : ℝ))).eval1) hDr hm
    (f := fun zs => digitalValue (ty = .call) K (pathOf S sigma r q T 1 zs 0)) (e := fun zs => 0)
    (fun zs hz p hp => digital_pays ty hp (by
      obtain ⟨n, hn, rfl⟩ := List.mem_map.mp hz
      exact hclear n (List.mem_range.mp hn)))
  rw [List.length_map, List.length_range] at a3 a5
  obtain ⟨y, y1, y2⟩ := C66_singlePath (ModelKind.source (Quasi.gen sq) 1 ⟨.num S, .num sigma, q.map fun x : ℝ => .num x, .num r⟩ .gbm) (getR := pure (.num r))
    (pay := (Payoff.digital ty (.num (K : ℝ))).eval1) hrT (s := st) (s' := st') rfl a1 a2 a4 (a3 ▸ h.paths.1) (a3 ▸ h.paths.2) (sum_small h.paths.2 a5)
  rw [a3] at y1 y2
  refine ⟨y, by rw [y1], ?_⟩
  have hN' : (0 : ℝ) < N := by exact_mod_cast h.paths.1
  have hsq : 0 < sigma * Real.sqrt T := mul_pos hσ (Real.sqrt_pos.mpr hT0)
  set x := (Real.log (K / S) - (r - q.getD 0 - sigma ^ 2 / 2) * T) / (sigma * Real.sqrt T) with hx
  have hex : exceedance S sigma r (q.getD 0) T K = 1 - Phi x := by
    rw [← Phi_neg, hx, ← neg_div, neg_sub]
    unfold exceedance
    rw [Real.log_div hS0.ne' hK0.ne', Real.log_div hK0.ne' hS0.ne']
    congr 2
    ring
  have hlev : ∀ n, pathOf S sigma r q T 1 (List.ofFn (z n)) 0 = S * Real.exp ((r - q.getD 0 - sigma ^ 2 / 2) * T + sigma * Real.sqrt T * z n 0) := by
    intro n
    simp [pathOf, gbmPath]
  have hlt : ∀ n, K < pathOf S sigma r q T 1 (List.ofFn (z n)) 0 ↔ x < z n 0 := by
    intro n
    have h1 : 0 < K / S := div_pos hK0 hS0
    rw [hlev, hx, div_lt_iff₀ hsq, ← div_lt_iff₀' hS0, ← Real.log_lt_iff_lt_exp h1]
    constructor <;> intro h <;> linarith
  have hne : ∀ n < N, pathOf S sigma r q T 1 (List.ofFn (z n)) 0 ≠ K := by
    intro n hn hc
    have := hclear n hn
    rw [hc, sub_self, abs_zero] at this
    have hw := (scores_work h.dates.1 (hm _ (List.mem_map.mpr ⟨n, List.mem_range.mpr hn, rfl⟩))).2.2.1
    exact absurd this (not_lt.mpr (mul_nonneg hw hK0.le))
  have hw : w.sum = ((List.range N).map fun n => digitalValue (ty = .call) K (pathOf S sigma r q T 1 (List.ofFn (z n)) 0)).sum := by
    rw [List.map_map, List.map_map] at a6
    have : ((List.range N).map ((fun _ => 0) ∘ fun n => List.ofFn (z n))).sum = (0 : ℝ) := List.sum_eq_zero (by simp)
    rw [this] at a6
    exact sub_eq_zero.mp (abs_nonpos_iff.mp a6)
  have hlow : ((List.range N).map fun n => if z n 0 ≤ x then (1 : ℝ) else 0).sum = ((Finset.range N).filter fun n => z n 0 ≤ x).card := by
    rw [Finset.card_filter]
    push_cast
    rfl
  have hlaw := scores_law h.paths.1 hD (z := fun n => z n 0) (fun n hn => (hz n hn 0).1) x
  have hshare : |w.sum / N - (if ty = .call then exceedance S sigma r (q.getD 0) T K else 1 - exceedance S sigma r (q.getD 0) T K)| ≤ D + 7 / 10000000000 := by
    rw [hex]
    have key : ∀ a b : ℝ, |a - N * b| ≤ N * (D + 7 / 10000000000) → |a / N - b| ≤ D + 7 / 10000000000 := by
      intro a b hab
      rw [show a / N - b = (a - N * b) / N by field_simp, abs_div, abs_of_pos hN', div_le_iff₀ hN']
      linarith
    refine key _ _ ?_
    by_cases hty : ty = .call
    · have : w.sum = N - ((Finset.range N).filter fun n => z n 0 ≤ x).card := by
        rw [hw, ← hlow, eq_sub_iff_add_eq, ← List.sum_map_add]
        have : ((List.range N).map fun n => digitalValue (ty = .call) K (pathOf S sigma r q T 1 (List.ofFn (z n)) 0) + if z n 0 ≤ x then (1 : ℝ) else 0) =
            (List.range N).map fun _ => (1 : ℝ) := by
          refine List.map_congr_left fun n _ => ?_
          simp only [digitalValue, hty, if_true, hlt]
          by_cases hc : z n 0 ≤ x
          · simp [hc, not_lt.mpr hc]
          · simp [hc, not_le.mp hc]
        rw [this]
        simp
      rw [this, if_pos hty, ← abs_neg]
      rwa [show -((N : ℝ) - ((Finset.range N).filter fun n => z n 0 ≤ x).card - N * (1 - Phi x)) = ((Finset.range N).filter fun n => z n 0 ≤ x).card - N * Phi x by ring]
    · have : w.sum = ((Finset.range N).filter fun n => z n 0 ≤ x).card := by
        rw [hw, ← hlow]
        congr 1
        refine List.map_congr_left fun n hn => ?_
        simp only [digitalValue, hty, if_false]
        have := hne n (List.mem_range.mp hn)
        refine if_congr ?_ rfl rfl
        rw [← not_lt, ← hlt n, not_lt]
        exact ⟨le_of_lt, fun h => lt_of_le_of_ne h this⟩
      rw [this, if_neg hty, sub_sub_cancel]
      exact hlaw
  have hs : w.sum / N ≤ 1 := by
    rw [div_le_one hN', hw]
    have := List.sum_le_card_nsmul ((List.range N).map fun n => digitalValue (ty = .call) K (pathOf S sigma r q T 1 (List.ofFn (z n)) 0)) 1 (by
      intro v hv
      obtain ⟨n, -, rfl⟩ := List.mem_map.mp hv
      unfold digitalValue
      split <;> split <;> norm_num)
    simpa using this
  have hd := Real.exp_pos (-(r * T))
  generalize (if ty = .call then exceedance S sigma r (q.getD 0) T K else 1 - exceedance S sigma r (q.getD 0) T K) = G at *
  have c1 : |Real.exp (-(r * T)) * (w.sum / N) - Real.exp (-(r * T)) * G| ≤ Real.exp (-(r * T)) * (D + 7 / 10000000000) := by
    rw [← mul_sub, abs_mul, abs_of_pos hd]
    exact mul_le_mul_of_nonneg_left hshare hd.le
  have c2 : ((N : ℝ) + 9) * 2 ^ (-52 : ℤ) * (Real.exp (-(r * T)) * (w.sum / N)) ≤ ((N : ℝ) + 9) * 2 ^ (-52 : ℤ) * (Real.exp (-(r * T)) * 1) := by
    gcongr
  have c3 := abs_sub_le y (Real.exp (-(r * T)) * (w.sum / N)) (Real.exp (-(r * T)) * G)
  generalize (2 : ℝ) ^ (-1070 : ℤ) = t at *
  generalize ((N : ℝ) + 9) * 2 ^ (-52 : ℤ) = B at *
  linarith

end

/-! ## A sequence of points -/

/-- Points on the diagonal: one quarter, then three quarters in every coordinate, then one half for ever. -/
noncomputable def diagonal : ℕ → ℝ
  | 0 => 1 / 4
  | 1 => 3 / 4
  | _ => 1 / 2

/-- A sequence with the scale one that serves these points. -/
noncomputable def diagonalSeq : Quasi.Sequence (ℕ × ℕ) (Dbl .binary64) where
  seeded d _ := .ok (d, 0)
  generate s := (.ok (List.ofFn fun _ : Fin s.1 => .num (diagonal s.2)), (s.1, s.2 + 1))
  scale := .num (1 : ℝ)

theorem diagonal_run {dim : ℕ} (h0 : 0 < dim) (h1 : dim ≤ INT_MAX) (seed : ℕ) : QuasiRun diagonalSeq dim seed 2 (fun n _ => diagonal n) 1 where
  dates := ⟨h0, h1⟩
  paths := ⟨by norm_num, by norm_num [INT_MAX]⟩
  points := ⟨(dim, 0), (dim, 2), rfl, .cons (s₁ := (dim, 1)) rfl (.cons (s₁ := (dim, 2)) rfl (.nil _))⟩
  scale := rfl
  inside := by
    intro n hn j
    interval_cases n <;> norm_num [diagonal]

theorem diagonal_discrepancy : DiscrepancyAtMost 2 (fun n => diagonal n / 1) (1 / 4) := by
  intro t h0 h1
  rw [Finset.card_filter, Finset.sum_range_succ, Finset.sum_range_succ, Finset.sum_range_zero]
  simp only [diagonal]
  rw [abs_le]
  split <;> split <;> constructor <;> push_cast <;> linarith

theorem log_hundred : |Real.log 100| ≤ 7 := by
  rw [abs_of_nonneg (Real.log_nonneg (by norm_num)), Real.log_le_iff_le_exp (by norm_num)]
  have := Real.add_one_le_exp (7 / 2 : ℝ)
  have e : Real.exp 7 = Real.exp 1 ^ 7 := by rw [← Real.exp_nat_mul]; norm_num
  rw [e]
  calc (100 : ℝ) ≤ 2 ^ 7 := by norm_num
    _ ≤ Real.exp 1 ^ 7 := by gcongr; linarith [Real.add_one_le_exp (1 : ℝ)]

theorem comfortable_one : Comfortable 100 (1 / 4) (1 / 16) ((none : Option ℝ).getD 0) 1 1 10 0 where
  range := by
    have := log_hundred
    norm_num [logRange]
    linarith
  pos := by norm_num
  draws := by norm_num
  vol := by rw [abs_of_pos (by norm_num)]; norm_num
  rate := by rw [abs_of_pos (by norm_num)]; norm_num
  coupon := by norm_num
  step := by norm_num
  work := by norm_num [workBound]

theorem sqrt_four : Real.sqrt ((4 : ℕ) : ℝ) = 2 := by
  rw [show ((4 : ℕ) : ℝ) = 2 ^ 2 by norm_num, Real.sqrt_sq (by norm_num)]

theorem comfortable_four : Comfortable 100 (1 / 4) (1 / 16) ((none : Option ℝ).getD 0) 1 4 (10 * Real.sqrt (4 : ℕ)) 0 := by
  have h : Real.sqrt (1 / (4 : ℕ)) = 1 / 2 := by
    rw [Real.sqrt_div (by norm_num), sqrt_four, Real.sqrt_one]
  rw [sqrt_four]
  refine ⟨?_, by norm_num, by norm_num, ?_, ?_, by norm_num, by norm_num, ?_⟩
  · have := log_hundred
    rw [logRange, h, sqrt_four]
    norm_num
    linarith
  · rw [abs_of_pos (by norm_num)]; norm_num
  · rw [abs_of_pos (by norm_num)]; norm_num
  · rw [workBound, h]
    norm_num

/-- Quasi Monte Carlo prices of an Asian call with four dates from two points. -/
example := C95_arithmeticAsian (S := 100) (sigma := 1 / 4) (r := 1 / 16) (q := none) (T := 1) (K := 100) (diagonal_run (dim := 4) (by norm_num) (by norm_num [INT_MAX]) 7)
  .call (by rw [abs_of_pos (by norm_num)]; norm_num) (by rw [abs_of_pos (by norm_num)]; norm_num) comfortable_four
example := C95_geometricAsian (S := 100) (sigma := 1 / 4) (r := 1 / 16) (q := none) (T := 1) (K := 100) (diagonal_run (dim := 4) (by norm_num) (by norm_num [INT_MAX]) 7)
  .call (by rw [abs_of_pos (by norm_num)]; norm_num) (by rw [abs_of_pos (by norm_num)]; norm_num) comfortable_four
example := C95_european (S := 100) (sigma := 1 / 4) (r := 1 / 16) (q := none) (T := 1) (K := 100) (diagonal_run (dim := 4) (by norm_num) (by norm_num [INT_MAX]) 7)
  .call (by rw [abs_of_pos (by norm_num)]; norm_num) (by rw [abs_of_pos (by norm_num)]; norm_num) comfortable_four
example := C95_fixedLookback (S := 100) (sigma := 1 / 4) (r := 1 / 16) (q := none) (T := 1) (K := 100) (diagonal_run (dim := 4) (by norm_num) (by norm_num [INT_MAX]) 7)
  .call (by rw [abs_of_pos (by norm_num)]; norm_num) (by rw [abs_of_pos (by norm_num)]; norm_num) comfortable_four
example := C95_floatingLookback (S := 100) (sigma := 1 / 4) (r := 1 / 16) (q := none) (T := 1) (diagonal_run (dim := 4) (by norm_num) (by norm_num [INT_MAX]) 7)
  .call (by rw [abs_of_pos (by norm_num)]; norm_num) comfortable_four
example := C95_knockIn (S := 100) (sigma := 1 / 4) (r := 1 / 16) (q := none) (T := 1) (K := 100) (diagonal_run (dim := 4) (by norm_num) (by norm_num [INT_MAX]) 7)
  .call (by rw [abs_of_pos (by norm_num)]; norm_num) (by rw [abs_of_pos (by norm_num)]; norm_num) comfortable_four 110 .up
example := C95_knockOut (S := 100) (sigma := 1 / 4) (r := 1 / 16) (q := none) (T := 1) (K := 100) (diagonal_run (dim := 4) (by norm_num) (by norm_num [INT_MAX]) 7)
  .call (by rw [abs_of_pos (by norm_num)]; norm_num) (by rw [abs_of_pos (by norm_num)]; norm_num) comfortable_four 110 .up

theorem diagonal_far {dim : ℕ} {z : ℕ → Fin dim → ℝ} (hz : NormalScores 2 (fun n _ => diagonal n / 1) z) (j : Fin dim) :
    z 0 j ≤ -(49 / 100) ∧ 49 / 100 ≤ z 1 j := by
  have h0 := abs_le.mp (hz 0 (by norm_num) j).1
  have h1 := abs_le.mp (hz 1 (by norm_num) j).1
  simp only [diagonal] at h0 h1
  change _ ≤ Phi _ - _ ∧ Phi _ - _ ≤ _ at h0 h1
  have l0 := abs_le.mp (Phi_lipschitz (z 0 j) 0)
  have l1 := abs_le.mp (Phi_lipschitz (z 1 j) 0)
  rw [Phi_zero, sub_zero] at l0 l1
  constructor
  · rcases le_total (z 0 j) 0 with h | h
    · rw [abs_of_nonpos h] at l0; linarith
    · have := Phi_mono h; rw [Phi_zero] at this; linarith
  · rcases le_total 0 (z 1 j) with h | h
    · rw [abs_of_nonneg h] at l1; linarith
    · have := Phi_mono h; rw [Phi_zero] at this; linarith

theorem far_clear {w x : ℝ} (hw : w ≤ 2 ^ 40) (hx : 0 ≤ x) (h : x ≤ 97 ∨ 103 ≤ x) : 2 ^ (-49 : ℤ) * w * x < |x - 100| := by
  have : 2 ^ (-49 : ℤ) * w ≤ 1 / 512 := (mul_le_mul_of_nonneg_left hw (by positivity)).trans (by norm_num)
  have h2 := mul_le_mul_of_nonneg_right this hx
  refine lt_of_le_of_lt h2 ?_
  rcases h with h | h
  · exact lt_of_lt_of_le (by linarith) (neg_le_abs _)
  · exact lt_of_lt_of_le (by linarith) (le_abs_self _)

/-- The prices on the two paths: below 97 on the first, above 103 on the second. -/
theorem diagonal_prices {z : ℕ → Fin 1 → ℝ} (hz : NormalScores 2 (fun n _ => diagonal n / 1) z) :
    ∀ n < 2, 2 ^ (-49 : ℤ) * workOf (1 / 4) (1 / 16) none 1 1 (List.ofFn (z n)) * pathOf 100 (1 / 4) (1 / 16) none 1 1 (List.ofFn (z n)) 0 <
      |pathOf 100 (1 / 4) (1 / 16) none 1 1 (List.ofFn (z n)) 0 - 100| := by
  intro n hn
  have hm := scores_all hz (by norm_num) (S := 100) (sigma := 1 / 4) (r := 1 / 16) (q := none) (T := 1) (by simpa using comfortable_one)
  have hw := (scores_work (by norm_num) (hm _ (List.mem_map.mpr ⟨n, List.mem_range.mpr hn, rfl⟩))).2.1
  obtain ⟨f0, f1⟩ := diagonal_far hz 0
  have hlev : pathOf 100 (1 / 4) (1 / 16) none 1 1 (List.ofFn (z n)) 0 = 100 * Real.exp (1 / 32 + 1 / 4 * z n 0) := by
    simp [pathOf, gbmPath]
    norm_num
  refine far_clear hw (by rw [hlev]; positivity) ?_
  rw [hlev]
  interval_cases n
  · left
    have : Real.exp (1 / 32 + 1 / 4 * z 0 0) ≤ Real.exp (-(1 / 20)) := Real.exp_le_exp.mpr (by linarith)
    have h2 : Real.exp (-(1 / 20 : ℝ)) ≤ 1 / (21 / 20) := by
      rw [Real.exp_neg, ← one_div]
      exact one_div_le_one_div_of_le (by norm_num) (by linarith [Real.add_one_le_exp (1 / 20 : ℝ)])
    norm_num at h2
    linarith only [h2, this]
  · right
    linarith [Real.add_one_le_exp (1 / 32 + 1 / 4 * z 1 0)]

/-- A digital call at the money from the two points with the star discrepancy one quarter. -/
example : ∃ (st : Quasi.State (ℕ × ℕ) (Dbl .binary64)) (y : ℝ),
    (MC.singlePath (ModelKind.source (Quasi.gen diagonalSeq) 1 ⟨.num (100 : ℝ), .num (1 / 4 : ℝ), (none : Option ℝ).map fun x : ℝ => .num x, .num (1 / 16 : ℝ)⟩ .gbm)
      (pure (.num (1 / 16 : ℝ))) (Payoff.digital .call (.num (100 : ℝ))).eval1 (.num (1 : ℝ)) 2 st).1 = .ok (.num y) ∧
    |y - Real.exp (-(1 / 16 * 1)) * exceedance 100 (1 / 4) (1 / 16) 0 1 100| ≤
      Real.exp (-(1 / 16 * 1)) * (1 / 4 + 7 / 10000000000 + ((2 : ℕ) + 9) * 2 ^ (-52 : ℤ)) + 2 ^ (-1070 : ℤ) := by
  obtain ⟨st, z, -, hz, h⟩ := C95_digital (S := 100) (sigma := 1 / 4) (r := 1 / 16) (q := none) (T := 1) (K := 100)
    (diagonal_run (dim := 1) (by norm_num) (by norm_num [INT_MAX]) 7)
    .call (by norm_num) (by rw [abs_of_pos (by norm_num)]; norm_num) (by norm_num) comfortable_one diagonal_discrepancy
  obtain ⟨y, h1, h2⟩ := h (diagonal_prices hz)
  exact ⟨st, y, h1, h2⟩

/-- A down-and-out option with the barrier at the spot price and one date. -/
example : ∃ (st : Quasi.State (ℕ × ℕ) (Dbl .binary64)) (z : ℕ → Fin 1 → ℝ), NormalScores 2 (fun n _ => diagonal n / 1) z ∧
    MeanUpTo (MC.barrier .knockOut (ModelKind.source (Quasi.gen diagonalSeq) 1
        ⟨.num (100 : ℝ), .num (1 / 4 : ℝ), (none : Option ℝ).map fun x : ℝ => .num x, .num (1 / 16 : ℝ)⟩ .gbm) (pure (.num (1 / 16 : ℝ)))
        (OptionModel.knockOutIsActive (.num (100 : ℝ)) .down) (Payoff.vanilla .call (.num (90 : ℝ))).eval1 (.num (1 : ℝ)) 2 st).1 (1 / 16) 1
      ((List.range 2).map fun n => knockOutValue (PayoffType.call = .call) 90 100 .down 1 (pathOf 100 (1 / 4) (1 / 16) none 1 1 (List.ofFn (z n))))
      ((List.range 2).map fun n => valueError (2 ^ (-49 : ℤ) * workOf (1 / 4) (1 / 16) none 1 1 (List.ofFn (z n))) 90
        (pathOf 100 (1 / 4) (1 / 16) none 1 1 (List.ofFn (z n)) 0)) := by
  obtain ⟨st, z, -, hz, h⟩ := C95_knockOut (S := 100) (sigma := 1 / 4) (r := 1 / 16) (q := none) (T := 1) (K := 90)
    (diagonal_run (dim := 1) (by norm_num) (by norm_num [INT_MAX]) 7)
    .call (by rw [abs_of_pos (by norm_num)]; norm_num) (by rw [abs_of_pos (by norm_num)]; norm_num) (by simpa using comfortable_one) 100 .down
  refine ⟨st, z, hz, h fun n hn j hj => ?_⟩
  interval_cases j
  exact diagonal_prices hz n hn

/-- The two points have the star discrepancy one quarter. -/
example := C95_put (S := 100) (sigma := 1 / 4) (r := 1 / 16) (q := none) (T := 1) (K := 100) (diagonal_run (dim := 1) (by norm_num) (by norm_num [INT_MAX]) 7)
  (by norm_num) (by norm_num) (by rw [abs_of_pos (by norm_num)]; norm_num) (by norm_num) comfortable_one diagonal_discrepancy
example := C95_digital (S := 100) (sigma := 1 / 4) (r := 1 / 16) (q := none) (T := 1) (K := 100) (diagonal_run (dim := 1) (by norm_num) (by norm_num [INT_MAX]) 7)
  .call (by norm_num) (by rw [abs_of_pos (by norm_num)]; norm_num) (by norm_num) comfortable_one diagonal_discrepancy

end Verif
