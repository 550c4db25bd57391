import Verif.Spec.PathSessionSpec
import Verif.Props.DoubleSession
import Verif.Props.PathDependentError
import Verif.Props.LookbackSession
import Verif.Props.ClosedForm
import Mathlib.Analysis.MeanInequalities

/-!
# Property C89: lookback and Asian sessions in double precision against the discounted expected payoff
-/

set_option exponentiation.threshold 3000

namespace Verif
open Spec MeasureTheory ProbabilityTheory

/-! ## One path -/

section
variable {S sigma r q T : ℝ} {n : ℕ} {B tau : ℝ} (hC : Comfortable S sigma r q T n B tau) {z z' : ℕ → ℝ} (hz : Calm n B z)
  (hz' : ∀ j < n, |z' j - z j| ≤ tau)
include hC hz hz'

/-- `calm_price` for all dates. -/
theorem calm_prices {j : ℕ} (hj : j < n) : 0 < gbmPath S sigma r q T n z' j ∧ gbmPath S sigma r q T n z' j ≤ S * Real.exp (logRange sigma r q T n B tau) ∧
    |gbmPath S sigma r q T n z' j - gbmPath S sigma r q T n z j| ≤ S * Real.exp (logRange sigma r q T n B tau) * (|sigma| * Real.sqrt (T / n) * (n * tau)) := by
  obtain ⟨hS, hB, ht⟩ := hC.pos
  obtain ⟨h1, h2, h3⟩ := calm_exponent hC hz hz' hj
  refine ⟨mul_pos hS (Real.exp_pos _), ?_, ?_⟩
  · unfold gbmPath
    have := (abs_le.mp h2).2
    gcongr
  · unfold gbmPath
    rw [← mul_sub, abs_mul, abs_of_pos hS, mul_assoc S (Real.exp _)]
    refine mul_le_mul_of_nonneg_left ((abs_exp_sub_exp_le (abs_le.mp h2).2 (abs_le.mp h1).2).trans ?_) hS.le
    refine mul_le_mul_of_nonneg_left ?_ (Real.exp_pos _).le
    rw [add_sub_add_left_eq_sub, ← mul_sub, abs_mul, abs_mul, abs_of_nonneg (Real.sqrt_nonneg _)]
    gcongr

end

section
variable {n : ℕ} (hn : 0 < n) {x y : ℕ → ℝ} {d M : ℝ}
include hn

theorem highest_diff (h : ∀ j < n, |x j - y j| ≤ d) : |highest n x - highest n y| ≤ d := by
  obtain ⟨j, hj, e1⟩ := highest_mem hn x
  obtain ⟨k, hk, e2⟩ := highest_mem hn y
  have a1 := le_highest hn y hj
  have a2 := le_highest hn x hk
  have b1 := abs_le.mp (h j hj)
  have b2 := abs_le.mp (h k hk)
  rw [abs_le]
  constructor <;> linarith

theorem lowest_diff (h : ∀ j < n, |x j - y j| ≤ d) : |lowest n x - lowest n y| ≤ d := by
  obtain ⟨j, hj, e1⟩ := lowest_mem hn x
  obtain ⟨k, hk, e2⟩ := lowest_mem hn y
  have a1 := lowest_le hn y hj
  have a2 := lowest_le hn x hk
  have b1 := abs_le.mp (h j hj)
  have b2 := abs_le.mp (h k hk)
  rw [abs_le]
  constructor <;> linarith

theorem meanOf_diff (h : ∀ j < n, |x j - y j| ≤ d) : |meanOf n x - meanOf n y| ≤ d := by
  have hn0 : (0 : ℝ) < n := by exact_mod_cast hn
  unfold meanOf
  rw [← sub_div, ← Finset.sum_sub_distrib, abs_div, abs_of_pos hn0, div_le_iff₀ hn0]
  refine (Finset.abs_sum_le_sum_abs _ _).trans ((Finset.sum_le_sum fun j hj => h j (Finset.mem_range.mp hj)).trans_eq ?_)
  rw [Finset.sum_const, Finset.card_range, nsmul_eq_mul, mul_comm]

theorem highest_bounds (h : ∀ j < n, 0 < x j ∧ x j ≤ M) : 0 < highest n x ∧ highest n x ≤ M := by
  obtain ⟨j, hj, e⟩ := highest_mem hn x
  rw [e]
  exact h j hj

theorem lowest_bounds (h : ∀ j < n, 0 < x j ∧ x j ≤ M) : 0 < lowest n x ∧ lowest n x ≤ M := by
  obtain ⟨j, hj, e⟩ := lowest_mem hn x
  rw [e]
  exact h j hj

theorem meanOf_bounds (h : ∀ j < n, 0 < x j ∧ x j ≤ M) : 0 < meanOf n x ∧ meanOf n x ≤ M := by
  have hn0 : (0 : ℝ) < n := by exact_mod_cast hn
  unfold meanOf
  refine ⟨div_pos (Finset.sum_pos (fun j hj => (h j (Finset.mem_range.mp hj)).1) ⟨0, Finset.mem_range.mpr hn⟩) hn0, ?_⟩
  rw [div_le_iff₀ hn0]
  refine (Finset.sum_le_sum fun j hj => (h j (Finset.mem_range.mp hj)).2).trans_eq ?_
  rw [Finset.sum_const, Finset.card_range, nsmul_eq_mul, mul_comm]

end

/-- The geometric mean of a path is the exponential of the mean exponent. -/
theorem geomMeanOf_path {S : ℝ} (hS : 0 < S) {n : ℕ} (hn : 0 < n) (e : ℕ → ℝ) :
    geomMeanOf n (fun j => S * Real.exp (e j)) = S * Real.exp (meanOf n e) := by
  have hn0 : (n : ℝ) ≠ 0 := by exact_mod_cast hn.ne'
  unfold geomMeanOf meanOf
  rw [Finset.prod_mul_distrib, Finset.prod_const, Finset.card_range, ← Real.exp_sum, Real.mul_rpow (by positivity) (Real.exp_pos _).le,
    ← Real.exp_mul, ← Real.rpow_natCast, ← Real.rpow_mul hS.le, mul_one_div_cancel hn0, Real.rpow_one, mul_one_div]

/-! ## The averages -/

/-- From the payoffs for the computed draws to those for the exact draws. -/
theorem calm_mean {E : Type} {out : Res (Dbl .binary64)} {r T : ℝ} {zss : List (List ℝ)} {ys : List E} {f err : List ℝ → ℝ} {g : E → ℝ} {R : List ℝ → E → Prop} {N : ℕ}
    (hm : MeanUpTo out r T (zss.map f) (zss.map err)) (hl : zss.length = N) (hN : 0 < N) (hN2 : N ≤ INT_MAX) (h2 : List.Forall₂ R zss ys) {L eb M : ℝ}
    (hF : ∀ zs y, R zs y → |f zs - g y| ≤ L) (hE : ∀ zs ∈ zss, err zs ≤ eb) (hM : ∀ zs ∈ zss, f zs ≤ M) (heb : 0 ≤ eb) :
    ∃ y : ℝ, out = .ok (.num y) ∧ |y - discountedMean r T (ys.map g)| ≤ Real.exp (-(r * T)) * (2 * eb + (N + 9) * 2 ^ (-52 : ℤ) * M + L) + 2 ^ (-1070 : ℤ) := by
  obtain ⟨y, y1, y2⟩ := hm
  refine ⟨y, y1, ?_⟩
  have hNr : (0 : ℝ) < N := by exact_mod_cast hN
  have hNm : (N : ℝ) ≤ 2 ^ 31 := by
    have : (N : ℝ) ≤ INT_MAX := by exact_mod_cast hN2
    exact this.trans (by norm_num [INT_MAX])
  have hly : ys.length = N := by rw [← h2.length_eq, hl]
  have s1 := forall₂_sum_le hF h2
  have s2 := list_sum_le hE
  have s3 := list_sum_le hM
  unfold discountedMean at y2 ⊢
  simp only [List.length_map, hl, hly] at y2 s1 s2 s3 ⊢
  have hdp := Real.exp_pos (-(r * T))
  generalize Real.exp (-(r * T)) = d at *
  generalize (zss.map f).sum = fs at *
  generalize (zss.map err).sum = p at *
  generalize (ys.map g).sum = gs at *
  have t1 : |d * (fs / N) - d * (gs / N)| ≤ d * L := by
    rw [← mul_sub, ← sub_div, abs_mul, abs_div, abs_of_pos hdp, abs_of_pos hNr]
    have : |fs - gs| / N ≤ L := by
      rw [div_le_iff₀ hNr]
      linarith
    gcongr
  have t2 : d * (p / N) ≤ d * eb := by
    have : p / N ≤ eb := by
      rw [div_le_iff₀ hNr]
      linarith
    gcongr
  have t3 : d * (fs / N) ≤ d * M := by
    have : fs / N ≤ M := by
      rw [div_le_iff₀ hNr]
      linarith
    gcongr
  have u1 : ((N : ℝ) + 9) * 2 ^ (-52 : ℤ) ≤ 1 := by
    calc ((N : ℝ) + 9) * 2 ^ (-52 : ℤ) ≤ (2 ^ 31 + 9) * 2 ^ (-52 : ℤ) := by gcongr
      _ ≤ 1 := by norm_num
  have u0 : 0 ≤ ((N : ℝ) + 9) * 2 ^ (-52 : ℤ) := by positivity
  generalize ((N : ℝ) + 9) * 2 ^ (-52 : ℤ) = u at *
  have v1 : (1 + u) * (d * (p / N)) ≤ 2 * (d * eb) :=
    (mul_le_mul_of_nonneg_left t2 (by linarith)).trans (mul_le_mul_of_nonneg_right (by linarith) (by positivity))
  have v2 : u * (d * (fs / N)) ≤ u * (d * M) := mul_le_mul_of_nonneg_left t3 u0
  have e1 : d * (2 * eb + u * M + L) = 2 * (d * eb) + u * (d * M) + d * L := by ring
  have := abs_sub_le y (d * (fs / N)) (d * (gs / N))
  rw [e1]
  generalize (2 : ℝ) ^ (-1070 : ℤ) = t at *
  linarith

section
variable {E : Type} [MeasurableSpace E] {μ : Measure E} [IsProbabilityMeasure μ]

theorem deviates_of_mean {run : Eff E (Dbl .binary64)} {Y : E → ℝ} {Good : E → Prop} {mean gap p : ℝ} {bound : ℝ → ℝ} (hg : μ.real {x | ¬ Good x} ≤ p)
    (hrun : ∀ x, Good x → ∃ y : ℝ, (run x).1 = .ok (.num y) ∧ |y - Y x| ≤ gap) (hY : ∀ ε, 0 < ε → μ.real {x | ε ≤ |Y x - mean|} ≤ bound ε) :
    DoubleDeviates μ run mean gap fun ε => bound ε + p := by
  intro ε hε
  refine (measureReal_mono ?_ (measure_ne_top _ _)).trans ((measureReal_union_le _ _).trans (add_le_add (hY ε hε) hg))
  intro x hx
  by_contra hn
  rw [Set.mem_union, not_or] at hn
  obtain ⟨n1, n2⟩ := hn
  simp only [Set.mem_setOf_eq, not_le, not_not] at n1 n2
  obtain ⟨y, y1, y2⟩ := hrun x n2
  refine hx ⟨y, y1, ?_⟩
  have := abs_sub_le y (Y x) mean
  linarith

variable {count : ℝ → Measure ℕ} {e : Engine E ℝ} {n : ℕ} {Z : ℕ → E → ℝ} {next : E → E}

/-- The discounted mean of a contract over successive paths of a perfect engine is an average of independent copies. -/
theorem average_law (he : RandomEngine e μ count)
    (hd : ∀ s, Draws (e.gen.draw .stdNormal) (e.gen.newDist .stdNormal s) ((List.range n).map fun j => Z j s) (next s)) (hn : n ≤ INT_MAX)
    {S : ℝ} (hS : 0 < S) (sigma r T : ℝ) (q : Option ℝ) {F : (ℕ → ℝ) → ℝ} (hfm : Measurable fun l : List ℝ => F fun j => l.getD j 0)
    (hfc : ∀ x y : ℕ → ℝ, (∀ j < n, x j = y j) → F x = F y) :
    Averages μ (fun N x => (.ok (discountedMean r T ((List.iterate next x N).map fun y => F (gbmPath S sigma r (q.getD 0) T n fun l => Z l y))), next^[N] x))
      Set.univ (Real.exp (-(r * T))) fun x => F (gbmPath S sigma r (q.getD 0) T n fun l => Z l x) := by
  have hpr : ∀ y, Sim.prices e.gen n ⟨S, sigma, q, r⟩ T .gbm y = (.ok ((List.range n).map fun j => gbmPath S sigma r (q.getD 0) T n (fun l => Z l y) j), next y) :=
    fun y => prices_of_draws hn (hd y) ⟨S, sigma, q, r⟩ T
  have hloc : ∀ y, (F fun j => ((List.range n).map fun j => gbmPath S sigma r (q.getD 0) T n (fun l => Z l y) j).getD j 0) =
      F (gbmPath S sigma r (q.getD 0) T n fun l => Z l y) := fun y => hfc _ _ fun j hj => by simp [hj]
  obtain ⟨X, a1, a2, a3⟩ := averages_prices (randomSource_engine he) (v := ⟨S, sigma, q, r⟩) hS (T := T) hn (k := .gbm) trivial
    (pp := fun l => .ok (F fun j => l.getD j 0)) hfm (fun l _ _ => rfl) (X := fun j y => gbmPath S sigma r (q.getD 0) T n (fun l => Z l y) j)
    (fun y => ⟨next y, hpr y⟩) r
  simp only [hloc] at a2
  refine ⟨X, a1, a2, fun N _ hN x => ⟨next^[N] x, ?_⟩⟩
  obtain ⟨s', hs⟩ := a3 N trivial hN x
  have hD : ∀ (N : ℕ) (x : E), Draws (Sim.prices e.gen n ⟨S, sigma, q, r⟩ T .gbm) x
      ((List.iterate next x N).map fun y => (List.range n).map fun j => gbmPath S sigma r (q.getD 0) T n (fun l => Z l y) j) (next^[N] x) := by
    intro N
    induction N with
    | zero => exact fun x => .nil _
    | succ N ih => exact fun x => .cons (hpr x) (ih (next x))
  have hP : ∀ l : List E, Pays (fun l => .ok (F fun j => l.getD j 0)) (l.map fun y => (List.range n).map fun j => gbmPath S sigma r (q.getD 0) T n (fun l => Z l y) j)
      (l.map fun y => F (gbmPath S sigma r (q.getD 0) T n fun l => Z l y)) := by
    intro l
    induction l with
    | nil => exact .nil
    | cons a l ih => exact .cons (congrArg Res.ok (hloc a)) ih
  have := MC.longPricer_ok (getR := Eff.lift (.ok r)) (T := T) (r := r) rfl (hD N x) (hP _)
  rw [price_eq_discountedMean _ _ _ (by simp), List.length_map, List.length_iterate, hs] at this
  rw [Res.ok.inj (Prod.mk.inj this).1]

theorem fair_of_normals (hZ : IidNormal μ Z) (S sigma r q T : ℝ) {F : (ℕ → ℝ) → ℝ} (hm : Measurable fun z => F (gbmPath S sigma r q T n z)) :
    Real.exp (-(r * T)) * ∫ x, F (gbmPath S sigma r q T n fun l => Z l x) ∂μ = fairValue S sigma r q T n F ∧
    Var[fun x => Real.exp (-(r * T)) * F (gbmPath S sigma r q T n fun l => Z l x); μ] = fairVariance S sigma r q T n F := by
  have m1 : Measurable fun x j => Z j x := measurable_pi_lambda _ hZ.measurable
  have m2 := hm.const_mul (Real.exp (-(r * T)))
  unfold fairValue fairVariance
  rw [← map_normals hZ, integral_map m1.aemeasurable m2.aestronglyMeasurable, variance_map m2.aemeasurable m1.aemeasurable, integral_const_mul]
  exact ⟨rfl, rfl⟩

theorem iidNormal_normals : IidNormal normals fun j z => z j where
  measurable := measurable_pi_apply
  law i := Measure.infinitePi_map_eval _ i
  indep := iIndepFun_infinitePi (X := fun _ u => u) fun _ => measurable_id

/-- Chebyshev's inequality for the discounted mean. -/
theorem mean_chebyshev (he : RandomEngine e μ count) (hZ : IidNormal μ Z)
    (hd : ∀ s, Draws (e.gen.draw .stdNormal) (e.gen.newDist .stdNormal s) ((List.range n).map fun j => Z j s) (next s)) (hn : n ≤ INT_MAX)
    {S : ℝ} (hS : 0 < S) (sigma r T : ℝ) (q : Option ℝ) {F : (ℕ → ℝ) → ℝ} (hfm : Measurable fun l : List ℝ => F fun j => l.getD j 0)
    (hfc : ∀ x y : ℕ → ℝ, (∀ j < n, x j = y j) → F x = F y) (hm : Measurable fun z => F (gbmPath S sigma r (q.getD 0) T n z))
    (hL : MemLp (fun x => F (gbmPath S sigma r (q.getD 0) T n fun l => Z l x)) 2 μ) {N : ℕ} (hN : 0 < N) {ε : ℝ} (hε : 0 < ε) :
    μ.real {x | ε ≤ |discountedMean r T ((List.iterate next x N).map fun y => F (gbmPath S sigma r (q.getD 0) T n fun l => Z l y)) -
      fairValue S sigma r (q.getD 0) T n F|} ≤ fairVariance S sigma r (q.getD 0) T n F / (N * ε ^ 2) := by
  obtain ⟨Y, y1, y2, y3, y4⟩ := C70_estimator (average_law he hd hn hS sigma r T q hfm hfc) hL (show N ∈ Set.univ from trivial) hN
  obtain ⟨f1, f2⟩ := fair_of_normals hZ S sigma r (q.getD 0) T hm
  have hch := meas_ge_le_variance_div_sq y2 hε
  rw [y3, y4, f1, f2, div_div] at hch
  have e : (fun x => discountedMean r T ((List.iterate next x N).map fun y => F (gbmPath S sigma r (q.getD 0) T n fun l => Z l y))) = Y := by
    funext x
    obtain ⟨s', h⟩ := y1 x
    exact Res.ok.inj (Prod.mk.inj h).1
  rw [measureReal_def]
  refine (ENNReal.toReal_mono ENNReal.ofReal_ne_top ((congrArg μ ?_).trans_le hch)).trans ?_
  · ext x
    rw [Set.mem_setOf_eq, Set.mem_setOf_eq, ← e]
  · rw [ENNReal.toReal_ofReal (div_nonneg (by rw [← f2]; exact variance_nonneg _ _) (by positivity))]

/-- Hoeffding's inequality for the discounted mean of a bounded payoff. -/
theorem mean_hoeffding (he : RandomEngine e μ count) (hZ : IidNormal μ Z)
    (hd : ∀ s, Draws (e.gen.draw .stdNormal) (e.gen.newDist .stdNormal s) ((List.range n).map fun j => Z j s) (next s)) (hn : n ≤ INT_MAX)
    {S : ℝ} (hS : 0 < S) (sigma r T : ℝ) (q : Option ℝ) {F : (ℕ → ℝ) → ℝ} (hfm : Measurable fun l : List ℝ => F fun j => l.getD j 0)
    (hfc : ∀ x y : ℕ → ℝ, (∀ j < n, x j = y j) → F x = F y) (hm : Measurable fun z => F (gbmPath S sigma r (q.getD 0) T n z))
    {b : ℝ} (hb0 : 0 < b) (hb : ∀ z, 0 ≤ F (gbmPath S sigma r (q.getD 0) T n z) ∧ F (gbmPath S sigma r (q.getD 0) T n z) ≤ b) {N : ℕ} (hN : 0 < N) {ε : ℝ} (hε : 0 < ε) :
    μ.real {x | ε ≤ |discountedMean r T ((List.iterate next x N).map fun y => F (gbmPath S sigma r (q.getD 0) T n fun l => Z l y)) -
      fairValue S sigma r (q.getD 0) T n F|} ≤ 2 * Real.exp (-(2 * N * ε ^ 2) / (Real.exp (-(r * T)) * b) ^ 2) := by
  obtain ⟨Y, y1, y2⟩ := C70_hoeffding (Real.exp_pos _) (average_law he hd hn hS sigma r T q hfm hfc) hb0 (fun x => hb _) (show N ∈ Set.univ from trivial) hN
  obtain ⟨f1, f2⟩ := fair_of_normals hZ S sigma r (q.getD 0) T hm
  have e : (fun x => discountedMean r T ((List.iterate next x N).map fun y => F (gbmPath S sigma r (q.getD 0) T n fun l => Z l y))) = Y := by
    funext x
    obtain ⟨s', h⟩ := y1 x
    exact Res.ok.inj (Prod.mk.inj h).1
  have := y2 ε hε.le
  rw [f1, sub_zero] at this
  refine (congrArg μ.real ?_).trans_le this
  ext x
  rw [Set.mem_setOf_eq, Set.mem_setOf_eq, ← e]

end

section
variable {E Q : Type} (env : Env E Q (Dbl .binary64)) {e : Engine E ℝ}

/-- When all paths are calm, the run in doubles meets the assumptions of C88, with draws close to the exact ones. -/
theorem calm_run {i : Session (Dbl .binary64)} {S sigma r T : ℝ} {q : Option ℝ} (hdata : DoubleData i S sigma r q T)
    {B tau : ℝ} (hC : Comfortable S sigma r (q.getD 0) T i.dim B tau) (hE : NormalsClose env.engine e B tau) {Z : ℕ → E → ℝ} {next : E → E}
    (hd : ∀ s, Draws (e.gen.draw .stdNormal) (e.gen.newDist .stdNormal s) ((List.range i.dim).map fun j => Z j s) (next s))
    {N : ℕ} (hN : 0 < N) (hN2 : N ≤ INT_MAX) (x : E) (hx : ∀ m < N, Calm i.dim B fun l => Z l (next^[m] x)) :
    ∃ zss : List (List ℝ), DoubleRun env i S sigma r q T x zss ∧ zss.length = N ∧
      (∀ zs ∈ zss, ∃ y, Calm i.dim B (fun l => Z l y) ∧ ∀ j < i.dim, |zs.getD j 0 - Z j y| ≤ tau) ∧
      List.Forall₂ (fun zs y => Calm i.dim B (fun l => Z l y) ∧ ∀ j < i.dim, |zs.getD j 0 - Z j y| ≤ tau) zss (List.iterate next x N) := by
  obtain ⟨zss, d1, d2⟩ := close_paths hE hd N x hx
  have hl : zss.length = N := by simpa using d2.length_eq
  have hall : ∀ zs ∈ zss, ∃ y, Calm i.dim B (fun l => Z l y) ∧ ∀ j < i.dim, |zs.getD j 0 - Z j y| ≤ tau := by
    intro zs hz
    obtain ⟨k, hk, rfl⟩ := List.mem_iff_getElem.mp hz
    exact ⟨_, d2.get hk (by rw [← d2.length_eq]; exact hk)⟩
  refine ⟨zss, ⟨hdata.price, hdata.vol, hdata.coupon, hdata.rate, hdata.maturity, hdata.dim, hdata.small, ⟨_, d1⟩, ⟨hl ▸ hN, hl ▸ hN2⟩, fun zs hz => ?_⟩, hl, hall, d2⟩
  obtain ⟨y, c1, c2⟩ := hall zs hz
  exact calm_moderate hC c1 c2 hdata.dim.1


variable [MeasurableSpace E] {μ : Measure E} [IsProbabilityMeasure μ] {count : ℝ → Measure ℕ}

/-- Whenever all paths are calm, the run in doubles returns a number close to the discounted mean of a contract `F` over the exact paths. -/
def CalmClose (e : Engine E ℝ) (run : Eff E (Dbl .binary64)) (S sigma r : ℝ) (q : Option ℝ) (T : ℝ) (n N : ℕ) (B : ℝ) (F : (ℕ → ℝ) → ℝ) (gap : ℝ) : Prop :=
  ∀ (Z : ℕ → E → ℝ) (next : E → E),
    (∀ s, Draws (e.gen.draw .stdNormal) (e.gen.newDist .stdNormal s) ((List.range n).map fun j => Z j s) (next s)) →
    ∀ x, (∀ m < N, Calm n B fun l => Z l (next^[m] x)) → ∃ y : ℝ, (run x).1 = .ok (.num y) ∧
      |y - discountedMean r T ((List.iterate next x N).map fun y => F (gbmPath S sigma r (q.getD 0) T n fun l => Z l y))| ≤ gap

/-- A session whose price is close to the discounted mean of a contract `F` whenever its paths are calm. -/
theorem session_deviates (he : RandomEngine e μ count) {i : Session (Dbl .binary64)} {S sigma r T : ℝ} {q : Option ℝ} (hdata : DoubleData i S sigma r q T)
    {B tau : ℝ} (hC : Comfortable S sigma r (q.getD 0) T i.dim B tau) {N : ℕ} (hN : 0 < N) {run : Eff E (Dbl .binary64)} {F : (ℕ → ℝ) → ℝ} {gap : ℝ}
    (hrun : CalmClose e run S sigma r q T i.dim N B F gap)
    (hfm : Measurable fun l : List ℝ => F fun j => l.getD j 0) (hfc : ∀ x y : ℕ → ℝ, (∀ j < i.dim, x j = y j) → F x = F y)
    (hm : Measurable fun z => F (gbmPath S sigma r (q.getD 0) T i.dim z)) :
    ((∀ Z : ℕ → E → ℝ, IidNormal μ Z → MemLp (fun x => F (gbmPath S sigma r (q.getD 0) T i.dim fun l => Z l x)) 2 μ) →
      DoubleDeviates μ run (fairValue S sigma r (q.getD 0) T i.dim F) gap fun ε => fairVariance S sigma r (q.getD 0) T i.dim F / (N * ε ^ 2) + rareEvent i.dim N B) ∧
    ∀ b, 0 < b → (∀ z, 0 ≤ F (gbmPath S sigma r (q.getD 0) T i.dim z) ∧ F (gbmPath S sigma r (q.getD 0) T i.dim z) ≤ b) →
      DoubleDeviates μ run (fairValue S sigma r (q.getD 0) T i.dim F) gap fun ε => 2 * Real.exp (-(2 * N * ε ^ 2) / (Real.exp (-(r * T)) * b) ^ 2) + rareEvent i.dim N B := by
  obtain ⟨Z, next, hZ, hp, hd⟩ := exists_normals (randomSource_engine he)
  have hc := calm_probability hZ (hp i.dim) hC.pos.2.1 i.dim N
  refine ⟨fun hL => ?_, fun b hb0 hb => ?_⟩
  · exact deviates_of_mean hc (fun x hx => hrun Z (next i.dim) (hd i.dim) x hx) fun ε hε =>
      mean_chebyshev he hZ (hd i.dim) hdata.dim.2 hC.pos.1 sigma r T q hfm hfc hm (hL Z hZ) hN hε
  · exact deviates_of_mean hc (fun x hx => hrun Z (next i.dim) (hd i.dim) x hx) fun ε hε =>
      mean_hoeffding he hZ (hd i.dim) hdata.dim.2 hC.pos.1 sigma r T q hfm hfc hm hb0 hb hN hε

end

/-! ## Contracts -/

section
variable {Ω : Type} [MeasurableSpace Ω]

theorem measurable_vanillaValue (c : Prop) [Decidable c] (K : ℝ) : Measurable (vanillaValue c K) := by
  unfold vanillaValue
  split <;> fun_prop

theorem measurable_meanOf {X : ℕ → Ω → ℝ} (n : ℕ) (h : ∀ j < n, Measurable (X j)) : Measurable fun ω => meanOf n fun j => X j ω :=
  (Finset.measurable_sum _ fun j hj => h j (Finset.mem_range.mp hj)).div_const _

theorem measurable_geomMeanOf {X : ℕ → Ω → ℝ} (n : ℕ) (h : ∀ j < n, Measurable (X j)) : Measurable fun ω => geomMeanOf n fun j => X j ω :=
  (Finset.measurable_prod _ fun j hj => h j (Finset.mem_range.mp hj)).pow_const _

theorem meanOf_congr {n : ℕ} {x y : ℕ → ℝ} (h : ∀ j < n, x j = y j) : meanOf n x = meanOf n y := by
  unfold meanOf
  rw [Finset.sum_congr rfl fun j hj => h j (Finset.mem_range.mp hj)]

theorem geomMeanOf_congr {n : ℕ} {x y : ℕ → ℝ} (h : ∀ j < n, x j = y j) : geomMeanOf n x = geomMeanOf n y := by
  unfold geomMeanOf
  rw [Finset.prod_congr rfl fun j hj => h j (Finset.mem_range.mp hj)]

theorem memLp_vanillaValue {P : Measure Ω} [IsProbabilityMeasure P] {V : Ω → ℝ} (hV : MemLp V 2 P) (c : Prop) [Decidable c] (K : ℝ) :
    MemLp (fun ω => vanillaValue c K (V ω)) 2 P := by
  unfold vanillaValue
  split
  · exact (hV.sub (memLp_const K)).pos_part
  · exact ((memLp_const K).sub hV).pos_part

theorem memLp_gbmPath {P : Measure Ω} [IsProbabilityMeasure P] {Z : ℕ → Ω → ℝ} (hZ : IidNormal P Z) (S sigma r T : ℝ) (q : Option ℝ) (n j : ℕ) :
    MemLp (fun ω => gbmPath S sigma r (q.getD 0) T n (fun l => Z l ω) j) 2 P :=
  letI : FlInf ℝ := ⟨0⟩
  (memLp_gbmPrice hZ ⟨S, sigma, q, r⟩ T n 0 j).ae_eq (.of_forall fun ω => gbmPrice_eq_path ⟨S, sigma, q, r⟩ T n Z j ω)

theorem lowest_nonneg {n : ℕ} (hn : 0 < n) {x : ℕ → ℝ} (h : ∀ j < n, 0 ≤ x j) : 0 ≤ lowest n x := by
  unfold lowest
  exact le_csInf ⟨x 0, 0, hn, rfl⟩ fun y ⟨j, hj, e⟩ => e ▸ h j hj

theorem meanOf_nonneg (n : ℕ) {x : ℕ → ℝ} (h : ∀ j < n, 0 ≤ x j) : 0 ≤ meanOf n x :=
  div_nonneg (Finset.sum_nonneg fun j hj => h j (Finset.mem_range.mp hj)) (Nat.cast_nonneg _)

theorem geomMeanOf_nonneg (n : ℕ) {x : ℕ → ℝ} (h : ∀ j < n, 0 ≤ x j) : 0 ≤ geomMeanOf n x :=
  Real.rpow_nonneg (Finset.prod_nonneg fun j hj => h j (Finset.mem_range.mp hj)) _

theorem memLp_meanOf {P : Measure Ω} {X : ℕ → Ω → ℝ} {n : ℕ} (_ : 0 < n) (hL : ∀ j < n, MemLp (X j) 2 P) (_ : ∀ j < n, Measurable (X j))
    (_ : ∀ j < n, ∀ x, 0 < X j x) : MemLp (fun ω => meanOf n fun j => X j ω) 2 P := by
  have hs : MemLp (fun x => ∑ j ∈ Finset.range n, X j x) 2 P := memLp_finset_sum _ fun j hj => hL j (Finset.mem_range.mp hj)
  have := hs.const_mul ((n : ℝ)⁻¹)
  unfold meanOf
  simpa only [div_eq_inv_mul] using this

theorem memLp_geomMeanOf {P : Measure Ω} {X : ℕ → Ω → ℝ} {n : ℕ} (hn : 0 < n) (hL : ∀ j < n, MemLp (X j) 2 P) (hm : ∀ j < n, Measurable (X j))
    (hp : ∀ j < n, ∀ x, 0 < X j x) : MemLp (fun ω => geomMeanOf n fun j => X j ω) 2 P := by
  refine (memLp_meanOf hn hL hm hp).mono (measurable_geomMeanOf n hm).aestronglyMeasurable (.of_forall fun ω => ?_)
  have hn0 : (0 : ℝ) < n := by exact_mod_cast hn
  have hs : ∑ _j ∈ Finset.range n, (1 : ℝ) = n := by simp
  have h1 := Real.geom_mean_le_arith_mean (Finset.range n) (fun _ => 1) (fun j => X j ω) (fun _ _ => zero_le_one) (by rw [hs]; exact hn0)
    fun j hj => (hp j (Finset.mem_range.mp hj) ω).le
  simp only [Real.rpow_one, one_mul, hs, inv_eq_one_div] at h1
  rw [Real.norm_eq_abs, Real.norm_eq_abs]
  exact abs_le_abs_of_nonneg (geomMeanOf_nonneg n fun j hj => (hp j hj ω).le) h1

theorem measurable_gbmPath_of {P : Measure Ω} {Z : ℕ → Ω → ℝ} (hZ : IidNormal P Z) (S sigma r q T : ℝ) (n j : ℕ) :
    Measurable fun ω => gbmPath S sigma r q T n (fun l => Z l ω) j :=
  (measurable_gbmPath S sigma r q T n j).comp (measurable_pi_lambda _ hZ.measurable)

end

section
variable {S sigma r q T : ℝ} {n : ℕ} {B tau : ℝ} (hC : Comfortable S sigma r q T n B tau)
include hC

theorem comfortable_nonneg : 0 ≤ S * Real.exp (logRange sigma r q T n B tau) ∧ 0 ≤ workBound sigma r q T n B tau ∧ 0 < T / n := by
  have hd0 : 0 < T / n := lt_of_lt_of_le (by positivity) hC.step.1
  have := hC.pos.2.1
  have := hC.pos.2.2
  refine ⟨mul_nonneg hC.pos.1.le (Real.exp_pos _).le, ?_, hd0⟩
  unfold workBound
  positivity

end

section
variable {E Q : Type} (env : Env E Q (Dbl .binary64)) {e : Engine E ℝ}
  {i : Session (Dbl .binary64)} {c : Session.Choices} {o : OptObj (Dbl .binary64)} {S sigma r T K : ℝ} {q : Option ℝ} {B tau : ℝ} {N : ℕ}

/-- Calls and puts on a quantity `V` that depends on the path. -/
theorem calm_vanilla (hdata : DoubleData i S sigma r q T) (hC : Comfortable S sigma r (q.getD 0) T i.dim B tau)
    (hE : NormalsClose env.engine e B tau) (hN : 0 < N) (hN2 : N ≤ INT_MAX) {run : Eff E (Dbl .binary64)} (cl : Prop) [Decidable cl] {V : (ℕ → ℝ) → ℝ} {w : ℝ} (hw0 : 0 ≤ w)
    (hm : ∀ x zss, DoubleRun env i S sigma r q T x zss → zss.length = N → MeanUpTo (run x).1 r T (zss.map fun zs => vanillaValue cl K (V (pathOf S sigma r q T i.dim zs)))
      (zss.map fun zs => valueError (w * workOf sigma r q T i.dim zs) K (V (pathOf S sigma r q T i.dim zs))))
    (hV : ∀ z z' : ℕ → ℝ, Calm i.dim B z → (∀ j < i.dim, |z' j - z j| ≤ tau) → 0 < V (gbmPath S sigma r (q.getD 0) T i.dim z') ∧
      V (gbmPath S sigma r (q.getD 0) T i.dim z') ≤ S * Real.exp (logRange sigma r (q.getD 0) T i.dim B tau) ∧
      |V (gbmPath S sigma r (q.getD 0) T i.dim z') - V (gbmPath S sigma r (q.getD 0) T i.dim z)| ≤
        S * Real.exp (logRange sigma r (q.getD 0) T i.dim B tau) * (|sigma| * Real.sqrt (T / i.dim) * (i.dim * tau))) :
    CalmClose e run S sigma r q T i.dim N B (fun x => vanillaValue cl K (V x)) (averageGap (2 * w) S sigma r (q.getD 0) T K i.dim N B tau) := by
  intro Z next hd x hx
  obtain ⟨zss, r1, r2, r3, r4⟩ := calm_run env hdata hC hE hd hN hN2 x hx
  obtain ⟨hM0, hW0, -⟩ := comfortable_nonneg hC
  have key := calm_mean (M := S * Real.exp (logRange sigma r (q.getD 0) T i.dim B tau) + |K|)
    (eb := w * workBound sigma r (q.getD 0) T i.dim B tau * (S * Real.exp (logRange sigma r (q.getD 0) T i.dim B tau)) +
      2 ^ (-51 : ℤ) * (S * Real.exp (logRange sigma r (q.getD 0) T i.dim B tau) + |K|))
    (g := fun y => vanillaValue cl K (V (gbmPath S sigma r (q.getD 0) T i.dim fun l => Z l y))) (hm x zss r1 r2) r2 hN hN2 r4
    (fun zs y hzy => (vanillaValue_lipschitz cl K _ _).trans (hV _ _ hzy.1 hzy.2).2.2) ?_ ?_ (by positivity)
  · obtain ⟨y, y1, y2⟩ := key
    refine ⟨y, y1, y2.trans_eq ?_⟩
    unfold averageGap
    have a2 : (2 : ℝ) ^ (-51 : ℤ) = 2 * 2 ^ (-52 : ℤ) := by norm_num
    rw [a2]
    ring
  · intro zs hz
    obtain ⟨y, c1, c2⟩ := r3 zs hz
    obtain ⟨x1, x2, -⟩ := hV _ _ c1 c2
    have hw : workOf sigma r q T i.dim zs ≤ workBound sigma r (q.getD 0) T i.dim B tau :=
      calm_work hC c1 c2 (j := i.dim - 1) (by have := hdata.dim.1; omega)
    unfold valueError
    gcongr
  · intro zs hz
    obtain ⟨y, c1, c2⟩ := r3 zs hz
    obtain ⟨x1, x2, -⟩ := hV _ _ c1 c2
    exact (vanillaValue_le _ x1.le).trans (by linarith)

theorem fixedLookback_eq (cl : Prop) [Decidable cl] (K : ℝ) (n : ℕ) (x : ℕ → ℝ) :
    fixedLookback cl K n x = vanillaValue cl K (if cl then highest n x else lowest n x) := by
  unfold fixedLookback vanillaValue
  split <;> rfl

theorem fixedLookback_close (h : AcceptedSession i c .gbm o) (hf : i.factory = .fixedLookback) (hdata : DoubleData i S sigma r q T)
    (hK : lastSet i.params "K" = some (.dbl (.num K))) (hK2 : |K| ≤ 2 ^ (500 : ℤ)) (hC : Comfortable S sigma r (q.getD 0) T i.dim B tau)
    (hE : NormalsClose env.engine e B tau) (hN : 0 < N) (hN2 : N ≤ INT_MAX) (s : Sys E Q (Dbl .binary64)) :
    CalmClose e (started env c i s N) S sigma r q T i.dim N B (fixedLookback (i.ty = .call) K i.dim) (sessionGap S sigma r (q.getD 0) T K i.dim N B tau) := by
  have := calm_vanilla env (K := K) hdata hC hE hN hN2 (run := started env c i s N) (i.ty = .call)
    (V := fun x => if i.ty = .call then highest i.dim x else lowest i.dim x) (w := 2 ^ (-49 : ℤ)) (by positivity)
    (fun x zss r1 r2 => by
      have := C88_fixedLookback env h hf r1 hK hK2 s
      simp only [fixedLookback_eq] at this
      rwa [r2] at this)
    (fun z z' c1 c2 => by
      have hb : ∀ j < i.dim, 0 < gbmPath S sigma r (q.getD 0) T i.dim z' j ∧ gbmPath S sigma r (q.getD 0) T i.dim z' j ≤ S * Real.exp (logRange sigma r (q.getD 0) T i.dim B tau) :=
        fun j hj => ⟨(calm_prices hC c1 c2 hj).1, (calm_prices hC c1 c2 hj).2.1⟩
      have hj := fun j hj => (calm_prices hC c1 c2 (j := j) hj).2.2
      split
      · exact ⟨(highest_bounds hdata.dim.1 hb).1, (highest_bounds hdata.dim.1 hb).2, highest_diff hdata.dim.1 hj⟩
      · exact ⟨(lowest_bounds hdata.dim.1 hb).1, (lowest_bounds hdata.dim.1 hb).2, lowest_diff hdata.dim.1 hj⟩)
  have e1 : averageGap (2 * 2 ^ (-49 : ℤ)) S sigma r (q.getD 0) T K i.dim N B tau = sessionGap S sigma r (q.getD 0) T K i.dim N B tau := by
    rw [show (2 : ℝ) * 2 ^ (-49 : ℤ) = 2 ^ (-48 : ℤ) by norm_num]
    rfl
  rw [e1] at this
  simpa only [← fixedLookback_eq] using this

theorem arithmeticAsian_close (h : AcceptedSession i c .gbm o) (hf : i.factory = .arithmeticAsian) (hdata : DoubleData i S sigma r q T)
    (hK : lastSet i.params "K" = some (.dbl (.num K))) (hK2 : |K| ≤ 2 ^ (500 : ℤ)) (hC : Comfortable S sigma r (q.getD 0) T i.dim B tau)
    (hE : NormalsClose env.engine e B tau) (hN : 0 < N) (hN2 : N ≤ INT_MAX) (s : Sys E Q (Dbl .binary64)) :
    CalmClose e (started env c i s N) S sigma r q T i.dim N B (fun x => vanillaValue (i.ty = .call) K (meanOf i.dim x))
      (averageGap (2 ^ (-47 : ℤ)) S sigma r (q.getD 0) T K i.dim N B tau) := by
  have := calm_vanilla env (K := K) hdata hC hE hN hN2 (run := started env c i s N) (i.ty = .call)
    (V := meanOf i.dim) (w := 2 ^ (-48 : ℤ)) (by positivity) (fun x zss r1 r2 => by
      have := C88_arithmeticAsian env h hf r1 hK hK2 s
      rwa [r2] at this)
    (fun z z' c1 c2 => by
      have hb : ∀ j < i.dim, 0 < gbmPath S sigma r (q.getD 0) T i.dim z' j ∧ gbmPath S sigma r (q.getD 0) T i.dim z' j ≤ S * Real.exp (logRange sigma r (q.getD 0) T i.dim B tau) :=
        fun j hj => ⟨(calm_prices hC c1 c2 hj).1, (calm_prices hC c1 c2 hj).2.1⟩
      have hj := fun j hj => (calm_prices hC c1 c2 (j := j) hj).2.2
      exact ⟨(meanOf_bounds hdata.dim.1 hb).1, (meanOf_bounds hdata.dim.1 hb).2, meanOf_diff hdata.dim.1 hj⟩)
  rwa [show (2 : ℝ) * 2 ^ (-48 : ℤ) = 2 ^ (-47 : ℤ) by norm_num] at this

theorem geometricAsian_close (h : AcceptedSession i c .gbm o) (hf : i.factory = .geometricAsian) (hdata : DoubleData i S sigma r q T)
    (hK : lastSet i.params "K" = some (.dbl (.num K))) (hK2 : |K| ≤ 2 ^ (500 : ℤ)) (hC : Comfortable S sigma r (q.getD 0) T i.dim B tau)
    (hE : NormalsClose env.engine e B tau) (hN : 0 < N) (hN2 : N ≤ INT_MAX) (s : Sys E Q (Dbl .binary64)) :
    CalmClose e (started env c i s N) S sigma r q T i.dim N B (fun x => vanillaValue (i.ty = .call) K (geomMeanOf i.dim x))
      (averageGap (2 ^ (-39 : ℤ)) S sigma r (q.getD 0) T K i.dim N B tau) := by
  have := calm_vanilla env (K := K) hdata hC hE hN hN2 (run := started env c i s N) (i.ty = .call)
    (V := geomMeanOf i.dim) (w := 2 ^ (-40 : ℤ)) (by positivity) (fun x zss r1 r2 => by
      have := C88_geometricAsian env h hf r1 hK hK2 s
      rwa [r2] at this)
    (fun z z' c1 c2 => by
      obtain ⟨hS, -, -⟩ := hC.pos
      have hn0 : (0 : ℝ) < i.dim := by exact_mod_cast hdata.dim.1
      have ex := fun j hj => calm_exponent hC c1 c2 (j := j) hj
      have mean_le : ∀ a : ℕ → ℝ, (∀ j < i.dim, a j ≤ logRange sigma r (q.getD 0) T i.dim B tau) → meanOf i.dim a ≤ logRange sigma r (q.getD 0) T i.dim B tau := by
        intro a ha
        unfold meanOf
        rw [div_le_iff₀ hn0]
        refine (Finset.sum_le_sum fun j hj => ha j (Finset.mem_range.mp hj)).trans_eq ?_
        rw [Finset.sum_const, Finset.card_range, nsmul_eq_mul, mul_comm]
      have p1 : ∀ z : ℕ → ℝ, geomMeanOf i.dim (gbmPath S sigma r (q.getD 0) T i.dim z) = S * Real.exp (meanOf i.dim fun j =>
          (r - q.getD 0 - sigma ^ 2 / 2) * ((j + 1) * (T / i.dim)) + sigma * Real.sqrt (T / i.dim) * ∑ l ∈ Finset.range (j + 1), z l) :=
        fun z => geomMeanOf_path hS hdata.dim.1 _
      rw [p1, p1]
      have m1 := mean_le _ fun j hj => (abs_le.mp (ex j hj).2.1).2
      have m2 := mean_le _ fun j hj => (abs_le.mp (ex j hj).1).2
      refine ⟨mul_pos hS (Real.exp_pos _), by gcongr, ?_⟩
      rw [← mul_sub, abs_mul, abs_of_pos hS, mul_assoc S (Real.exp _)]
      refine mul_le_mul_of_nonneg_left ((abs_exp_sub_exp_le m1 m2).trans ?_) hS.le
      refine mul_le_mul_of_nonneg_left (meanOf_diff hdata.dim.1 fun j hj => ?_) (Real.exp_pos _).le
      rw [add_sub_add_left_eq_sub, ← mul_sub, abs_mul, abs_mul, abs_of_nonneg (Real.sqrt_nonneg _)]
      have := (ex j hj).2.2
      gcongr)
  rwa [show (2 : ℝ) * 2 ^ (-40 : ℤ) = 2 ^ (-39 : ℤ) by norm_num] at this

theorem floatingLookback_close (h : AcceptedSession i c .gbm o) (hf : i.factory = .floatingLookback) (hdata : DoubleData i S sigma r q T)
    (hC : Comfortable S sigma r (q.getD 0) T i.dim B tau)
    (hE : NormalsClose env.engine e B tau) (hN : 0 < N) (hN2 : N ≤ INT_MAX) (s : Sys E Q (Dbl .binary64)) :
    CalmClose e (started env c i s N) S sigma r q T i.dim N B (floatingLookback (i.ty = .call) i.dim) (2 * sessionGap S sigma r (q.getD 0) T 0 i.dim N B tau) := by
  intro Z next hd x hx
  obtain ⟨zss, r1, r2, r3, r4⟩ := calm_run env hdata hC hE hd hN hN2 x hx
  obtain ⟨hM0, hW0, hd0⟩ := comfortable_nonneg hC
  have hm := C88_floatingLookback env h hf r1 s
  rw [r2] at hm
  have hl : i.dim - 1 < i.dim := by have := hdata.dim.1; omega
  have hb : ∀ zs ∈ zss, ∀ j < i.dim, 0 < pathOf S sigma r q T i.dim zs j ∧ pathOf S sigma r q T i.dim zs j ≤ S * Real.exp (logRange sigma r (q.getD 0) T i.dim B tau) := by
    intro zs hz j hj
    obtain ⟨y, c1, c2⟩ := r3 zs hz
    exact ⟨(calm_prices hC c1 c2 hj).1, (calm_prices hC c1 c2 hj).2.1⟩
  have key := calm_mean (M := S * Real.exp (logRange sigma r (q.getD 0) T i.dim B tau))
    (eb := (2 ^ (-49 : ℤ) * workBound sigma r (q.getD 0) T i.dim B tau + 2 ^ (-51 : ℤ)) *
      (S * Real.exp (logRange sigma r (q.getD 0) T i.dim B tau) + S * Real.exp (logRange sigma r (q.getD 0) T i.dim B tau)))
    (L := S * Real.exp (logRange sigma r (q.getD 0) T i.dim B tau) * (|sigma| * Real.sqrt (T / i.dim) * (i.dim * tau)) +
      S * Real.exp (logRange sigma r (q.getD 0) T i.dim B tau) * (|sigma| * Real.sqrt (T / i.dim) * (i.dim * tau)))
    (g := fun y => floatingLookback (i.ty = .call) i.dim (gbmPath S sigma r (q.getD 0) T i.dim fun l => Z l y)) hm r2 hN hN2 r4 ?_ ?_ ?_ (by positivity)
  · obtain ⟨y, y1, y2⟩ := key
    refine ⟨y, y1, y2.trans ?_⟩
    unfold sessionGap
    have a1 : (2 : ℝ) ^ (-48 : ℤ) = 2 * 2 ^ (-49 : ℤ) := by norm_num
    have a2 : (2 : ℝ) ^ (-51 : ℤ) = 2 * 2 ^ (-52 : ℤ) := by norm_num
    have hNr : (0 : ℝ) ≤ N := Nat.cast_nonneg _
    have hdp := Real.exp_pos (-(r * T))
    have ht : (0 : ℝ) ≤ 2 ^ (-1070 : ℤ) := by positivity
    have hu : (0 : ℝ) ≤ 2 ^ (-52 : ℤ) := by positivity
    rw [a1, a2, abs_zero, add_zero]
    generalize Real.exp (-(r * T)) = d at *
    generalize S * Real.exp (logRange sigma r (q.getD 0) T i.dim B tau) = M at *
    generalize workBound sigma r (q.getD 0) T i.dim B tau = W at *
    generalize |sigma| * Real.sqrt (T / i.dim) * (i.dim * tau) = D at *
    generalize (2 : ℝ) ^ (-1070 : ℤ) = t at *
    generalize (2 : ℝ) ^ (-52 : ℤ) = u at *
    generalize (2 : ℝ) ^ (-49 : ℤ) = v at *
    have : 0 ≤ d * (((N : ℝ) + 9) * u * M) := by positivity
    nlinarith only [this, ht]
  · intro zs y hzy
    have hj : ∀ j < i.dim, |pathOf S sigma r q T i.dim zs j - gbmPath S sigma r (q.getD 0) T i.dim (fun l => Z l y) j| ≤ _ :=
      fun j hj => (calm_prices hC hzy.1 hzy.2 hj).2.2
    have a1 := abs_le.mp (hj _ hl)
    have a2 := abs_le.mp (highest_diff hdata.dim.1 hj)
    have a3 := abs_le.mp (lowest_diff hdata.dim.1 hj)
    unfold floatingLookback
    split <;> rw [abs_le] <;> constructor <;> linarith
  · intro zs hz
    obtain ⟨y, c1, c2⟩ := r3 zs hz
    have hw : workOf sigma r q T i.dim zs ≤ workBound sigma r (q.getD 0) T i.dim B tau := calm_work hC c1 c2 (j := i.dim - 1) hl
    have hx : (if i.ty = .call then lowest i.dim (pathOf S sigma r q T i.dim zs) else highest i.dim (pathOf S sigma r q T i.dim zs)) ≤
        S * Real.exp (logRange sigma r (q.getD 0) T i.dim B tau) := by
      split
      · exact (lowest_bounds hdata.dim.1 (hb zs hz)).2
      · exact (highest_bounds hdata.dim.1 (hb zs hz)).2
    have hx0 : 0 ≤ (if i.ty = .call then lowest i.dim (pathOf S sigma r q T i.dim zs) else highest i.dim (pathOf S sigma r q T i.dim zs)) := by
      split
      · exact (lowest_bounds hdata.dim.1 (hb zs hz)).1.le
      · exact (highest_bounds hdata.dim.1 (hb zs hz)).1.le
    obtain ⟨l1, l2⟩ := hb zs hz _ hl
    have l3 := l1.le
    gcongr
  · intro zs hz
    obtain ⟨l1, l2⟩ := hb zs hz _ hl
    have h1 := lowest_bounds hdata.dim.1 (hb zs hz)
    have h2 := highest_bounds hdata.dim.1 (hb zs hz)
    unfold floatingLookback
    split <;> linarith

end

section
variable {E Q : Type} [MeasurableSpace E] {μ : Measure E} [IsProbabilityMeasure μ] {count : ℝ → Measure ℕ} (env : Env E Q (Dbl .binary64)) {e : Engine E ℝ}
  {i : Session (Dbl .binary64)} {c : Session.Choices} {o : OptObj (Dbl .binary64)} {S sigma r T K : ℝ} {q : Option ℝ} {B tau : ℝ} {N : ℕ}

/-- **C89.** A fixed-strike lookback option priced in double precision: the price differs from the discounted expected payoff by `ε` plus the rounding gap
or more with a probability of at most the variance over `N ε²` plus the probability of a rare draw. -/
theorem C89_fixedLookback (he : RandomEngine e μ count) (h : AcceptedSession i c .gbm o) (hf : i.factory = .fixedLookback) (hdata : DoubleData i S sigma r q T)
    (hK : lastSet i.params "K" = some (.dbl (.num K))) (hK2 : |K| ≤ 2 ^ (500 : ℤ)) (hC : Comfortable S sigma r (q.getD 0) T i.dim B tau)
    (hE : NormalsClose env.engine e B tau) (hN : 0 < N) (hN2 : N ≤ INT_MAX) (s : Sys E Q (Dbl .binary64)) :
    DoubleDeviates μ (started env c i s N) (fairValue S sigma r (q.getD 0) T i.dim (fixedLookback (i.ty = .call) K i.dim)) (sessionGap S sigma r (q.getD 0) T K i.dim N B tau)
      fun ε => fairVariance S sigma r (q.getD 0) T i.dim (fixedLookback (i.ty = .call) K i.dim) / (N * ε ^ 2) + rareEvent i.dim N B :=
  (session_deviates he hdata hC hN (fixedLookback_close env h hf hdata hK hK2 hC hE hN hN2 s)
    (measurable_fixedLookback _ K i.dim fun j _ => measurable_getD j)
    (fun x y hxy => by unfold fixedLookback; rw [highest_congr hxy, lowest_congr hxy])
    (measurable_fixedLookback _ K i.dim fun j _ => measurable_gbmPath _ _ _ _ _ _ _)).1 fun Z hZ =>
      (memLp_lookbacks hdata.dim.1 (fun j _ => memLp_gbmPath hZ S sigma r T q i.dim j) (fun j _ => measurable_gbmPath_of hZ _ _ _ _ _ _ _)
        (fun j _ x => mul_pos hC.pos.1 (Real.exp_pos _)) _ K).1

/-- **C89.** A fixed-strike lookback put in double precision: an exponential bound. -/
theorem C89_fixedLookbackPut (he : RandomEngine e μ count) (h : AcceptedSession i c .gbm o) (hf : i.factory = .fixedLookback) (hdata : DoubleData i S sigma r q T)
    (hK : lastSet i.params "K" = some (.dbl (.num K))) (hK2 : |K| ≤ 2 ^ (500 : ℤ)) (hC : Comfortable S sigma r (q.getD 0) T i.dim B tau)
    (hE : NormalsClose env.engine e B tau) (hN : 0 < N) (hN2 : N ≤ INT_MAX) (s : Sys E Q (Dbl .binary64)) (hty : i.ty = .put) (hK0 : 0 < K) :
    DoubleDeviates μ (started env c i s N) (fairValue S sigma r (q.getD 0) T i.dim (fixedLookback False K i.dim)) (sessionGap S sigma r (q.getD 0) T K i.dim N B tau)
      fun ε => 2 * Real.exp (-(2 * N * ε ^ 2) / (Real.exp (-(r * T)) * K) ^ 2) + rareEvent i.dim N B := by
  have e1 : fixedLookback (i.ty = .call) K i.dim = fixedLookback False K i.dim := by
    funext x
    unfold fixedLookback
    simp [hty]
  have hc := fixedLookback_close env h hf hdata hK hK2 hC hE hN hN2 s
  rw [e1] at hc
  refine (session_deviates he hdata hC hN hc (measurable_fixedLookback _ K i.dim fun j _ => measurable_getD j)
    (fun x y hxy => by unfold fixedLookback; rw [highest_congr hxy, lowest_congr hxy])
    (measurable_fixedLookback _ K i.dim fun j _ => measurable_gbmPath _ _ _ _ _ _ _)).2 K hK0 fun z => ?_
  have hl := lowest_nonneg hdata.dim.1 (x := gbmPath S sigma r (q.getD 0) T i.dim z) fun j _ => (mul_pos hC.pos.1 (Real.exp_pos _)).le
  unfold fixedLookback
  rw [if_neg not_false]
  exact ⟨le_max_right _ _, max_le (by linarith) hK0.le⟩

/-- **C89.** A floating-strike lookback option priced in double precision. -/
theorem C89_floatingLookback (he : RandomEngine e μ count) (h : AcceptedSession i c .gbm o) (hf : i.factory = .floatingLookback) (hdata : DoubleData i S sigma r q T)
    (hC : Comfortable S sigma r (q.getD 0) T i.dim B tau)
    (hE : NormalsClose env.engine e B tau) (hN : 0 < N) (hN2 : N ≤ INT_MAX) (s : Sys E Q (Dbl .binary64)) :
    DoubleDeviates μ (started env c i s N) (fairValue S sigma r (q.getD 0) T i.dim (floatingLookback (i.ty = .call) i.dim)) (2 * sessionGap S sigma r (q.getD 0) T 0 i.dim N B tau)
      fun ε => fairVariance S sigma r (q.getD 0) T i.dim (floatingLookback (i.ty = .call) i.dim) / (N * ε ^ 2) + rareEvent i.dim N B :=
  (session_deviates he hdata hC hN (floatingLookback_close env h hf hdata hC hE hN hN2 s)
    (measurable_floatingLookback _ hdata.dim.1 fun j _ => measurable_getD j)
    (fun x y hxy => by unfold floatingLookback; rw [highest_congr hxy, lowest_congr hxy, hxy _ (by have := hdata.dim.1; omega)])
    (measurable_floatingLookback _ hdata.dim.1 fun j _ => measurable_gbmPath _ _ _ _ _ _ _)).1 fun Z hZ =>
      (memLp_lookbacks hdata.dim.1 (fun j _ => memLp_gbmPath hZ S sigma r T q i.dim j) (fun j _ => measurable_gbmPath_of hZ _ _ _ _ _ _ _)
        (fun j _ x => mul_pos hC.pos.1 (Real.exp_pos _)) _ 0).2

/-- **C89.** An arithmetic Asian option priced in double precision. -/
theorem C89_arithmeticAsian (he : RandomEngine e μ count) (h : AcceptedSession i c .gbm o) (hf : i.factory = .arithmeticAsian) (hdata : DoubleData i S sigma r q T)
    (hK : lastSet i.params "K" = some (.dbl (.num K))) (hK2 : |K| ≤ 2 ^ (500 : ℤ)) (hC : Comfortable S sigma r (q.getD 0) T i.dim B tau)
    (hE : NormalsClose env.engine e B tau) (hN : 0 < N) (hN2 : N ≤ INT_MAX) (s : Sys E Q (Dbl .binary64)) :
    DoubleDeviates μ (started env c i s N) (fairValue S sigma r (q.getD 0) T i.dim fun x => vanillaValue (i.ty = .call) K (meanOf i.dim x)) (averageGap (2 ^ (-47 : ℤ)) S sigma r (q.getD 0) T K i.dim N B tau)
      fun ε => fairVariance S sigma r (q.getD 0) T i.dim (fun x => vanillaValue (i.ty = .call) K (meanOf i.dim x)) / (N * ε ^ 2) + rareEvent i.dim N B :=
  (session_deviates he hdata hC hN (arithmeticAsian_close env h hf hdata hK hK2 hC hE hN hN2 s)
    ((measurable_vanillaValue _ K).comp (measurable_meanOf i.dim fun j _ => measurable_getD j))
    (fun x y hxy => by rw [meanOf_congr hxy])
    ((measurable_vanillaValue _ K).comp (measurable_meanOf i.dim fun j _ => measurable_gbmPath _ _ _ _ _ _ _))).1 fun Z hZ =>
      memLp_vanillaValue (memLp_meanOf hdata.dim.1 (fun j _ => memLp_gbmPath hZ S sigma r T q i.dim j) (fun j _ => measurable_gbmPath_of hZ _ _ _ _ _ _ _)
        (fun j _ x => mul_pos hC.pos.1 (Real.exp_pos _))) _ K

/-- **C89.** An arithmetic Asian put in double precision: an exponential bound. -/
theorem C89_arithmeticAsianPut (he : RandomEngine e μ count) (h : AcceptedSession i c .gbm o) (hf : i.factory = .arithmeticAsian) (hdata : DoubleData i S sigma r q T)
    (hK : lastSet i.params "K" = some (.dbl (.num K))) (hK2 : |K| ≤ 2 ^ (500 : ℤ)) (hC : Comfortable S sigma r (q.getD 0) T i.dim B tau)
    (hE : NormalsClose env.engine e B tau) (hN : 0 < N) (hN2 : N ≤ INT_MAX) (s : Sys E Q (Dbl .binary64)) (hty : i.ty = .put) (hK0 : 0 < K) :
    DoubleDeviates μ (started env c i s N) (fairValue S sigma r (q.getD 0) T i.dim fun x => vanillaValue False K (meanOf i.dim x)) (averageGap (2 ^ (-47 : ℤ)) S sigma r (q.getD 0) T K i.dim N B tau)
      fun ε => 2 * Real.exp (-(2 * N * ε ^ 2) / (Real.exp (-(r * T)) * K) ^ 2) + rareEvent i.dim N B := by
  have e1 : (fun x => vanillaValue (i.ty = .call) K (meanOf i.dim x)) = fun x => vanillaValue False K (meanOf i.dim x) := by
    funext x
    unfold vanillaValue
    simp [hty]
  have hc := arithmeticAsian_close env h hf hdata hK hK2 hC hE hN hN2 s
  rw [e1] at hc
  refine (session_deviates he hdata hC hN hc ((measurable_vanillaValue _ K).comp (measurable_meanOf i.dim fun j _ => measurable_getD j))
    (fun x y hxy => by rw [meanOf_congr hxy])
    ((measurable_vanillaValue _ K).comp (measurable_meanOf i.dim fun j _ => measurable_gbmPath _ _ _ _ _ _ _))).2 K hK0 fun z => ?_
  have hl := meanOf_nonneg i.dim (x := gbmPath S sigma r (q.getD 0) T i.dim z) fun j _ => (mul_pos hC.pos.1 (Real.exp_pos _)).le
  unfold vanillaValue
  rw [if_neg not_false]
  exact ⟨le_max_right _ _, max_le (by linarith) hK0.le⟩

/-- **C89.** A geometric Asian option priced in double precision. -/
theorem C89_geometricAsian (he : RandomEngine e μ count) (h : AcceptedSession i c .gbm o) (hf : i.factory = .geometricAsian) (hdata : DoubleData i S sigma r q T)
    (hK : lastSet i.params "K" = some (.dbl (.num K))) (hK2 : |K| ≤ 2 ^ (500 : ℤ)) (hC : Comfortable S sigma r (q.getD 0) T i.dim B tau)
    (hE : NormalsClose env.engine e B tau) (hN : 0 < N) (hN2 : N ≤ INT_MAX) (s : Sys E Q (Dbl .binary64)) :
    DoubleDeviates μ (started env c i s N) (fairValue S sigma r (q.getD 0) T i.dim fun x => vanillaValue (i.ty = .call) K (geomMeanOf i.dim x)) (averageGap (2 ^ (-39 : ℤ)) S sigma r (q.getD 0) T K i.dim N B tau)
      fun ε => fairVariance S sigma r (q.getD 0) T i.dim (fun x => vanillaValue (i.ty = .call) K (geomMeanOf i.dim x)) / (N * ε ^ 2) + rareEvent i.dim N B :=
  (session_deviates he hdata hC hN (geometricAsian_close env h hf hdata hK hK2 hC hE hN hN2 s)
    ((measurable_vanillaValue _ K).comp (measurable_geomMeanOf i.dim fun j _ => measurable_getD j))
    (fun x y hxy => by rw [geomMeanOf_congr hxy])
    ((measurable_vanillaValue _ K).comp (measurable_geomMeanOf i.dim fun j _ => measurable_gbmPath _ _ _ _ _ _ _))).1 fun Z hZ =>
      memLp_vanillaValue (memLp_geomMeanOf hdata.dim.1 (fun j _ => memLp_gbmPath hZ S sigma r T q i.dim j) (fun j _ => measurable_gbmPath_of hZ _ _ _ _ _ _ _)
        (fun j _ x => mul_pos hC.pos.1 (Real.exp_pos _))) _ K

/-- **C89.** A geometric Asian put in double precision: an exponential bound. -/
theorem C89_geometricAsianPut (he : RandomEngine e μ count) (h : AcceptedSession i c .gbm o) (hf : i.factory = .geometricAsian) (hdata : DoubleData i S sigma r q T)
    (hK : lastSet i.params "K" = some (.dbl (.num K))) (hK2 : |K| ≤ 2 ^ (500 : ℤ)) (hC : Comfortable S sigma r (q.getD 0) T i.dim B tau)
    (hE : NormalsClose env.engine e B tau) (hN : 0 < N) (hN2 : N ≤ INT_MAX) (s : Sys E Q (Dbl .binary64)) (hty : i.ty = .put) (hK0 : 0 < K) :
    DoubleDeviates μ (started env c i s N) (fairValue S sigma r (q.getD 0) T i.dim fun x => vanillaValue False K (geomMeanOf i.dim x)) (averageGap (2 ^ (-39 : ℤ)) S sigma r (q.getD 0) T K i.dim N B tau)
      fun ε => 2 * Real.exp (-(2 * N * ε ^ 2) / (Real.exp (-(r * T)) * K) ^ 2) + rareEvent i.dim N B := by
  have e1 : (fun x => vanillaValue (i.ty = .call) K (geomMeanOf i.dim x)) = fun x => vanillaValue False K (geomMeanOf i.dim x) := by
    funext x
    unfold vanillaValue
    simp [hty]
  have hc := geometricAsian_close env h hf hdata hK hK2 hC hE hN hN2 s
  rw [e1] at hc
  refine (session_deviates he hdata hC hN hc ((measurable_vanillaValue _ K).comp (measurable_geomMeanOf i.dim fun j _ => measurable_getD j))
    (fun x y hxy => by rw [geomMeanOf_congr hxy])
    ((measurable_vanillaValue _ K).comp (measurable_geomMeanOf i.dim fun j _ => measurable_gbmPath _ _ _ _ _ _ _))).2 K hK0 fun z => ?_
  have hl := geomMeanOf_nonneg i.dim (x := gbmPath S sigma r (q.getD 0) T i.dim z) fun j _ => (mul_pos hC.pos.1 (Real.exp_pos _)).le
  unfold vanillaValue
  rw [if_neg not_false]
  exact ⟨le_max_right _ _, max_le (by linarith) hK0.le⟩

end

/-- The discounted expected payoff of a geometric Asian call is the closed formula. -/
theorem C89_geometricAsianCall_formula {S sigma r q T K : ℝ} (hS : 0 < S) (hσ : 0 < sigma) (hT : 0 < T) (hK : 0 < K) {n : ℕ} (hn : 0 < n) :
    fairValue S sigma r q T n (fun x => vanillaValue True K (geomMeanOf n x)) = geometricAsianCall S sigma r q T K n := by
  letI : FlInf ℝ := ⟨0⟩
  haveI : IsProbabilityMeasure normals := by unfold normals; infer_instance
  have e := map_geometricMean iidNormal_normals ⟨S, sigma, some q, r⟩ hS hT.le hn
  have mG := measurable_geometricMean iidNormal_normals ⟨S, sigma, some q, r⟩ T n
  simp only [gbmPrice_eq_path, Option.getD_some] at e mG
  have h1 := integral_of_map mG e (f := fun y => max (y - K) 0) (by fun_prop)
  rw [integral_call (meanView ⟨S, sigma, some q, r⟩ n) hS hT (meanSigma_pos hσ hn) hK] at h1
  unfold fairValue vanillaValue geomMeanOf
  simp only [if_true]
  rw [integral_const_mul, h1]
  simp only [geometricAsianCall, meanView, Option.getD_none, Option.getD_some, sub_zero, add_sub_cancel_right]

/-- The discounted expected payoff of a geometric Asian put is the closed formula. -/
theorem C89_geometricAsianPut_formula {S sigma r q T K : ℝ} (hS : 0 < S) (hσ : 0 < sigma) (hT : 0 < T) (hK : 0 < K) {n : ℕ} (hn : 0 < n) :
    fairValue S sigma r q T n (fun x => vanillaValue False K (geomMeanOf n x)) = geometricAsianPut S sigma r q T K n := by
  letI : FlInf ℝ := ⟨0⟩
  haveI : IsProbabilityMeasure normals := by unfold normals; infer_instance
  have e := map_geometricMean iidNormal_normals ⟨S, sigma, some q, r⟩ hS hT.le hn
  have mG := measurable_geometricMean iidNormal_normals ⟨S, sigma, some q, r⟩ T n
  simp only [gbmPrice_eq_path, Option.getD_some] at e mG
  have h1 := integral_of_map mG e (f := fun y => max (K - y) 0) (by fun_prop)
  have hB := integral_blackScholesPrice (meanView ⟨S, sigma, some q, r⟩ n) hT.le
  have hpar : ∀ z, max (K - blackScholesPrice (meanView ⟨S, sigma, some q, r⟩ n) T z) 0 =
      max (blackScholesPrice (meanView ⟨S, sigma, some q, r⟩ n) T z - K) 0 - (blackScholesPrice (meanView ⟨S, sigma, some q, r⟩ n) T z - K) := by
    intro z
    rcases le_total K (blackScholesPrice (meanView ⟨S, sigma, some q, r⟩ n) T z) with h | h
    · rw [max_eq_right (by linarith), max_eq_left (by linarith)]; ring
    · rw [max_eq_left (by linarith), max_eq_right (by linarith)]; ring
  simp only [hpar] at h1
  have i1 : Integrable (fun z => blackScholesPrice (meanView ⟨S, sigma, some q, r⟩ n) T z - K) (gaussianReal 0 1) := hB.1.sub (integrable_const K)
  rw [integral_sub i1.pos_part i1, integral_call (meanView ⟨S, sigma, some q, r⟩ n) hS hT (meanSigma_pos hσ hn) hK, integral_sub hB.1 (integrable_const K), hB.2] at h1
  unfold fairValue vanillaValue geomMeanOf
  simp only [if_false]
  rw [integral_const_mul, h1]
  simp only [geometricAsianPut, meanView, Option.getD_none, Option.getD_some, sub_zero, add_sub_cancel_right, integral_const, probReal_univ, one_smul]
  ring

/-! ## Examples -/

namespace PathSessionExample
open PathDependentExample (session accepted strike_nonneg)
open SessionExample (engine randomEngine choices)
open DoubleSessionExample (env close comfortable exp_neg_nat gap_le)

theorem data {f : OptClass} {cls : PricerClass} {ps : List (String × Param (Dbl .binary64))} {ty : PayoffType}
    (h5 : lastSet (session f cls ps ty).params "T" = some (.dbl (.num (1 : ℝ)))) : DoubleData (session f cls ps ty) 100 (1 / 4) (1 / 16) none 1 where
  price := rfl
  vol := rfl
  coupon := rfl
  rate := rfl
  maturity := h5
  dim := ⟨by norm_num [session], by norm_num [session, INT_MAX]⟩
  small := by norm_num [abs_of_pos]

theorem asianGap_le : averageGap (2 ^ (-47 : ℤ)) 100 (1 / 4) (1 / 16) 0 1 96 2 100000 8 (2 ^ (-49 : ℤ)) ≤ 1 / 500000 := by
  have h := gap_le
  have h0 : averageGap (2 ^ (-47 : ℤ)) 100 (1 / 4) (1 / 16) 0 1 96 2 100000 8 (2 ^ (-49 : ℤ)) ≤ 2 * sessionGap 100 (1 / 4) (1 / 16) 0 1 96 2 100000 8 (2 ^ (-49 : ℤ)) := by
    obtain ⟨hM, hW, -⟩ := comfortable_nonneg comfortable
    unfold averageGap sessionGap
    have a1 : (2 : ℝ) ^ (-47 : ℤ) = 2 * 2 ^ (-48 : ℤ) := by norm_num
    rw [a1]
    have hdp := Real.exp_pos (-(1 / 16 * 1))
    have ht : (0 : ℝ) ≤ 2 ^ (-1070 : ℤ) := by positivity
    have b1 : 0 ≤ Real.exp (-(1 / 16 * 1)) * (100 * Real.exp (logRange (1 / 4) (1 / 16) 0 1 2 8 (2 ^ (-49 : ℤ))) * (|(1 / 4 : ℝ)| * Real.sqrt (1 / (2 : ℕ)) * ((2 : ℕ) * 2 ^ (-49 : ℤ)))) := by positivity
    have b2 : 0 ≤ Real.exp (-(1 / 16 * 1)) * ((((100000 : ℕ) : ℝ) + 13) * 2 ^ (-52 : ℤ) * (100 * Real.exp (logRange (1 / 4) (1 / 16) 0 1 2 8 (2 ^ (-49 : ℤ))) + |(96 : ℝ)|)) := by positivity
    generalize Real.exp (-(1 / 16 * 1)) = d at *
    generalize 100 * Real.exp (logRange (1 / 4) (1 / 16) 0 1 2 8 (2 ^ (-49 : ℤ))) = M at *
    generalize workBound (1 / 4) (1 / 16) 0 1 2 8 (2 ^ (-49 : ℤ)) = W at *
    generalize |(1 / 4 : ℝ)| * Real.sqrt (1 / (2 : ℕ)) * ((2 : ℕ) * 2 ^ (-49 : ℤ)) = D at *
    generalize (((100000 : ℕ) : ℝ) + 13) * 2 ^ (-52 : ℤ) = u at *
    generalize (2 : ℝ) ^ (-1070 : ℤ) = t at *
    generalize (2 : ℝ) ^ (-48 : ℤ) = v at *
    generalize |(96 : ℝ)| = k at *
    linarith only [b1, b2, ht]
  linarith only [h, h0]

variable {ty : PayoffType} (hty : ty = .call ∨ ty = .put) (s : Sys PerfectState Unit (Dbl .binary64))

/-- An arithmetic Asian put with 100000 paths: in double precision an error of one unit or more has a probability of less than one in a million. -/
example : perfectMeasure.real {x | ¬ ∃ y : ℝ,
    (started env (choices .arithmeticAsian) (session .arithmeticAsian .arithmeticAsian [("K", .dbl (.num (96 : ℝ)))] .put) s 100000 x).1 = .ok (.num y) ∧
      |y - fairValue 100 (1 / 4) (1 / 16) 0 1 2 fun x => vanillaValue False 96 (meanOf 2 x)| < 1} ≤ 1 / 1000000 := by
  have := C89_arithmeticAsianPut env randomEngine (accepted (f := .arithmeticAsian) (cls := .arithmeticAsian) (ps := [("K", .dbl (.num (96 : ℝ)))])
    (p := .vanilla .put (.num (96 : ℝ))) (b := none) (.inr rfl) (by simp [Family]) ⟨_, rfl, strike_nonneg, rfl⟩ rfl rfl rfl) rfl (data (f := .arithmeticAsian) (cls := .arithmeticAsian)
    (ps := [("K", .dbl (.num (96 : ℝ)))]) (ty := .put) rfl) (K := 96) rfl (by norm_num [abs_of_pos]) comfortable close (N := 100000) (by norm_num) (by norm_num [INT_MAX]) s rfl (by norm_num) (9 / 10) (by norm_num)
  refine (measureReal_mono ?_ (measure_ne_top _ _)).trans (this.trans ?_)
  · intro x hx hy
    obtain ⟨y, y1, y2⟩ := hy
    exact hx ⟨y, y1, y2.trans_le (by have := asianGap_le; show 9 / 10 + averageGap (2 ^ (-47 : ℤ)) 100 (1 / 4) (1 / 16) 0 1 96 2 100000 8 (2 ^ (-49 : ℤ)) ≤ 1; linarith)⟩
  · have e1 : Real.exp (-(2 * ((100000 : ℕ) : ℝ) * (9 / 10) ^ 2) / (Real.exp (-(1 / 16 * 1)) * 96) ^ 2) ≤ Real.exp (-((17 : ℕ) : ℝ)) := by
      rw [Real.exp_le_exp, neg_div, neg_le_neg_iff]
      have hd : Real.exp (-(1 / 16 * 1)) ≤ 1 := Real.exp_le_one_iff.mpr (by norm_num)
      have hd0 := Real.exp_pos (-(1 / 16 * 1))
      rw [le_div_iff₀ (by positivity)]
      push_cast
      nlinarith
    have e2 : Real.exp (-((17 : ℕ) : ℝ)) ≤ 1 / 10000000 := (exp_neg_nat 17).trans (by norm_num)
    have e3 : Real.exp (-((32 : ℕ) : ℝ)) ≤ 1 / 10000000000000 := (exp_neg_nat 32).trans (by norm_num)
    unfold rareEvent
    show _ + 4 * ((100000 : ℕ) : ℝ) * ((2 : ℕ) : ℝ) * Real.exp (-(8 ^ 2) / 2) ≤ _
    rw [show (-(8 ^ 2) / 2 : ℝ) = -((32 : ℕ) : ℝ) by norm_num]
    have := e1.trans e2
    push_cast at this e3 ⊢
    linarith

include hty

example : DoubleDeviates perfectMeasure (started env (choices .arithmeticAsian) (session .arithmeticAsian .arithmeticAsian [("K", .dbl (.num (96 : ℝ)))] ty) s 100000)
    (fairValue 100 (1 / 4) (1 / 16) 0 1 2 fun x => vanillaValue (ty = .call) 96 (meanOf 2 x)) (averageGap (2 ^ (-47 : ℤ)) 100 (1 / 4) (1 / 16) 0 1 96 2 100000 8 (2 ^ (-49 : ℤ)))
    fun ε => fairVariance 100 (1 / 4) (1 / 16) 0 1 2 (fun x => vanillaValue (ty = .call) 96 (meanOf 2 x)) / ((100000 : ℕ) * ε ^ 2) + rareEvent 2 100000 8 :=
  C89_arithmeticAsian env randomEngine (accepted (f := .arithmeticAsian) (cls := .arithmeticAsian) (ps := [("K", .dbl (.num (96 : ℝ)))])
    (p := .vanilla ty (.num (96 : ℝ))) (b := none) hty (by simp [Family]) ⟨_, rfl, strike_nonneg, rfl⟩ rfl rfl rfl) rfl (data (f := .arithmeticAsian) (cls := .arithmeticAsian)
    (ps := [("K", .dbl (.num (96 : ℝ)))]) (ty := ty) rfl) (K := 96) rfl (by norm_num [abs_of_pos]) comfortable close (N := 100000) (by norm_num) (by norm_num [INT_MAX]) s

example : DoubleDeviates perfectMeasure (started env (choices .geometricAsian) (session .geometricAsian .geometricAsian [("K", .dbl (.num (96 : ℝ)))] ty) s 100000)
    (fairValue 100 (1 / 4) (1 / 16) 0 1 2 fun x => vanillaValue (ty = .call) 96 (geomMeanOf 2 x)) (averageGap (2 ^ (-39 : ℤ)) 100 (1 / 4) (1 / 16) 0 1 96 2 100000 8 (2 ^ (-49 : ℤ)))
    fun ε => fairVariance 100 (1 / 4) (1 / 16) 0 1 2 (fun x => vanillaValue (ty = .call) 96 (geomMeanOf 2 x)) / ((100000 : ℕ) * ε ^ 2) + rareEvent 2 100000 8 :=
  C89_geometricAsian env randomEngine (accepted (f := .geometricAsian) (cls := .geometricAsian) (ps := [("K", .dbl (.num (96 : ℝ)))])
    (p := .vanilla ty (.num (96 : ℝ))) (b := none) hty (by simp [Family]) ⟨_, rfl, strike_nonneg, rfl⟩ rfl rfl rfl) rfl (data (f := .geometricAsian) (cls := .geometricAsian)
    (ps := [("K", .dbl (.num (96 : ℝ)))]) (ty := ty) rfl) (K := 96) rfl (by norm_num [abs_of_pos]) comfortable close (N := 100000) (by norm_num) (by norm_num [INT_MAX]) s

example : DoubleDeviates perfectMeasure (started env (choices .fixedLookback) (session .fixedLookback .fixedLookback [("K", .dbl (.num (96 : ℝ)))] ty) s 100000)
    (fairValue 100 (1 / 4) (1 / 16) 0 1 2 (fixedLookback (ty = .call) 96 2)) (sessionGap 100 (1 / 4) (1 / 16) 0 1 96 2 100000 8 (2 ^ (-49 : ℤ)))
    fun ε => fairVariance 100 (1 / 4) (1 / 16) 0 1 2 (fixedLookback (ty = .call) 96 2) / ((100000 : ℕ) * ε ^ 2) + rareEvent 2 100000 8 :=
  C89_fixedLookback env randomEngine (accepted (f := .fixedLookback) (cls := .fixedLookback) (ps := [("K", .dbl (.num (96 : ℝ)))])
    (p := .vanilla ty (.num (96 : ℝ))) (b := none) hty (by simp [Family]) ⟨_, rfl, strike_nonneg, rfl⟩ rfl rfl rfl) rfl (data (f := .fixedLookback) (cls := .fixedLookback)
    (ps := [("K", .dbl (.num (96 : ℝ)))]) (ty := ty) rfl) (K := 96) rfl (by norm_num [abs_of_pos]) comfortable close (N := 100000) (by norm_num) (by norm_num [INT_MAX]) s

example : DoubleDeviates perfectMeasure (started env (choices .floatingLookback) (session .floatingLookback .floatingLookback [] ty) s 100000)
    (fairValue 100 (1 / 4) (1 / 16) 0 1 2 (floatingLookback (ty = .call) 2)) (2 * sessionGap 100 (1 / 4) (1 / 16) 0 1 0 2 100000 8 (2 ^ (-49 : ℤ)))
    fun ε => fairVariance 100 (1 / 4) (1 / 16) 0 1 2 (floatingLookback (ty = .call) 2) / ((100000 : ℕ) * ε ^ 2) + rareEvent 2 100000 8 :=
  C89_floatingLookback env randomEngine (accepted (f := .floatingLookback) (cls := .floatingLookback) (ps := [])
    (p := .floatingLookback ty) (b := none) hty (by simp [Family]) rfl rfl rfl rfl) rfl (data (f := .floatingLookback) (cls := .floatingLookback)
    (ps := []) (ty := ty) rfl) comfortable close (N := 100000) (by norm_num) (by norm_num [INT_MAX]) s

omit hty

example : DoubleDeviates perfectMeasure (started env (choices .fixedLookback) (session .fixedLookback .fixedLookback [("K", .dbl (.num (96 : ℝ)))] .put) s 100000)
    (fairValue 100 (1 / 4) (1 / 16) 0 1 2 (fixedLookback False 96 2)) (sessionGap 100 (1 / 4) (1 / 16) 0 1 96 2 100000 8 (2 ^ (-49 : ℤ)))
    fun ε => 2 * Real.exp (-(2 * (100000 : ℕ) * ε ^ 2) / (Real.exp (-(1 / 16 * 1)) * 96) ^ 2) + rareEvent 2 100000 8 :=
  C89_fixedLookbackPut env randomEngine (accepted (f := .fixedLookback) (cls := .fixedLookback) (ps := [("K", .dbl (.num (96 : ℝ)))])
    (p := .vanilla .put (.num (96 : ℝ))) (b := none) (.inr rfl) (by simp [Family]) ⟨_, rfl, strike_nonneg, rfl⟩ rfl rfl rfl) rfl (data (f := .fixedLookback) (cls := .fixedLookback)
    (ps := [("K", .dbl (.num (96 : ℝ)))]) (ty := .put) rfl) (K := 96) rfl (by norm_num [abs_of_pos]) comfortable close (N := 100000) (by norm_num) (by norm_num [INT_MAX]) s rfl (by norm_num)

/-- A geometric Asian put against the closed formula. -/
example : DoubleDeviates perfectMeasure (started env (choices .geometricAsian) (session .geometricAsian .geometricAsian [("K", .dbl (.num (96 : ℝ)))] .put) s 100000)
    (geometricAsianPut 100 (1 / 4) (1 / 16) 0 1 96 2) (averageGap (2 ^ (-39 : ℤ)) 100 (1 / 4) (1 / 16) 0 1 96 2 100000 8 (2 ^ (-49 : ℤ)))
    fun ε => 2 * Real.exp (-(2 * (100000 : ℕ) * ε ^ 2) / (Real.exp (-(1 / 16 * 1)) * 96) ^ 2) + rareEvent 2 100000 8 := by
  rw [← C89_geometricAsianPut_formula (by norm_num) (by norm_num) (by norm_num) (by norm_num) (by norm_num)]
  exact C89_geometricAsianPut env randomEngine (accepted (f := .geometricAsian) (cls := .geometricAsian) (ps := [("K", .dbl (.num (96 : ℝ)))])
    (p := .vanilla .put (.num (96 : ℝ))) (b := none) (.inr rfl) (by simp [Family]) ⟨_, rfl, strike_nonneg, rfl⟩ rfl rfl rfl) rfl (data (f := .geometricAsian) (cls := .geometricAsian)
    (ps := [("K", .dbl (.num (96 : ℝ)))]) (ty := .put) rfl) (K := 96) rfl (by norm_num [abs_of_pos]) comfortable close (N := 100000) (by norm_num) (by norm_num [INT_MAX]) s rfl (by norm_num)

example : fairValue 100 (1 / 4) (1 / 16) 0 1 2 (fun x => vanillaValue True 96 (geomMeanOf 2 x)) = geometricAsianCall 100 (1 / 4) (1 / 16) 0 1 96 2 :=
  C89_geometricAsianCall_formula (by norm_num) (by norm_num) (by norm_num) (by norm_num) (by norm_num)

end PathSessionExample

end Verif
