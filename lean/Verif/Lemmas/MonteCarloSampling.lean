import Verif.Spec.EstimatorSpec
import Verif.Spec.RiskNeutralSpec
import Verif.Lemmas.SamplingJumps
import Verif.Lemmas.MonteCarlo
import Mathlib.Probability.Independence.Basic

/-!
# Repeated simulation
-/

namespace Verif
open MeasureTheory ProbabilityTheory Function Spec
open scoped ENNReal

variable {G α : Type} [MeasurableSpace G] [MeasurableSpace α] {μ : Measure G} [IsProbabilityMeasure μ]

theorem dt_real (T : ℝ) (steps : ℕ) : Sim.dt T steps = T / steps := by simp [Sim.dt]

theorem mkPoisson_pos {l : ℝ} (h : 0 < l) : Dist.mkPoisson l = .ok (.poisson l) := by
  unfold Dist.mkPoisson
  rw [if_neg (by simpa using h)]

theorem mkNormal_pos (m : ℝ) {s : ℝ} (h : 0 < s) : Dist.mkNormal m s = .ok (.normal m s) := by
  unfold Dist.mkNormal
  rw [if_neg (by simpa using h)]

theorem mkExponential_pos {l : ℝ} (h : 0 < l) : Dist.mkExponential l = .ok (.exponential l) := by
  unfold Dist.mkExponential
  rw [if_neg (by simpa using h)]

theorem mkGamma_pos {a b : ℝ} (ha : 0 < a) (hb : 0 < b) : Dist.mkGamma a b = .ok (.gamma a b) := by
  unfold Dist.mkGamma
  rw [if_neg (by simp [ha, hb])]

theorem mkUniform_lt {a b : ℝ} (h : a < b) : Dist.mkUniform a b = .ok (.uniform a b) := by
  unfold Dist.mkUniform
  rw [if_neg (by simpa using h)]

namespace Sampled
variable {e : Eff G α} {y : Unit → G → α} {t : Unit → G → G}

theorem preserving_iterate (h : Sampled μ (fun _ : Unit => e) y t) (n : ℕ) : MeasurePreserving (t ())^[n] μ μ := (h.preserving ()).iterate n

/-- The results of the runs, and the state after them. -/
theorem draws (h : Sampled μ (fun _ : Unit => e) y t) : ∀ (N : ℕ) (s : G),
    Draws e s ((List.range N).map fun n => y () ((t ())^[n] s)) ((t ())^[N] s)
  | 0, s => .nil s
  | N + 1, s => by
    rw [List.range_succ_eq_map, List.map_cons, List.map_map]
    exact .cons (h.run () s) (draws h N (t () s))

/-- Results of different runs are independent. -/
theorem indep_runs (h : Sampled μ (fun _ : Unit => e) y t) {a b : ℕ} (hab : a < b) :
    IndepFun (fun s => y () ((t ())^[a] s)) (fun s => y () ((t ())^[b] s)) μ := by
  have my := h.measurable_ya ()
  have mt := h.measurable_ta ()
  have h0 : IndepFun (y ()) (t ()) μ := by
    rw [indepFun_iff_map_prod_eq_prod_map_map my.aemeasurable mt.aemeasurable, h.indep (), (h.preserving ()).map_eq]
  obtain ⟨k, rfl⟩ : ∃ k, b = a + (k + 1) := ⟨b - a - 1, by omega⟩
  have h1 : IndepFun (y ()) (fun s => y () ((t ())^[k] (t () s))) μ :=
    h0.comp (φ := id) (ψ := fun s => y () ((t ())^[k] s)) measurable_id (my.comp (h.preserving_iterate k).measurable)
  have hp := h.preserving_iterate a
  have m2 : Measurable fun s => y () ((t ())^[k] (t () s)) := my.comp ((h.preserving_iterate k).measurable.comp mt)
  have e2 : (fun s => y () ((t ())^[a + (k + 1)] s)) = (fun s => y () ((t ())^[k] (t () s))) ∘ (t ())^[a] := by
    funext s
    show _ = y () ((t ())^[k] (t () ((t ())^[a] s)))
    rw [add_comm, iterate_add_apply, iterate_succ_apply]
  have m3 := hp.measurable
  rw [e2]
  rw [indepFun_iff_map_prod_eq_prod_map_map (by fun_prop) (by fun_prop)] at h1 ⊢
  have q1 : μ.map (fun s => (y () ((t ())^[a] s), ((fun s => y () ((t ())^[k] (t () s))) ∘ (t ())^[a]) s)) =
      μ.map (fun s => (y () s, y () ((t ())^[k] (t () s)))) := by
    conv_rhs => rw [← hp.map_eq, Measure.map_map (my.prodMk m2) m3]
    rfl
  have q2 : μ.map (fun s => y () ((t ())^[a] s)) = μ.map (y ()) := by
    conv_rhs => rw [← hp.map_eq, Measure.map_map my m3]
    rfl
  have q3 : μ.map ((fun s => y () ((t ())^[k] (t () s))) ∘ (t ())^[a]) = μ.map (fun s => y () ((t ())^[k] (t () s))) := by
    conv_rhs => rw [← hp.map_eq, Measure.map_map m2 m3]
  rw [q1, q2, q3, h1]

end Sampled

namespace Sim
variable {g : Gen G ℝ} {count : ℝ → Measure ℕ}

theorem random_path {α : Type} [MeasurableSpace α] {body : α → Eff G (α × ℝ)} (h : Random μ body) {m : G → G} (hm : MeasurePreserving m μ μ) {steps : ℕ}
    (h2 : steps ≤ INT_MAX) (a : α) : Random μ fun _ : Unit => Eff.after m (Eff.unfoldInt body steps a) := by
  rw [Eff.unfoldInt_of_le h2]
  exact ((h.unfoldN steps).comp (k := fun _ : Unit => a) measurable_const).after hm

/-- Every model with admissible parameters. -/
theorem random_prices (hg : RandomSource g μ count) (v : View ℝ) (T : ℝ) {steps : ℕ} (h2 : steps ≤ INT_MAX) :
    ∀ {k : ModelKind ℝ}, Simulatable (T / steps) k → Random μ fun _ : Unit => Sim.prices g steps v T k
  | .gbm, _ => random_path (random_gbmStep hg v (Sim.dt T steps)) (hg.newDist .stdNormal) h2 v.price
  | .heston kappa theta sigmaV rho v0 disc, hd =>
    random_path (random_hestonStep hg v kappa theta sigmaV rho hd (Sim.dt T steps)) (hg.newDist .stdNormal) h2 (v.price, v0)
  | .bates kappa theta sigmaV rho v0 lambda muJ sigmaJ disc, ⟨hm, hs, hd⟩ => by
    rw [← dt_real] at hm
    have := random_path (random_batesStep hg v kappa theta sigmaV rho hd (Sim.dt T steps) hm muJ hs)
      ((hg.newDist (.normal muJ sigmaJ)).comp ((hg.newDist (.poisson (lambda * Sim.dt T steps))).comp (hg.newDist .stdNormal))) h2 (v.price, v0)
    simp only [Sim.prices, Sim.bates, mkPoisson_pos hm, mkNormal_pos muJ hs]
    exact this
  | .kou lambda p eta1 eta2 muJ, ⟨hm, h1, h3⟩ => by
    rw [← dt_real] at hm
    have := random_path (random_kouStep hg v lambda muJ (Sim.dt T steps) p (lit 0) (lit 1) hm h1 h3)
      ((hg.newDist (.exponential eta2)).comp ((hg.newDist (.exponential eta1)).comp ((hg.newDist (.uniform (lit 0) (lit 1))).comp
      ((hg.newDist (.poisson (lambda * Sim.dt T steps))).comp (hg.newDist .stdNormal))))) h2 v.price
    simp only [Sim.prices, Sim.kou, mkPoisson_pos hm, mkUniform_lt (show (lit 0 : ℝ) < lit 1 by simp), mkExponential_pos h1, mkExponential_pos h3]
    exact this
  | .merton lambda muJ sigmaJ, ⟨hm, hs⟩ => by
    rw [← dt_real] at hm
    have := random_path (random_mertonStep hg v (Sim.dt T steps) hm muJ hs)
      ((hg.newDist (.normal muJ sigmaJ)).comp ((hg.newDist (.poisson (lambda * Sim.dt T steps))).comp (hg.newDist .stdNormal))) h2 v.price
    simp only [Sim.prices, Sim.merton, mkPoisson_pos hm, mkNormal_pos muJ hs]
    exact this
  | .varianceGamma nu theta omega, ⟨hd, hn⟩ => by
    rw [← dt_real] at hd
    have hshape : 0 < Sim.dt T steps / nu := by positivity
    have := random_path (random_vgStep hg v theta omega (Sim.dt T steps) hshape hn)
      ((hg.newDist (.gamma (Sim.dt T steps / nu) nu)).comp (hg.newDist .stdNormal)) h2 v.price
    simp only [Sim.prices, Sim.varianceGamma, mkGamma_pos hshape hn]
    exact this

end Sim
end Verif
