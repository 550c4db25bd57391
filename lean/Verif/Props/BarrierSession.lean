import Verif.Spec.BarrierSessionSpec
import Verif.Props.PathSession
import Mathlib.Analysis.Real.Pi.Bounds

/-!
# Property C90: barrier and digital sessions in double precision against the discounted expected payoff
-/

set_option exponentiation.threshold 3000

namespace Verif
open Spec MeasureTheory ProbabilityTheory

/-! ## Paths that keep away from a level -/

/-- The logarithms of the prices at the given dates are further than `eta` from the logarithm of `L`. -/
def FarFrom (L eta : ℝ) (dates : Finset ℕ) (x : ℕ → ℝ) : Prop := ∀ j ∈ dates, eta < |Real.log (x j) - Real.log L|

theorem gaussian_interval {Ω : Type} [MeasurableSpace Ω] {P : Measure Ω} [IsProbabilityMeasure P] {X : Ω → ℝ} (hX : Measurable X) {v : NNReal} (hv : v ≠ 0)
    (h : P.map X = gaussianReal 0 v) (a : ℝ) {b : ℝ} (hb : b ≠ 0) {η : ℝ} (hη : 0 ≤ η) : P.real {ω | |a + b * X ω| ≤ η} ≤ η / (|b| * Real.sqrt v) := by
  have hv0 : (0 : ℝ) < v := lt_of_le_of_ne v.2 (by exact_mod_cast hv.symm)
  have hsv : 0 < Real.sqrt v := Real.sqrt_pos.mpr hv0
  have hb' : 0 < |b| := abs_pos.mpr hb
  have hsub : {x : ℝ | |a + b * x| ≤ η} ⊆ Set.Icc (-a / b - η / |b|) (-a / b + η / |b|) := by
    intro x hx
    have h1 : |b| * |x - -a / b| ≤ η := by
      rw [← abs_mul, mul_sub, mul_div_cancel₀ _ hb]
      simpa [add_comm] using hx
    have h2 : |x - -a / b| ≤ η / |b| := by rwa [le_div_iff₀ hb', mul_comm]
    obtain ⟨h3, h4⟩ := abs_le.mp h2
    exact ⟨by linarith, by linarith⟩
  have hm : MeasurableSet {x : ℝ | |a + b * x| ≤ η} := measurableSet_le (by fun_prop) measurable_const
  have e1 : P {ω | |a + b * X ω| ≤ η} = gaussianReal 0 v {x | |a + b * x| ≤ η} := by
    rw [← h, Measure.map_apply hX hm]
    rfl
  have hpdf : ∀ x, gaussianPDF 0 v x ≤ ENNReal.ofReal (1 / (2 * Real.sqrt v)) := by
    intro x
    rw [gaussianPDF]
    refine ENNReal.ofReal_le_ofReal ?_
    rw [gaussianPDFReal]
    have hpi : (2 : ℝ) * Real.sqrt v ≤ Real.sqrt (2 * Real.pi * v) := by
      rw [Real.sqrt_mul (by positivity)]
      refine mul_le_mul_of_nonneg_right ?_ hsv.le
      exact Real.le_sqrt_of_sq_le (by have := Real.pi_gt_three; linarith)
    calc _ ≤ (Real.sqrt (2 * Real.pi * v))⁻¹ * 1 := by
          refine mul_le_mul_of_nonneg_left (Real.exp_le_one_iff.mpr ?_) (by positivity)
          exact div_nonpos_of_nonpos_of_nonneg (by nlinarith [sq_nonneg (x - 0)]) (by positivity)
      _ ≤ 1 / (2 * Real.sqrt v) := by
          rw [mul_one, one_div]
          gcongr
  have e2 : gaussianReal 0 v {x | |a + b * x| ≤ η} ≤ ENNReal.ofReal (η / (|b| * Real.sqrt v)) := by
    refine (measure_mono hsub).trans ?_
    rw [gaussianReal_apply _ hv]
    calc _ ≤ ∫⁻ _ in Set.Icc (-a / b - η / |b|) (-a / b + η / |b|), ENNReal.ofReal (1 / (2 * Real.sqrt v)) := lintegral_mono hpdf
      _ = ENNReal.ofReal (1 / (2 * Real.sqrt v)) * ENNReal.ofReal (2 * (η / |b|)) := by
          rw [setLIntegral_const, Real.volume_Icc]
          congr 2
          ring
      _ = ENNReal.ofReal (η / (|b| * Real.sqrt v)) := by
          rw [← ENNReal.ofReal_mul (by positivity)]
          congr 1
          field_simp
  rw [measureReal_def, e1]
  exact (ENNReal.toReal_mono ENNReal.ofReal_ne_top e2).trans_eq (ENNReal.toReal_ofReal (by positivity))

/-- With normal draws no path comes near a level, up to a small probability. -/
theorem far_probability {Ω : Type} [MeasurableSpace Ω] {P : Measure Ω} [IsProbabilityMeasure P] {Z : ℕ → Ω → ℝ} (h : IidNormal P Z) {next : Ω → Ω}
    (hp : MeasurePreserving next P P) {S sigma r q T L : ℝ} (hS : 0 < S) (hσ : sigma ≠ 0) {n : ℕ} (hT : 0 < T / n) {η : ℝ} (hη : 0 ≤ η) (dates : Finset ℕ) (N : ℕ) :
    P.real {ω | ¬ ∀ m < N, FarFrom L η dates (gbmPath S sigma r q T n fun l => Z l (next^[m] ω))} ≤ nearEvent sigma T n N dates η := by
  have hlog : ∀ (j : ℕ) (z : ℕ → ℝ), Real.log (gbmPath S sigma r q T n z j) - Real.log L =
      (Real.log S - Real.log L + (r - q - sigma ^ 2 / 2) * ((j + 1) * (T / n))) + sigma * Real.sqrt (T / n) * ∑ l ∈ Finset.range (j + 1), z l := by
    intro j z
    unfold gbmPath
    rw [Real.log_mul hS.ne' (Real.exp_pos _).ne', Real.log_exp]
    ring
  have hs : 0 < Real.sqrt (T / n) := Real.sqrt_pos.mpr hT
  have one : ∀ m j, P.real (next^[m] ⁻¹' {ω | |Real.log S - Real.log L + (r - q - sigma ^ 2 / 2) * ((j + 1) * (T / n)) +
      sigma * Real.sqrt (T / n) * drawSum Z 0 (j + 1) ω| ≤ η}) ≤ η / (|sigma| * Real.sqrt ((j + 1) * (T / n))) := by
    intro m j
    have hmd := h.measurable_drawSum 0 (j + 1)
    have m1 : MeasurableSet {ω | |Real.log S - Real.log L + (r - q - sigma ^ 2 / 2) * ((j + 1) * (T / n)) + sigma * Real.sqrt (T / n) * drawSum Z 0 (j + 1) ω| ≤ η} :=
      measurableSet_le ((hmd.const_mul _).const_add _).abs measurable_const
    rw [measureReal_def, (hp.iterate m).measure_preimage m1.nullMeasurableSet, ← measureReal_def]
    have := gaussian_interval hmd (by exact_mod_cast Nat.succ_ne_zero j) (h.map_drawSum 0 (j + 1))
      (Real.log S - Real.log L + (r - q - sigma ^ 2 / 2) * ((j + 1) * (T / n))) (mul_ne_zero hσ hs.ne') hη
    refine this.trans_eq ?_
    rw [abs_mul, abs_of_pos hs, mul_assoc, ← Real.sqrt_mul hT.le]
    congr 3
    push_cast
    ring
  have hset : {ω | ¬ ∀ m < N, FarFrom L η dates (gbmPath S sigma r q T n fun l => Z l (next^[m] ω))} ⊆ ⋃ m ∈ Finset.range N, ⋃ j ∈ dates,
      next^[m] ⁻¹' {ω | |Real.log S - Real.log L + (r - q - sigma ^ 2 / 2) * ((j + 1) * (T / n)) + sigma * Real.sqrt (T / n) * drawSum Z 0 (j + 1) ω| ≤ η} := by
    intro ω hω
    have hω' : ¬ ∀ m < N, FarFrom L η dates (gbmPath S sigma r q T n fun l => Z l (next^[m] ω)) := hω
    unfold FarFrom at hω'
    push Not at hω'
    obtain ⟨m, hm, j, hj, hh⟩ := hω'
    rw [hlog] at hh
    simp only [Set.mem_iUnion, Finset.mem_range]
    refine ⟨m, hm, j, hj, ?_⟩
    show |_ + _ * drawSum Z 0 (j + 1) (next^[m] ω)| ≤ η
    unfold drawSum
    rwa [Nat.zero_add, ← Finset.range_eq_Ico]
  refine (measureReal_mono hset (measure_ne_top _ _)).trans ((measureReal_biUnion_finset_le _ _).trans ?_)
  calc _ ≤ ∑ m ∈ Finset.range N, ∑ j ∈ dates, η / (|sigma| * Real.sqrt ((j + 1) * (T / n))) :=
        Finset.sum_le_sum fun m _ => (measureReal_biUnion_finset_le _ _).trans (Finset.sum_le_sum fun j _ => one m j)
    _ = nearEvent sigma T n N dates η := by
        simp only [Finset.sum_const, Finset.card_range, nsmul_eq_mul, nearEvent]

section
variable {S sigma r q T : ℝ} {n : ℕ} {B tau : ℝ} (hC : Comfortable S sigma r q T n B tau) {z z' : ℕ → ℝ} (hz : Calm n B z)
  (hz' : ∀ j < n, |z' j - z j| ≤ tau) {L : ℝ} {dates : Finset ℕ} (hd : ∀ j ∈ dates, j < n)
  (hfar : FarFrom L (margin sigma r q T n B tau) dates (gbmPath S sigma r q T n z))
include hC hz hz' hd hfar

/-- A price far from a level stays on its side, with room for rounding errors. -/
theorem far_side {j : ℕ} (hj : j ∈ dates) :
    2 ^ (-49 : ℤ) * gbmWork sigma r q T n z' (n - 1) * gbmPath S sigma r q T n z' j < |gbmPath S sigma r q T n z' j - L| ∧
    ((L < gbmPath S sigma r q T n z' j ∧ L < gbmPath S sigma r q T n z j) ∨ (gbmPath S sigma r q T n z' j < L ∧ gbmPath S sigma r q T n z j < L)) := by
  obtain ⟨hS, hB, ht⟩ := hC.pos
  obtain ⟨-, hW0, hd0⟩ := comfortable_nonneg hC
  have hj' := hd j hj
  obtain ⟨-, -, h3⟩ := calm_exponent hC hz hz' hj'
  have hw := calm_work hC hz hz' (j := n - 1) (by omega)
  have hx : 0 < gbmPath S sigma r q T n z j := mul_pos hS (Real.exp_pos _)
  have hx' : 0 < gbmPath S sigma r q T n z' j := mul_pos hS (Real.exp_pos _)
  have hclose : |Real.log (gbmPath S sigma r q T n z' j) - Real.log (gbmPath S sigma r q T n z j)| ≤ |sigma| * Real.sqrt (T / n) * (n * tau) := by
    unfold gbmPath
    rw [Real.log_mul hS.ne' (Real.exp_pos _).ne', Real.log_exp, Real.log_mul hS.ne' (Real.exp_pos _).ne', Real.log_exp, add_sub_add_left_eq_sub, add_sub_add_left_eq_sub,
      ← mul_sub, abs_mul, abs_mul, abs_of_nonneg (Real.sqrt_nonneg _)]
    gcongr
  have hf := hfar j hj
  unfold margin at hf
  have hδ1 : (2 : ℝ) ^ (-48 : ℤ) * workBound sigma r q T n B tau ≤ 1 := (mul_le_mul_of_nonneg_left hC.work (by positivity)).trans (by norm_num)
  have hδ0 : 0 ≤ (2 : ℝ) ^ (-48 : ℤ) * workBound sigma r q T n B tau := by positivity
  have hD0 : 0 ≤ |sigma| * Real.sqrt (T / n) * (n * tau) := by positivity
  have hw2 : (2 : ℝ) ^ (-49 : ℤ) * gbmWork sigma r q T n z' (n - 1) ≤ (2 ^ (-48 : ℤ) * workBound sigma r q T n B tau) / 2 := by
    refine (mul_le_mul_of_nonneg_left hw (by positivity)).trans_eq ?_
    rw [show (2 : ℝ) ^ (-48 : ℤ) = 2 * 2 ^ (-49 : ℤ) by norm_num]
    ring
  obtain ⟨c1, c2⟩ := abs_le.mp hclose
  generalize (2 : ℝ) ^ (-48 : ℤ) * workBound sigma r q T n B tau = δ at *
  generalize (2 : ℝ) ^ (-49 : ℤ) * gbmWork sigma r q T n z' (n - 1) = a at *
  generalize |sigma| * Real.sqrt (T / n) * (n * tau) = D at *
  generalize gbmPath S sigma r q T n z j = x at *
  generalize gbmPath S sigma r q T n z' j = x' at *
  have ha : a * x' ≤ δ / 2 * x' := mul_le_mul_of_nonneg_right hw2 hx'.le
  rcases le_or_gt L 0 with hL | hL
  · have : δ / 2 * x' ≤ 1 / 2 * x' := mul_le_mul_of_nonneg_right (by linarith) hx'.le
    refine ⟨?_, .inl ⟨by linarith, by linarith⟩⟩
    rw [abs_of_pos (by linarith)]
    linarith
  rcases lt_abs.mp hf with h | h
  · have l1 : Real.log L < Real.log x := by linarith
    have l2 : Real.log L + δ < Real.log x' := by linarith
    have hLx := (Real.log_lt_log_iff hL hx).mp l1
    have hLe : L < x' * Real.exp (-δ) := by
      rw [← Real.log_lt_log_iff hL (mul_pos hx' (Real.exp_pos _)), Real.log_mul hx'.ne' (Real.exp_pos _).ne', Real.log_exp]
      linarith
    have he : Real.exp (-δ) ≤ 1 - δ / 2 := by
      have h1 := Real.add_one_le_exp δ
      have h2 : Real.exp (-δ) * Real.exp δ = 1 := by rw [← Real.exp_add]; simp
      have h3 := Real.exp_pos (-δ)
      by_contra hn
      rw [not_le] at hn
      nlinarith [mul_le_mul_of_nonneg_left h1 h3.le, mul_nonneg hδ0 (sub_nonneg.mpr hδ1)]
    have : L < x' - δ / 2 * x' := hLe.trans_le (by nlinarith)
    have hLx' : L < x' := this.trans_le (by nlinarith)
    refine ⟨?_, .inl ⟨hLx', hLx⟩⟩
    rw [abs_of_pos (by linarith)]
    linarith
  · have l1 : Real.log x < Real.log L := by linarith
    have l2 : Real.log x' + δ < Real.log L := by linarith
    have hLx := (Real.log_lt_log_iff hx hL).mp l1
    have hLe : x' * Real.exp δ < L := by
      rw [← Real.log_lt_log_iff (mul_pos hx' (Real.exp_pos _)) hL, Real.log_mul hx'.ne' (Real.exp_pos _).ne', Real.log_exp]
      linarith
    have he : δ + 1 ≤ Real.exp δ := Real.add_one_le_exp δ
    have : x' + δ / 2 * x' < L := lt_of_le_of_lt (by nlinarith) hLe
    have hLx' : x' < L := lt_of_le_of_lt (by nlinarith) this
    refine ⟨?_, .inr ⟨hLx', hLx⟩⟩
    rw [abs_of_neg (by linarith)]
    linarith

end

section
variable {S sigma r q T : ℝ} {n : ℕ} {B tau : ℝ} (hC : Comfortable S sigma r q T n B tau) {z z' : ℕ → ℝ} (hz : Calm n B z)
  (hz' : ∀ j < n, |z' j - z j| ≤ tau) {L : ℝ}
include hC hz hz'

theorem far_crossed (hfar : FarFrom L (margin sigma r q T n B tau) (Finset.range n) (gbmPath S sigma r q T n z)) (d : BarrierDirection) :
    Crossed L d n (gbmPath S sigma r q T n z') ↔ Crossed L d n (gbmPath S sigma r q T n z) := by
  have key : ∀ j < n, (L ≤ gbmPath S sigma r q T n z' j ↔ L ≤ gbmPath S sigma r q T n z j) ∧ (gbmPath S sigma r q T n z' j ≤ L ↔ gbmPath S sigma r q T n z j ≤ L) := by
    intro j hj
    rcases (far_side hC hz hz' (fun j hj => Finset.mem_range.mp hj) hfar (Finset.mem_range.mpr hj)).2 with ⟨h1, h2⟩ | ⟨h1, h2⟩
    · exact ⟨⟨fun _ => h2.le, fun _ => h1.le⟩, ⟨fun h => absurd h1 (not_lt.mpr h), fun h => absurd h2 (not_lt.mpr h)⟩⟩
    · exact ⟨⟨fun h => absurd h1 (not_lt.mpr h), fun h => absurd h2 (not_lt.mpr h)⟩, ⟨fun _ => h2.le, fun _ => h1.le⟩⟩
  unfold Crossed
  cases d
  · exact ⟨fun ⟨j, hj, h⟩ => ⟨j, hj, (key j hj).1.mp h⟩, fun ⟨j, hj, h⟩ => ⟨j, hj, (key j hj).1.mpr h⟩⟩
  · exact ⟨fun ⟨j, hj, h⟩ => ⟨j, hj, (key j hj).2.mp h⟩, fun ⟨j, hj, h⟩ => ⟨j, hj, (key j hj).2.mpr h⟩⟩

theorem far_digital (hn : 0 < n) (hfar : FarFrom L (margin sigma r q T n B tau) {n - 1} (gbmPath S sigma r q T n z)) :
    (L < gbmPath S sigma r q T n z' (n - 1) ↔ L < gbmPath S sigma r q T n z (n - 1)) ∧ (gbmPath S sigma r q T n z' (n - 1) < L ↔ gbmPath S sigma r q T n z (n - 1) < L) ∧
    (L ≤ gbmPath S sigma r q T n z' (n - 1) ↔ L ≤ gbmPath S sigma r q T n z (n - 1)) ∧ (gbmPath S sigma r q T n z' (n - 1) ≤ L ↔ gbmPath S sigma r q T n z (n - 1) ≤ L) := by
  rcases (far_side hC hz hz' (fun j hj => by rw [Finset.mem_singleton.mp hj]; omega) hfar (Finset.mem_singleton_self _)).2 with ⟨h1, h2⟩ | ⟨h1, h2⟩
  · exact ⟨⟨fun _ => h2, fun _ => h1⟩, ⟨fun h => absurd h (not_lt.mpr h1.le), fun h => absurd h (not_lt.mpr h2.le)⟩, ⟨fun _ => h2.le, fun _ => h1.le⟩,
      ⟨fun h => absurd h1 (not_lt.mpr h), fun h => absurd h2 (not_lt.mpr h)⟩⟩
  · exact ⟨⟨fun h => absurd h (not_lt.mpr h1.le), fun h => absurd h (not_lt.mpr h2.le)⟩, ⟨fun _ => h2, fun _ => h1⟩,
      ⟨fun h => absurd h1 (not_lt.mpr h), fun h => absurd h2 (not_lt.mpr h)⟩, ⟨fun _ => h2.le, fun _ => h1.le⟩⟩

end

/-! ## Runs -/

section
variable {E Q : Type} (env : Env E Q (Dbl .binary64)) {e : Engine E ℝ}

/-- `CalmClose` for paths with a further property. -/
def GoodClose (Good : (ℕ → ℝ) → Prop) (e : Engine E ℝ) (run : Eff E (Dbl .binary64)) (S sigma r : ℝ) (q : Option ℝ) (T : ℝ) (n N : ℕ) (B : ℝ) (F : (ℕ → ℝ) → ℝ) (gap : ℝ) : Prop :=
  ∀ (Z : ℕ → E → ℝ) (next : E → E),
    (∀ s, Draws (e.gen.draw .stdNormal) (e.gen.newDist .stdNormal s) ((List.range n).map fun j => Z j s) (next s)) →
    ∀ x, (∀ m < N, Calm n B fun l => Z l (next^[m] x)) → (∀ m < N, Good fun l => Z l (next^[m] x)) → ∃ y : ℝ, (run x).1 = .ok (.num y) ∧
      |y - discountedMean r T ((List.iterate next x N).map fun y => F (gbmPath S sigma r (q.getD 0) T n fun l => Z l y))| ≤ gap

theorem good_run {i : Session (Dbl .binary64)} {S sigma r T : ℝ} {q : Option ℝ} (hdata : DoubleData i S sigma r q T)
    {B tau : ℝ} (hC : Comfortable S sigma r (q.getD 0) T i.dim B tau) (hE : NormalsClose env.engine e B tau) {Z : ℕ → E → ℝ} {next : E → E}
    (hd : ∀ s, Draws (e.gen.draw .stdNormal) (e.gen.newDist .stdNormal s) ((List.range i.dim).map fun j => Z j s) (next s))
    {N : ℕ} (hN : 0 < N) (hN2 : N ≤ INT_MAX) {Good : (ℕ → ℝ) → Prop} (x : E) (hx : ∀ m < N, Calm i.dim B fun l => Z l (next^[m] x)) (hg : ∀ m < N, Good fun l => Z l (next^[m] x)) :
    ∃ zss : List (List ℝ), DoubleRun env i S sigma r q T x zss ∧ zss.length = N ∧
      (∀ zs ∈ zss, ∃ y, Calm i.dim B (fun l => Z l y) ∧ (∀ j < i.dim, |zs.getD j 0 - Z j y| ≤ tau) ∧ Good fun l => Z l y) ∧
      List.Forall₂ (fun zs y => Calm i.dim B (fun l => Z l y) ∧ (∀ j < i.dim, |zs.getD j 0 - Z j y| ≤ tau) ∧ Good fun l => Z l y) zss (List.iterate next x N) := by
  obtain ⟨zss, r1, r2, -, r4⟩ := calm_run env hdata hC hE hd hN hN2 x hx
  have hall : ∀ y ∈ List.iterate next x N, Good fun l => Z l y := by
    intro y hy
    obtain ⟨m, hm, rfl⟩ := List.mem_iterate.mp hy
    exact hg m hm
  have h2 : List.Forall₂ (fun zs y => Calm i.dim B (fun l => Z l y) ∧ (∀ j < i.dim, |zs.getD j 0 - Z j y| ≤ tau) ∧ Good fun l => Z l y) zss (List.iterate next x N) := by
    generalize List.iterate next x N = ys at r4 hall
    clear r1 r2
    induction r4 with
    | nil => exact .nil
    | cons h _ ih => exact .cons ⟨h.1, h.2, hall _ List.mem_cons_self⟩ (ih fun y hy => hall y (List.mem_cons_of_mem _ hy))
  refine ⟨zss, r1, r2, fun zs hz => ?_, h2⟩
  obtain ⟨k, hk, rfl⟩ := List.mem_iff_getElem.mp hz
  exact ⟨_, h2.get hk (by rw [← h2.length_eq]; exact hk)⟩

variable [MeasurableSpace E] {μ : Measure E} [IsProbabilityMeasure μ] {count : ℝ → Measure ℕ}

/-- `session_deviates` for paths with a further property which holds up to the probability `p`. -/
theorem good_deviates (he : RandomEngine e μ count) {i : Session (Dbl .binary64)} {S sigma r T : ℝ} {q : Option ℝ} (hdata : DoubleData i S sigma r q T)
    {B tau : ℝ} (hC : Comfortable S sigma r (q.getD 0) T i.dim B tau) {N : ℕ} (hN : 0 < N) {run : Eff E (Dbl .binary64)} {F : (ℕ → ℝ) → ℝ} {gap p : ℝ} {Good : (ℕ → ℝ) → Prop}
    (hp : ∀ (Z : ℕ → E → ℝ) (next : E → E), IidNormal μ Z → MeasurePreserving next μ μ → μ.real {x | ¬ ∀ m < N, Good fun l => Z l (next^[m] x)} ≤ p)
    (hrun : GoodClose Good e run S sigma r q T i.dim N B F gap)
    (hfm : Measurable fun l : List ℝ => F fun j => l.getD j 0) (hfc : ∀ x y : ℕ → ℝ, (∀ j < i.dim, x j = y j) → F x = F y)
    (hm : Measurable fun z => F (gbmPath S sigma r (q.getD 0) T i.dim z)) :
    ((∀ Z : ℕ → E → ℝ, IidNormal μ Z → MemLp (fun x => F (gbmPath S sigma r (q.getD 0) T i.dim fun l => Z l x)) 2 μ) →
      DoubleDeviates μ run (fairValue S sigma r (q.getD 0) T i.dim F) gap fun ε => fairVariance S sigma r (q.getD 0) T i.dim F / (N * ε ^ 2) + (rareEvent i.dim N B + p)) ∧
    ∀ b, 0 < b → (∀ z, 0 ≤ F (gbmPath S sigma r (q.getD 0) T i.dim z) ∧ F (gbmPath S sigma r (q.getD 0) T i.dim z) ≤ b) →
      DoubleDeviates μ run (fairValue S sigma r (q.getD 0) T i.dim F) gap fun ε => 2 * Real.exp (-(2 * N * ε ^ 2) / (Real.exp (-(r * T)) * b) ^ 2) + (rareEvent i.dim N B + p) := by
  obtain ⟨Z, next, hZ, hpr, hd⟩ := exists_normals (randomSource_engine he)
  have hc : μ.real {x | ¬ ((∀ m < N, Calm i.dim B fun l => Z l ((next i.dim)^[m] x)) ∧ ∀ m < N, Good fun l => Z l ((next i.dim)^[m] x))} ≤ rareEvent i.dim N B + p := by
    refine (measureReal_mono (fun x hx => ?_) (measure_ne_top _ _)).trans ((measureReal_union_le _ _).trans
      (add_le_add (calm_probability hZ (hpr i.dim) hC.pos.2.1 i.dim N) (hp Z (next i.dim) hZ (hpr i.dim))))
    exact not_and_or.mp hx
  refine ⟨fun hL => ?_, fun b hb0 hb => ?_⟩
  · exact deviates_of_mean hc (fun x hx => hrun Z (next i.dim) (hd i.dim) x hx.1 hx.2) fun ε hε =>
      mean_chebyshev he hZ (hd i.dim) hdata.dim.2 hC.pos.1 sigma r T q hfm hfc hm (hL Z hZ) hN hε
  · exact deviates_of_mean hc (fun x hx => hrun Z (next i.dim) (hd i.dim) x hx.1 hx.2) fun ε hε =>
      mean_hoeffding he hZ (hd i.dim) hdata.dim.2 hC.pos.1 sigma r T q hfm hfc hm hb0 hb hN hε

end

/-! ## Contracts -/

section
variable {E Q : Type} (env : Env E Q (Dbl .binary64)) {e : Engine E ℝ}
  {i : Session (Dbl .binary64)} {c : Session.Choices} {o : OptObj (Dbl .binary64)} {S sigma r T K L : ℝ} {q : Option ℝ} {B tau : ℝ} {N : ℕ}

/-- Contracts that depend on crossing `L` and pay at most a call or put. -/
theorem barrier_close (hdata : DoubleData i S sigma r q T) (hC : Comfortable S sigma r (q.getD 0) T i.dim B tau)
    (hE : NormalsClose env.engine e B tau) (hN : 0 < N) (hN2 : N ≤ INT_MAX) {run : Eff E (Dbl .binary64)} (cl : Prop) [Decidable cl] {F : (ℕ → ℝ) → ℝ}
    (hm : ∀ x zss, DoubleRun env i S sigma r q T x zss → zss.length = N →
      (∀ zs ∈ zss, ClearOf L (2 ^ (-49 : ℤ) * workOf sigma r q T i.dim zs) i.dim (pathOf S sigma r q T i.dim zs)) →
      MeanUpTo (run x).1 r T (zss.map fun zs => F (pathOf S sigma r q T i.dim zs))
        (zss.map fun zs => valueError (2 ^ (-49 : ℤ) * workOf sigma r q T i.dim zs) K (pathOf S sigma r q T i.dim zs (i.dim - 1))))
    (d : BarrierDirection) (a : Prop → Prop)
    (hF : ∀ x, (a (Crossed L d i.dim x) → F x = vanillaValue cl K (x (i.dim - 1))) ∧ (¬ a (Crossed L d i.dim x) → F x = 0)) :
    GoodClose (fun z => FarFrom L (margin sigma r (q.getD 0) T i.dim B tau) (Finset.range i.dim) (gbmPath S sigma r (q.getD 0) T i.dim z)) e run S sigma r q T i.dim N B F
      (sessionGap S sigma r (q.getD 0) T K i.dim N B tau) := by
  intro Z next hd x hx hg
  obtain ⟨zss, r1, r2, r3, r4⟩ := good_run env hdata hC hE hd hN hN2
    (Good := fun z => FarFrom L (margin sigma r (q.getD 0) T i.dim B tau) (Finset.range i.dim) (gbmPath S sigma r (q.getD 0) T i.dim z)) x hx hg
  obtain ⟨hM0, hW0, hd0⟩ := comfortable_nonneg hC
  have ht := hC.pos.2.2
  have hl : i.dim - 1 < i.dim := by have := hdata.dim.1; omega
  have hr : ∀ {zs : List ℝ} {y : E}, Calm i.dim B (fun l => Z l y) → (∀ j < i.dim, |zs.getD j 0 - Z j y| ≤ tau) → workOf sigma r q T i.dim zs ≤ workBound sigma r (q.getD 0) T i.dim B tau :=
    fun c1 c2 => calm_work hC c1 c2 (j := i.dim - 1) hl
  have key := calm_mean (M := S * Real.exp (logRange sigma r (q.getD 0) T i.dim B tau) + |K|)
    (eb := 2 ^ (-49 : ℤ) * workBound sigma r (q.getD 0) T i.dim B tau * (S * Real.exp (logRange sigma r (q.getD 0) T i.dim B tau)) +
      2 ^ (-51 : ℤ) * (S * Real.exp (logRange sigma r (q.getD 0) T i.dim B tau) + |K|))
    (L := S * Real.exp (logRange sigma r (q.getD 0) T i.dim B tau) * (|sigma| * Real.sqrt (T / i.dim) * (i.dim * tau)))
    (g := fun y => F (gbmPath S sigma r (q.getD 0) T i.dim fun l => Z l y)) (hm x zss r1 r2 fun zs hz j hj => ?_) r2 hN hN2 r4 ?_ ?_ ?_ (by positivity)
  · obtain ⟨y, y1, y2⟩ := key
    refine ⟨y, y1, y2.trans_eq ?_⟩
    unfold sessionGap
    have a2 : (2 : ℝ) ^ (-51 : ℤ) = 2 * 2 ^ (-52 : ℤ) := by norm_num
    have a1 : (2 : ℝ) ^ (-48 : ℤ) = 2 * 2 ^ (-49 : ℤ) := by norm_num
    rw [a2, a1]
    ring
  · obtain ⟨y, c1, c2, c3⟩ := r3 zs hz
    exact (far_side hC c1 c2 (fun j hj => Finset.mem_range.mp hj) c3 (Finset.mem_range.mpr hj)).1
  · intro zs y hzy
    obtain ⟨c1, c2, c3⟩ := hzy
    have hcr := far_crossed hC c1 c2 c3 d
    have hdiff := (calm_prices hC c1 c2 hl).2.2
    have hD0 := (abs_nonneg _).trans hdiff
    by_cases hh : a (Crossed L d i.dim (gbmPath S sigma r (q.getD 0) T i.dim fun l => Z l y))
    · have h2 : a (Crossed L d i.dim (gbmPath S sigma r (q.getD 0) T i.dim fun l => zs.getD l 0)) := by rwa [propext hcr]
      rw [(hF _).1 h2, (hF _).1 hh]
      exact (vanillaValue_lipschitz cl K _ _).trans hdiff
    · have h2 : ¬ a (Crossed L d i.dim (gbmPath S sigma r (q.getD 0) T i.dim fun l => zs.getD l 0)) := by rwa [propext hcr]
      rw [(hF _).2 h2, (hF _).2 hh]
      simpa using hD0
  · intro zs hz
    obtain ⟨y, c1, c2, -⟩ := r3 zs hz
    obtain ⟨x1, x2, -⟩ := calm_prices hC c1 c2 hl
    have hw := hr c1 c2
    have x3 := x1.le
    unfold valueError
    gcongr
  · intro zs hz
    obtain ⟨y, c1, c2, -⟩ := r3 zs hz
    obtain ⟨x1, x2, -⟩ := calm_prices hC c1 c2 hl
    by_cases hh : a (Crossed L d i.dim (gbmPath S sigma r (q.getD 0) T i.dim fun l => zs.getD l 0))
    · rw [(hF _).1 hh]
      exact (vanillaValue_le _ x1.le).trans (by linarith)
    · rw [(hF _).2 hh]
      positivity

/-- Contracts that pay one or nothing. -/
theorem digital_close (hdata : DoubleData i S sigma r q T) (hC : Comfortable S sigma r (q.getD 0) T i.dim B tau)
    (hE : NormalsClose env.engine e B tau) (hN : 0 < N) (hN2 : N ≤ INT_MAX) {run : Eff E (Dbl .binary64)} {levels : List ℝ} {F : (ℕ → ℝ) → ℝ}
    (hm : ∀ x zss, DoubleRun env i S sigma r q T x zss → zss.length = N →
      (∀ zs ∈ zss, ∀ L ∈ levels, 2 ^ (-49 : ℤ) * workOf sigma r q T i.dim zs * pathOf S sigma r q T i.dim zs (i.dim - 1) < |pathOf S sigma r q T i.dim zs (i.dim - 1) - L|) →
      MeanUpTo (run x).1 r T (zss.map fun zs => F (pathOf S sigma r q T i.dim zs)) (zss.map fun _ => 0))
    (hF1 : ∀ x, F x ≤ 1)
    (hF : ∀ x y : ℕ → ℝ, (∀ L ∈ levels, (L < x (i.dim - 1) ↔ L < y (i.dim - 1)) ∧ (x (i.dim - 1) < L ↔ y (i.dim - 1) < L) ∧ (L ≤ x (i.dim - 1) ↔ L ≤ y (i.dim - 1)) ∧
      (x (i.dim - 1) ≤ L ↔ y (i.dim - 1) ≤ L)) → F x = F y) :
    GoodClose (fun z => ∀ L ∈ levels, FarFrom L (margin sigma r (q.getD 0) T i.dim B tau) {i.dim - 1} (gbmPath S sigma r (q.getD 0) T i.dim z)) e run S sigma r q T i.dim N B F
      (digitalGap r T N) := by
  intro Z next hd x hx hg
  obtain ⟨zss, r1, r2, r3, r4⟩ := good_run env hdata hC hE hd hN hN2
    (Good := fun z => ∀ L ∈ levels, FarFrom L (margin sigma r (q.getD 0) T i.dim B tau) {i.dim - 1} (gbmPath S sigma r (q.getD 0) T i.dim z)) x hx hg
  have hn := hdata.dim.1
  have key := calm_mean (M := 1) (eb := 0) (L := 0) (g := fun y => F (gbmPath S sigma r (q.getD 0) T i.dim fun l => Z l y))
    (hm x zss r1 r2 fun zs hz L hl => ?_) r2 hN hN2 r4 ?_ (fun _ _ => le_rfl) (fun _ _ => hF1 _) le_rfl
  · obtain ⟨y, y1, y2⟩ := key
    refine ⟨y, y1, y2.trans_eq ?_⟩
    unfold digitalGap
    ring
  · obtain ⟨y, c1, c2, c3⟩ := r3 zs hz
    exact (far_side hC c1 c2 (fun j hj => by rw [Finset.mem_singleton.mp hj]; omega) (c3 L hl) (Finset.mem_singleton_self _)).1
  · intro zs y hzy
    obtain ⟨c1, c2, c3⟩ := hzy
    rw [hF _ (gbmPath S sigma r (q.getD 0) T i.dim fun l => Z l y) fun L hl => far_digital hC c1 c2 hn (c3 L hl)]
    simp

end

section
variable {Ω : Type} [MeasurableSpace Ω]

theorem measurableSet_crossed (L : ℝ) (d : BarrierDirection) {X : ℕ → Ω → ℝ} (n : ℕ) (h : ∀ j < n, Measurable (X j)) : MeasurableSet {ω | Crossed L d n fun j => X j ω} := by
  cases d
  · have e : {ω | Crossed L .up n fun j => X j ω} = ⋃ j : Fin n, {ω | L ≤ X j ω} := by
      ext ω
      simp only [Crossed, Set.mem_setOf_eq, Set.mem_iUnion]
      exact ⟨fun ⟨j, hj, hh⟩ => ⟨⟨j, hj⟩, hh⟩, fun ⟨j, hh⟩ => ⟨j, j.2, hh⟩⟩
    rw [e]
    exact MeasurableSet.iUnion fun j => measurableSet_le measurable_const (h j j.2)
  · have e : {ω | Crossed L .down n fun j => X j ω} = ⋃ j : Fin n, {ω | X j ω ≤ L} := by
      ext ω
      simp only [Crossed, Set.mem_setOf_eq, Set.mem_iUnion]
      exact ⟨fun ⟨j, hj, hh⟩ => ⟨⟨j, hj⟩, hh⟩, fun ⟨j, hh⟩ => ⟨j, j.2, hh⟩⟩
    rw [e]
    exact MeasurableSet.iUnion fun j => measurableSet_le (h j j.2) measurable_const

theorem measurable_knockInValue (cl : Prop) [Decidable cl] (K L : ℝ) (d : BarrierDirection) {X : ℕ → Ω → ℝ} {n : ℕ} (hn : 0 < n) (h : ∀ j < n, Measurable (X j)) :
    Measurable fun ω => knockInValue cl K L d n fun j => X j ω :=
  Measurable.ite (measurableSet_crossed L d n h) ((measurable_vanillaValue cl K).comp (h (n - 1) (by omega))) measurable_const

theorem measurable_knockOutValue (cl : Prop) [Decidable cl] (K L : ℝ) (d : BarrierDirection) {X : ℕ → Ω → ℝ} {n : ℕ} (hn : 0 < n) (h : ∀ j < n, Measurable (X j)) :
    Measurable fun ω => knockOutValue cl K L d n fun j => X j ω :=
  Measurable.ite (measurableSet_crossed L d n h) measurable_const ((measurable_vanillaValue cl K).comp (h (n - 1) (by omega)))

theorem crossed_congr (L : ℝ) (d : BarrierDirection) {n : ℕ} {x y : ℕ → ℝ} (h : ∀ j < n, x j = y j) : Crossed L d n x = Crossed L d n y := by
  unfold Crossed
  refine propext ⟨fun ⟨j, hj, hh⟩ => ⟨j, hj, ?_⟩, fun ⟨j, hj, hh⟩ => ⟨j, hj, ?_⟩⟩
  · rwa [← h j hj]
  · rwa [h j hj]

theorem knockInValue_bounds (cl : Prop) [Decidable cl] (K L : ℝ) (d : BarrierDirection) (n : ℕ) (x : ℕ → ℝ) :
    0 ≤ knockInValue cl K L d n x ∧ knockInValue cl K L d n x ≤ vanillaValue cl K (x (n - 1)) := by
  have := vanillaValue_nonneg cl K (x (n - 1))
  unfold knockInValue
  split <;> exact ⟨by linarith, by linarith⟩

theorem knockOutValue_bounds (cl : Prop) [Decidable cl] (K L : ℝ) (d : BarrierDirection) (n : ℕ) (x : ℕ → ℝ) :
    0 ≤ knockOutValue cl K L d n x ∧ knockOutValue cl K L d n x ≤ vanillaValue cl K (x (n - 1)) := by
  have := vanillaValue_nonneg cl K (x (n - 1))
  unfold knockOutValue
  split <;> exact ⟨by linarith, by linarith⟩

theorem measurable_digitalValue (cl : Prop) [Decidable cl] (K : ℝ) : Measurable (digitalValue cl K) := by
  unfold digitalValue
  split
  · exact Measurable.ite (measurableSet_lt measurable_const measurable_id) measurable_const measurable_const
  · exact Measurable.ite (measurableSet_lt measurable_id measurable_const) measurable_const measurable_const

theorem measurable_doubleDigitalValue (L U : ℝ) : Measurable (doubleDigitalValue L U) :=
  Measurable.ite ((measurableSet_le measurable_const measurable_id).inter (measurableSet_le measurable_id measurable_const)) measurable_const measurable_const

theorem digitalValue_bounds (cl : Prop) [Decidable cl] (K x : ℝ) : 0 ≤ digitalValue cl K x ∧ digitalValue cl K x ≤ 1 := by
  unfold digitalValue
  split <;> split <;> norm_num

theorem doubleDigitalValue_bounds (L U x : ℝ) : 0 ≤ doubleDigitalValue L U x ∧ doubleDigitalValue L U x ≤ 1 := by
  unfold doubleDigitalValue
  split <;> norm_num

end

theorem margin_nonneg {S sigma r q T : ℝ} {n : ℕ} {B tau : ℝ} (hC : Comfortable S sigma r q T n B tau) : 0 ≤ margin sigma r q T n B tau := by
  obtain ⟨-, hW, -⟩ := comfortable_nonneg hC
  have := hC.pos.2.2
  unfold margin
  positivity

theorem nearEvent_nonneg (sigma T : ℝ) (n N : ℕ) (dates : Finset ℕ) {eta : ℝ} (h : 0 ≤ eta) : 0 ≤ nearEvent sigma T n N dates eta :=
  mul_nonneg (Nat.cast_nonneg _) (Finset.sum_nonneg fun _ _ => by positivity)

/-- `far_probability` for several levels. -/
theorem far_levels {Ω : Type} [MeasurableSpace Ω] {P : Measure Ω} [IsProbabilityMeasure P] {Z : ℕ → Ω → ℝ} (h : IidNormal P Z) {next : Ω → Ω}
    (hp : MeasurePreserving next P P) {S sigma r q T : ℝ} (hS : 0 < S) (hσ : sigma ≠ 0) {n : ℕ} (hT : 0 < T / n) {η : ℝ} (hη : 0 ≤ η) (dates : Finset ℕ) (N : ℕ) (levels : List ℝ) :
    P.real {ω | ¬ ∀ m < N, ∀ L ∈ levels, FarFrom L η dates (gbmPath S sigma r q T n fun l => Z l (next^[m] ω))} ≤ levels.length * nearEvent sigma T n N dates η := by
  have h0 := nearEvent_nonneg sigma T n N dates hη
  induction levels with
  | nil => simp
  | cons L ls ih =>
    have hset : {ω | ¬ ∀ m < N, ∀ L' ∈ L :: ls, FarFrom L' η dates (gbmPath S sigma r q T n fun l => Z l (next^[m] ω))} ⊆
        {ω | ¬ ∀ m < N, FarFrom L η dates (gbmPath S sigma r q T n fun l => Z l (next^[m] ω))} ∪
        {ω | ¬ ∀ m < N, ∀ L' ∈ ls, FarFrom L' η dates (gbmPath S sigma r q T n fun l => Z l (next^[m] ω))} := by
      intro ω hω
      by_contra hc
      rw [Set.mem_union, not_or] at hc
      simp only [Set.mem_setOf_eq, not_not] at hc
      refine hω fun m hm L' hL' => ?_
      rcases List.mem_cons.mp hL' with rfl | hL'
      · exact hc.1 m hm
      · exact hc.2 m hm L' hL'
    refine (measureReal_mono hset (measure_ne_top _ _)).trans ((measureReal_union_le _ _).trans ?_)
    have := far_probability h hp (r := r) (q := q) (L := L) hS hσ hT hη dates N
    rw [List.length_cons]
    push_cast
    linarith

section
variable {E Q : Type} [MeasurableSpace E] {μ : Measure E} [IsProbabilityMeasure μ] {count : ℝ → Measure ℕ} (env : Env E Q (Dbl .binary64)) {e : Engine E ℝ}
  {i : Session (Dbl .binary64)} {c : Session.Choices} {o : OptObj (Dbl .binary64)} {S sigma r T K L : ℝ} {q : Option ℝ} {B tau : ℝ} {N : ℕ}

theorem knockIn_both (he : RandomEngine e μ count) (h : AcceptedSession i c .gbm o) (hf : i.factory = .knockIn) (hdata : DoubleData i S sigma r q T) (hσ : sigma ≠ 0)
    (hK : lastSet i.params "K" = some (.dbl (.num K))) (hK2 : |K| ≤ 2 ^ (500 : ℤ)) {d : BarrierDirection} (hL : lastSet i.params "B" = some (.dbl (.num L)))
    (hdir : lastSet i.params "direction" = some (.dir d))
    (hC : Comfortable S sigma r (q.getD 0) T i.dim B tau) (hE : NormalsClose env.engine e B tau) (hN : 0 < N) (hN2 : N ≤ INT_MAX) (s : Sys E Q (Dbl .binary64)) :
    ((∀ Z : ℕ → E → ℝ, IidNormal μ Z → MemLp (fun x => knockInValue (i.ty = .call) K L d i.dim (gbmPath S sigma r (q.getD 0) T i.dim fun l => Z l x)) 2 μ) →
      DoubleDeviates μ (started env c i s N) (fairValue S sigma r (q.getD 0) T i.dim (knockInValue (i.ty = .call) K L d i.dim)) (sessionGap S sigma r (q.getD 0) T K i.dim N B tau)
        fun ε => fairVariance S sigma r (q.getD 0) T i.dim (knockInValue (i.ty = .call) K L d i.dim) / (N * ε ^ 2) +
          (rareEvent i.dim N B + nearEvent sigma T i.dim N (Finset.range i.dim) (margin sigma r (q.getD 0) T i.dim B tau))) ∧
    ∀ b, 0 < b → (∀ z, 0 ≤ knockInValue (i.ty = .call) K L d i.dim (gbmPath S sigma r (q.getD 0) T i.dim z) ∧ knockInValue (i.ty = .call) K L d i.dim (gbmPath S sigma r (q.getD 0) T i.dim z) ≤ b) →
      DoubleDeviates μ (started env c i s N) (fairValue S sigma r (q.getD 0) T i.dim (knockInValue (i.ty = .call) K L d i.dim)) (sessionGap S sigma r (q.getD 0) T K i.dim N B tau)
        fun ε => 2 * Real.exp (-(2 * N * ε ^ 2) / (Real.exp (-(r * T)) * b) ^ 2) +
          (rareEvent i.dim N B + nearEvent sigma T i.dim N (Finset.range i.dim) (margin sigma r (q.getD 0) T i.dim B tau)) :=
  good_deviates he hdata hC hN (fun Z next hZ hp => far_probability hZ hp hC.pos.1 hσ (comfortable_nonneg hC).2.2 (margin_nonneg hC) _ N)
    (barrier_close env (K := K) (L := L) hdata hC hE hN hN2 (run := started env c i s N) (i.ty = .call) (fun x zss r1 r2 r3 => by
      have := C88_knockIn env h hf r1 hK hK2 hL hdir r3 s
      rwa [r2] at this) d (fun p => p) (fun x => ⟨fun hx => by unfold knockInValue; rw [if_pos hx], fun hx => by unfold knockInValue; rw [if_neg hx]⟩))
    (measurable_knockInValue _ K L d hdata.dim.1 fun j _ => measurable_getD j)
    (fun x y hxy => by unfold knockInValue; rw [crossed_congr L d hxy, hxy _ (by have := hdata.dim.1; omega)])
    (measurable_knockInValue _ K L d hdata.dim.1 fun j _ => measurable_gbmPath _ _ _ _ _ _ _)

/-- **C90.** A knock-in option priced in double precision. Besides rare draws, the bound counts paths that come so near to the barrier that rounding could matter. -/
theorem C90_knockIn (he : RandomEngine e μ count) (h : AcceptedSession i c .gbm o) (hf : i.factory = .knockIn) (hdata : DoubleData i S sigma r q T) (hσ : sigma ≠ 0)
    (hK : lastSet i.params "K" = some (.dbl (.num K))) (hK2 : |K| ≤ 2 ^ (500 : ℤ)) {d : BarrierDirection} (hL : lastSet i.params "B" = some (.dbl (.num L)))
    (hdir : lastSet i.params "direction" = some (.dir d))
    (hC : Comfortable S sigma r (q.getD 0) T i.dim B tau) (hE : NormalsClose env.engine e B tau) (hN : 0 < N) (hN2 : N ≤ INT_MAX) (s : Sys E Q (Dbl .binary64)) :
    DoubleDeviates μ (started env c i s N) (fairValue S sigma r (q.getD 0) T i.dim (knockInValue (i.ty = .call) K L d i.dim)) (sessionGap S sigma r (q.getD 0) T K i.dim N B tau)
      fun ε => fairVariance S sigma r (q.getD 0) T i.dim (knockInValue (i.ty = .call) K L d i.dim) / (N * ε ^ 2) +
        (rareEvent i.dim N B + nearEvent sigma T i.dim N (Finset.range i.dim) (margin sigma r (q.getD 0) T i.dim B tau)) :=
  (knockIn_both env he h hf hdata hσ hK hK2 hL hdir hC hE hN hN2 s).1 fun Z hZ =>
    (memLp_vanillaValue (memLp_gbmPath hZ S sigma r T q i.dim (i.dim - 1)) (i.ty = .call) K).mono
      (measurable_knockInValue _ K L d hdata.dim.1 fun j _ => measurable_gbmPath_of hZ _ _ _ _ _ _ _).aestronglyMeasurable (.of_forall fun x => by
        rw [Real.norm_eq_abs, Real.norm_eq_abs]
        exact abs_le_abs_of_nonneg (knockInValue_bounds _ _ _ _ _ _).1 (knockInValue_bounds _ _ _ _ _ _).2)

/-- **C90.** A knock-in put in double precision: an exponential bound. -/
theorem C90_knockInPut (he : RandomEngine e μ count) (h : AcceptedSession i c .gbm o) (hf : i.factory = .knockIn) (hdata : DoubleData i S sigma r q T) (hσ : sigma ≠ 0)
    (hK : lastSet i.params "K" = some (.dbl (.num K))) (hK2 : |K| ≤ 2 ^ (500 : ℤ)) {d : BarrierDirection} (hL : lastSet i.params "B" = some (.dbl (.num L)))
    (hdir : lastSet i.params "direction" = some (.dir d))
    (hC : Comfortable S sigma r (q.getD 0) T i.dim B tau) (hE : NormalsClose env.engine e B tau) (hN : 0 < N) (hN2 : N ≤ INT_MAX) (s : Sys E Q (Dbl .binary64)) (hty : i.ty = .put) (hK0 : 0 < K) :
    DoubleDeviates μ (started env c i s N) (fairValue S sigma r (q.getD 0) T i.dim (knockInValue False K L d i.dim)) (sessionGap S sigma r (q.getD 0) T K i.dim N B tau)
      fun ε => 2 * Real.exp (-(2 * N * ε ^ 2) / (Real.exp (-(r * T)) * K) ^ 2) +
        (rareEvent i.dim N B + nearEvent sigma T i.dim N (Finset.range i.dim) (margin sigma r (q.getD 0) T i.dim B tau)) := by
  have e1 : knockInValue (i.ty = .call) K L d i.dim = knockInValue False K L d i.dim := by
    funext x
    unfold knockInValue vanillaValue
    simp [hty]
  rw [← e1]
  refine (knockIn_both env he h hf hdata hσ hK hK2 hL hdir hC hE hN hN2 s).2 K hK0 fun z => ?_
  obtain ⟨b1, b2⟩ := knockInValue_bounds (i.ty = .call) K L d i.dim (gbmPath S sigma r (q.getD 0) T i.dim z)
  refine ⟨b1, b2.trans ?_⟩
  unfold vanillaValue
  rw [if_neg (by simp [hty])]
  have : 0 < gbmPath S sigma r (q.getD 0) T i.dim z (i.dim - 1) := mul_pos hC.pos.1 (Real.exp_pos _)
  exact max_le (by linarith) hK0.le

theorem knockOut_both (he : RandomEngine e μ count) (h : AcceptedSession i c .gbm o) (hf : i.factory = .knockOut) (hdata : DoubleData i S sigma r q T) (hσ : sigma ≠ 0)
    (hK : lastSet i.params "K" = some (.dbl (.num K))) (hK2 : |K| ≤ 2 ^ (500 : ℤ)) {d : BarrierDirection} (hL : lastSet i.params "B" = some (.dbl (.num L)))
    (hdir : lastSet i.params "direction" = some (.dir d))
    (hC : Comfortable S sigma r (q.getD 0) T i.dim B tau) (hE : NormalsClose env.engine e B tau) (hN : 0 < N) (hN2 : N ≤ INT_MAX) (s : Sys E Q (Dbl .binary64)) :
    ((∀ Z : ℕ → E → ℝ, IidNormal μ Z → MemLp (fun x => knockOutValue (i.ty = .call) K L d i.dim (gbmPath S sigma r (q.getD 0) T i.dim fun l => Z l x)) 2 μ) →
      DoubleDeviates μ (started env c i s N) (fairValue S sigma r (q.getD 0) T i.dim (knockOutValue (i.ty = .call) K L d i.dim)) (sessionGap S sigma r (q.getD 0) T K i.dim N B tau)
        fun ε => fairVariance S sigma r (q.getD 0) T i.dim (knockOutValue (i.ty = .call) K L d i.dim) / (N * ε ^ 2) +
          (rareEvent i.dim N B + nearEvent sigma T i.dim N (Finset.range i.dim) (margin sigma r (q.getD 0) T i.dim B tau))) ∧
    ∀ b, 0 < b → (∀ z, 0 ≤ knockOutValue (i.ty = .call) K L d i.dim (gbmPath S sigma r (q.getD 0) T i.dim z) ∧ knockOutValue (i.ty = .call) K L d i.dim (gbmPath S sigma r (q.getD 0) T i.dim z) ≤ b) →
      DoubleDeviates μ (started env c i s N) (fairValue S sigma r (q.getD 0) T i.dim (knockOutValue (i.ty = .call) K L d i.dim)) (sessionGap S sigma r (q.getD 0) T K i.dim N B tau)
        fun ε => 2 * Real.exp (-(2 * N * ε ^ 2) / (Real.exp (-(r * T)) * b) ^ 2) +
          (rareEvent i.dim N B + nearEvent sigma T i.dim N (Finset.range i.dim) (margin sigma r (q.getD 0) T i.dim B tau)) :=
  good_deviates he hdata hC hN (fun Z next hZ hp => far_probability hZ hp hC.pos.1 hσ (comfortable_nonneg hC).2.2 (margin_nonneg hC) _ N)
    (barrier_close env (K := K) (L := L) hdata hC hE hN hN2 (run := started env c i s N) (i.ty = .call) (fun x zss r1 r2 r3 => by
      have := C88_knockOut env h hf r1 hK hK2 hL hdir r3 s
      rwa [r2] at this) d (fun p => ¬ p) (fun x => ⟨fun hx => by unfold knockOutValue; rw [if_neg hx], fun hx => by unfold knockOutValue; rw [if_pos (not_not.mp hx)]⟩))
    (measurable_knockOutValue _ K L d hdata.dim.1 fun j _ => measurable_getD j)
    (fun x y hxy => by unfold knockOutValue; rw [crossed_congr L d hxy, hxy _ (by have := hdata.dim.1; omega)])
    (measurable_knockOutValue _ K L d hdata.dim.1 fun j _ => measurable_gbmPath _ _ _ _ _ _ _)

/-- **C90.** A knock-out option priced in double precision. Besides rare draws, the bound counts paths that come so near to the barrier that rounding could matter. -/
theorem C90_knockOut (he : RandomEngine e μ count) (h : AcceptedSession i c .gbm o) (hf : i.factory = .knockOut) (hdata : DoubleData i S sigma r q T) (hσ : sigma ≠ 0)
    (hK : lastSet i.params "K" = some (.dbl (.num K))) (hK2 : |K| ≤ 2 ^ (500 : ℤ)) {d : BarrierDirection} (hL : lastSet i.params "B" = some (.dbl (.num L)))
    (hdir : lastSet i.params "direction" = some (.dir d))
    (hC : Comfortable S sigma r (q.getD 0) T i.dim B tau) (hE : NormalsClose env.engine e B tau) (hN : 0 < N) (hN2 : N ≤ INT_MAX) (s : Sys E Q (Dbl .binary64)) :
    DoubleDeviates μ (started env c i s N) (fairValue S sigma r (q.getD 0) T i.dim (knockOutValue (i.ty = .call) K L d i.dim)) (sessionGap S sigma r (q.getD 0) T K i.dim N B tau)
      fun ε => fairVariance S sigma r (q.getD 0) T i.dim (knockOutValue (i.ty = .call) K L d i.dim) / (N * ε ^ 2) +
        (rareEvent i.dim N B + nearEvent sigma T i.dim N (Finset.range i.dim) (margin sigma r (q.getD 0) T i.dim B tau)) :=
  (knockOut_both env he h hf hdata hσ hK hK2 hL hdir hC hE hN hN2 s).1 fun Z hZ =>
    (memLp_vanillaValue (memLp_gbmPath hZ S sigma r T q i.dim (i.dim - 1)) (i.ty = .call) K).mono
      (measurable_knockOutValue _ K L d hdata.dim.1 fun j _ => measurable_gbmPath_of hZ _ _ _ _ _ _ _).aestronglyMeasurable (.of_forall fun x => by
        rw [Real.norm_eq_abs, Real.norm_eq_abs]
        exact abs_le_abs_of_nonneg (knockOutValue_bounds _ _ _ _ _ _).1 (knockOutValue_bounds _ _ _ _ _ _).2)

/-- **C90.** A knock-out put in double precision: an exponential bound. -/
theorem C90_knockOutPut (he : RandomEngine e μ count) (h : AcceptedSession i c .gbm o) (hf : i.factory = .knockOut) (hdata : DoubleData i S sigma r q T) (hσ : sigma ≠ 0)
    (hK : lastSet i.params "K" = some (.dbl (.num K))) (hK2 : |K| ≤ 2 ^ (500 : ℤ)) {d : BarrierDirection} (hL : lastSet i.params "B" = some (.dbl (.num L)))
    (hdir : lastSet i.params "direction" = some (.dir d))
    (hC : Comfortable S sigma r (q.getD 0) T i.dim B tau) (hE : NormalsClose env.engine e B tau) (hN : 0 < N) (hN2 : N ≤ INT_MAX) (s : Sys E Q (Dbl .binary64)) (hty : i.ty = .put) (hK0 : 0 < K) :
    DoubleDeviates μ (started env c i s N) (fairValue S sigma r (q.getD 0) T i.dim (knockOutValue False K L d i.dim)) (sessionGap S sigma r (q.getD 0) T K i.dim N B tau)
      fun ε => 2 * Real.exp (-(2 * N * ε ^ 2) / (Real.exp (-(r * T)) * K) ^ 2) +
        (rareEvent i.dim N B + nearEvent sigma T i.dim N (Finset.range i.dim) (margin sigma r (q.getD 0) T i.dim B tau)) := by
  have e1 : knockOutValue (i.ty = .call) K L d i.dim = knockOutValue False K L d i.dim := by
    funext x
    unfold knockOutValue vanillaValue
    simp [hty]
  rw [← e1]
  refine (knockOut_both env he h hf hdata hσ hK hK2 hL hdir hC hE hN hN2 s).2 K hK0 fun z => ?_
  obtain ⟨b1, b2⟩ := knockOutValue_bounds (i.ty = .call) K L d i.dim (gbmPath S sigma r (q.getD 0) T i.dim z)
  refine ⟨b1, b2.trans ?_⟩
  unfold vanillaValue
  rw [if_neg (by simp [hty])]
  have : 0 < gbmPath S sigma r (q.getD 0) T i.dim z (i.dim - 1) := mul_pos hC.pos.1 (Real.exp_pos _)
  exact max_le (by linarith) hK0.le

/-- **C90.** A digital option priced in double precision. -/
theorem C90_digital (he : RandomEngine e μ count) (h : AcceptedSession i c .gbm o) (hf : i.factory = .digital) (hdata : DoubleData i S sigma r q T) (hσ : sigma ≠ 0)
    (hK : lastSet i.params "K" = some (.dbl (.num K)))
    (hC : Comfortable S sigma r (q.getD 0) T i.dim B tau) (hE : NormalsClose env.engine e B tau) (hN : 0 < N) (hN2 : N ≤ INT_MAX) (s : Sys E Q (Dbl .binary64)) :
    DoubleDeviates μ (started env c i s N) (fairValue S sigma r (q.getD 0) T i.dim fun x => digitalValue (i.ty = .call) K (x (i.dim - 1))) (digitalGap r T N)
      fun ε => 2 * Real.exp (-(2 * N * ε ^ 2) / Real.exp (-(r * T)) ^ 2) + (rareEvent i.dim N B + nearEvent sigma T i.dim N {i.dim - 1} (margin sigma r (q.getD 0) T i.dim B tau)) := by
  have hl : i.dim - 1 < i.dim := by have := hdata.dim.1; omega
  have := (good_deviates he hdata hC hN (fun Z next hZ hp => far_levels hZ hp hC.pos.1 hσ (comfortable_nonneg hC).2.2 (margin_nonneg hC) {i.dim - 1} N [K])
    (digital_close env hdata hC hE hN hN2 (run := started env c i s N) (levels := [K]) (F := fun x => digitalValue (i.ty = .call) K (x (i.dim - 1)))
      (fun x zss r1 r2 r3 => by
        have := C88_digital env h hf r1 hK (fun zs hz => r3 zs hz K List.mem_cons_self) s
        rwa [r2] at this) (fun x => (digitalValue_bounds _ _ _).2) (fun x y hxy => by
          have := hxy K List.mem_cons_self
          unfold digitalValue
          simp only [this.1, this.2.1]))
    ((measurable_digitalValue _ K).comp (measurable_getD _)) (fun x y hxy => by rw [hxy _ hl])
    ((measurable_digitalValue _ K).comp (measurable_gbmPath _ _ _ _ _ _ _))).2 1 one_pos fun z => digitalValue_bounds _ _ _
  simpa only [mul_one, List.length_singleton, Nat.cast_one, one_mul] using this

/-- **C90.** A double digital option priced in double precision. -/
theorem C90_doubleDigital (he : RandomEngine e μ count) (h : AcceptedSession i c .gbm o) (hf : i.factory = .doubleDigital) (hdata : DoubleData i S sigma r q T) (hσ : sigma ≠ 0)
    {U : ℝ} (hL : lastSet i.params "K1" = some (.dbl (.num L))) (hU : lastSet i.params "K2" = some (.dbl (.num U)))
    (hC : Comfortable S sigma r (q.getD 0) T i.dim B tau) (hE : NormalsClose env.engine e B tau) (hN : 0 < N) (hN2 : N ≤ INT_MAX) (s : Sys E Q (Dbl .binary64)) :
    DoubleDeviates μ (started env c i s N) (fairValue S sigma r (q.getD 0) T i.dim fun x => doubleDigitalValue L U (x (i.dim - 1))) (digitalGap r T N)
      fun ε => 2 * Real.exp (-(2 * N * ε ^ 2) / Real.exp (-(r * T)) ^ 2) + (rareEvent i.dim N B + 2 * nearEvent sigma T i.dim N {i.dim - 1} (margin sigma r (q.getD 0) T i.dim B tau)) := by
  have hl : i.dim - 1 < i.dim := by have := hdata.dim.1; omega
  have := (good_deviates he hdata hC hN (fun Z next hZ hp => far_levels hZ hp hC.pos.1 hσ (comfortable_nonneg hC).2.2 (margin_nonneg hC) {i.dim - 1} N [L, U])
    (digital_close env hdata hC hE hN hN2 (run := started env c i s N) (levels := [L, U]) (F := fun x => doubleDigitalValue L U (x (i.dim - 1)))
      (fun x zss r1 r2 r3 => by
        have := C88_doubleDigital env h hf r1 hL hU (fun zs hz => ⟨r3 zs hz L (by simp), r3 zs hz U (by simp)⟩) s
        rwa [r2] at this) (fun x => (doubleDigitalValue_bounds _ _ _).2) (fun x y hxy => by
          have h1 := hxy L (by simp)
          have h2 := hxy U (by simp)
          unfold doubleDigitalValue
          simp only [h1.2.2.1, h2.2.2.2]))
    ((measurable_doubleDigitalValue L U).comp (measurable_getD _)) (fun x y hxy => by rw [hxy _ hl])
    ((measurable_doubleDigitalValue L U).comp (measurable_gbmPath _ _ _ _ _ _ _))).2 1 one_pos fun z => doubleDigitalValue_bounds _ _ _
  simpa only [mul_one, List.length_cons, List.length_nil, Nat.zero_add, Nat.reduceAdd, Nat.cast_ofNat] using this

end

/-! ## Formulas -/

section
variable {S sigma r q T K : ℝ} (hS : 0 < S) (hσ : 0 < sigma) (hT : 0 < T) (hK : 0 < K) {n : ℕ} (hn : 0 < n)
include hS hσ hT hK hn

theorem normals_exceeds : normals.real {z | K < gbmPath S sigma r q T n z (n - 1)} = exceedance S sigma r q T K ∧ normals {z | gbmPath S sigma r q T n z (n - 1) = K} = 0 := by
  letI : FlInf ℝ := ⟨0⟩
  haveI : IsProbabilityMeasure normals := by unfold normals; infer_instance
  have e1 := prob_exceeds iidNormal_normals ⟨S, sigma, some q, r⟩ hS hσ hT hK hn
  have e2 := prob_eq iidNormal_normals ⟨S, sigma, some q, r⟩ hS hσ hT (K := K) hn
  simp only [gbmPrice_eq_path, Option.getD_some] at e1 e2
  exact ⟨e1, e2⟩

/-- **C90.** The expected payoff of a digital call. -/
theorem C90_digitalCall_formula : fairValue S sigma r q T n (fun x => digitalValue True K (x (n - 1))) = Real.exp (-(r * T)) * exceedance S sigma r q T K := by
  haveI : IsProbabilityMeasure normals := by unfold normals; infer_instance
  obtain ⟨e1, -⟩ := normals_exceeds (r := r) (q := q) hS hσ hT hK hn
  have hm : MeasurableSet {z : ℕ → ℝ | K < gbmPath S sigma r q T n z (n - 1)} := measurableSet_lt measurable_const (measurable_gbmPath _ _ _ _ _ _ _)
  unfold fairValue
  rw [integral_const_mul, ← e1, ← integral_indicator_one hm]
  congr 2

/-- **C90.** The expected payoff of a digital put. -/
theorem C90_digitalPut_formula : fairValue S sigma r q T n (fun x => digitalValue False K (x (n - 1))) = Real.exp (-(r * T)) * (1 - exceedance S sigma r q T K) := by
  haveI : IsProbabilityMeasure normals := by unfold normals; infer_instance
  obtain ⟨e1, e2⟩ := normals_exceeds (r := r) (q := q) hS hσ hT hK hn
  have hm : MeasurableSet {z : ℕ → ℝ | K < gbmPath S sigma r q T n z (n - 1)} := measurableSet_lt measurable_const (measurable_gbmPath _ _ _ _ _ _ _)
  unfold fairValue
  rw [integral_const_mul, ← e1, ← probReal_compl_eq_one_sub hm, ← integral_indicator_one hm.compl]
  congr 1
  refine integral_congr_ae ?_
  filter_upwards [measure_eq_zero_iff_ae_notMem.mp e2] with z hz
  have hz' : gbmPath S sigma r q T n z (n - 1) ≠ K := hz
  simp only [digitalValue, Set.indicator_apply, if_false, Set.mem_compl_iff, Set.mem_setOf_eq, not_lt, Pi.one_apply]
  exact if_congr ⟨le_of_lt, fun h => lt_of_le_of_ne h hz'⟩ rfl rfl

/-- **C90.** The expected payoff of a double digital option. -/
theorem C90_doubleDigital_formula {U : ℝ} (hU : K ≤ U) :
    fairValue S sigma r q T n (fun x => doubleDigitalValue K U (x (n - 1))) = Real.exp (-(r * T)) * (exceedance S sigma r q T K - exceedance S sigma r q T U) := by
  haveI : IsProbabilityMeasure normals := by unfold normals; infer_instance
  obtain ⟨e1, e2⟩ := normals_exceeds (r := r) (q := q) hS hσ hT hK hn
  obtain ⟨e3, -⟩ := normals_exceeds (r := r) (q := q) hS hσ hT (hK.trans_le hU) hn
  have hm : ∀ K : ℝ, MeasurableSet {z : ℕ → ℝ | K < gbmPath S sigma r q T n z (n - 1)} := fun K => measurableSet_lt measurable_const (measurable_gbmPath _ _ _ _ _ _ _)
  have e4 := measureReal_diff (μ := normals) (s₁ := {z | K < gbmPath S sigma r q T n z (n - 1)}) (s₂ := {z | U < gbmPath S sigma r q T n z (n - 1)})
    (fun z hz => lt_of_le_of_lt hU hz) (hm U)
  unfold fairValue
  rw [integral_const_mul, ← e1, ← e3, ← e4, ← integral_indicator_one ((hm K).diff (hm U))]
  congr 1
  refine integral_congr_ae ?_
  filter_upwards [measure_eq_zero_iff_ae_notMem.mp e2] with z hz
  have hz' : gbmPath S sigma r q T n z (n - 1) ≠ K := hz
  simp only [doubleDigitalValue, Set.indicator_apply, Set.mem_diff, Set.mem_setOf_eq, not_lt, Pi.one_apply]
  exact if_congr ⟨fun h => ⟨lt_of_le_of_ne h.1 (Ne.symm hz'), h.2⟩, fun h => ⟨h.1.le, h.2⟩⟩ rfl rfl

end

/-! ## Examples -/

namespace BarrierSessionExample
open PathDependentExample (session accepted strike_nonneg)
open PathSessionExample (data)
open SessionExample (engine randomEngine choices)
open DoubleSessionExample (env close comfortable exp_neg_nat gap_le)

theorem margin_le : margin (1 / 4) (1 / 16) 0 1 2 8 (2 ^ (-49 : ℤ)) ≤ 2 ^ (-44 : ℤ) := by
  have h1 := DoubleSessionExample.sqrt_step
  have h0 := Real.sqrt_nonneg (1 / (2 : ℕ))
  have hW : workBound (1 / 4) (1 / 16) 0 1 2 8 (2 ^ (-49 : ℤ)) ≤ 10 := by
    unfold workBound
    norm_num [abs_of_pos] at h0 h1 ⊢
    nlinarith
  unfold margin
  generalize Real.sqrt (1 / (2 : ℕ)) = a at *
  generalize workBound (1 / 4) (1 / 16) 0 1 2 8 (2 ^ (-49 : ℤ)) = W at *
  calc _ ≤ |(1 / 4 : ℝ)| * 1 * ((2 : ℕ) * 2 ^ (-49 : ℤ)) + 2 ^ (-48 : ℤ) * 10 := by gcongr
    _ ≤ _ := by norm_num [abs_of_pos]

theorem digitalGap_le : digitalGap (1 / 16) 1 100000 ≤ 1 / 1000000 := by
  have hd : Real.exp (-(1 / 16 * 1)) ≤ 1 := Real.exp_le_one_iff.mpr (by norm_num)
  unfold digitalGap
  calc _ ≤ 1 * ((((100000 : ℕ) : ℝ) + 9) * 2 ^ (-52 : ℤ)) + 2 ^ (-1070 : ℤ) := by gcongr
    _ ≤ _ := by norm_num

variable {ty : PayoffType} (hty : ty = .call ∨ ty = .put) (s : Sys PerfectState Unit (Dbl .binary64))

/-- A digital call with 100000 paths: in double precision an error of one percent of the nominal has a probability of less than one in ten million. -/
example : perfectMeasure.real {x | ¬ ∃ y : ℝ,
    (started env (choices .digital) (session .digital .singlePath [("K", .dbl (.num (96 : ℝ)))] .call) s 100000 x).1 = .ok (.num y) ∧
      |y - Real.exp (-(1 / 16 * 1)) * exceedance 100 (1 / 4) (1 / 16) 0 1 96| < 1 / 100} ≤ 1 / 10000000 := by
  have := C90_digital env randomEngine (accepted (f := .digital) (cls := .singlePath) (ps := [("K", .dbl (.num (96 : ℝ)))])
    (p := .digital .call (.num (96 : ℝ))) (b := none) (.inl rfl) (by simp [Family]) ⟨_, rfl, strike_nonneg, rfl⟩ rfl rfl rfl) rfl (data (f := .digital) (cls := .singlePath)
    (ps := [("K", .dbl (.num (96 : ℝ)))]) (ty := .call) rfl) (by norm_num) (K := 96) rfl comfortable close (N := 100000) (by norm_num) (by norm_num [INT_MAX]) s (99 / 10000) (by norm_num)
  rw [← C90_digitalCall_formula (n := 2) (by norm_num) (by norm_num) (by norm_num) (by norm_num) (by norm_num)]
  refine (measureReal_mono ?_ (measure_ne_top _ _)).trans (this.trans ?_)
  · intro x hx hy
    obtain ⟨y, y1, y2⟩ := hy
    refine hx ⟨y, y1, ?_⟩
    have e1 : (fun x : ℕ → ℝ => digitalValue ((session .digital .singlePath [("K", .dbl (.num (96 : ℝ)))] .call).ty = .call) 96 (x ((session .digital .singlePath [("K", .dbl (.num (96 : ℝ)))] .call).dim - 1))) =
        fun x => digitalValue True 96 (x (2 - 1)) := by
      funext x
      simp [digitalValue, session]
    rw [e1] at y2
    exact y2.trans_le (by have := digitalGap_le; linarith)
  · have e1 : Real.exp (-(2 * ((100000 : ℕ) : ℝ) * (99 / 10000) ^ 2) / Real.exp (-(1 / 16 * 1)) ^ 2) ≤ Real.exp (-((19 : ℕ) : ℝ)) := by
      rw [Real.exp_le_exp, neg_div, neg_le_neg_iff]
      have hd : Real.exp (-(1 / 16 * 1)) ≤ 1 := Real.exp_le_one_iff.mpr (by norm_num)
      have hd0 := Real.exp_pos (-(1 / 16 * 1))
      rw [le_div_iff₀ (by positivity)]
      push_cast
      nlinarith
    have e2 : Real.exp (-((19 : ℕ) : ℝ)) ≤ 1 / 100000000 := (exp_neg_nat 19).trans (by norm_num)
    have e3 : Real.exp (-((32 : ℕ) : ℝ)) ≤ 1 / 50000000000000 := (exp_neg_nat 32).trans (by norm_num)
    have e4 : nearEvent (1 / 4) 1 2 100000 {2 - 1} (margin (1 / 4) (1 / 16) 0 1 2 8 (2 ^ (-49 : ℤ))) ≤ 1 / 20000000 := by
      have hm := margin_le
      unfold nearEvent
      rw [Finset.sum_singleton, show (((2 - 1 : ℕ) : ℝ) + 1) * (1 / ((2 : ℕ) : ℝ)) = 1 by norm_num, Real.sqrt_one, show |(1 / 4 : ℝ)| = 1 / 4 by norm_num [abs_of_pos]]
      generalize margin (1 / 4) (1 / 16) 0 1 2 8 (2 ^ (-49 : ℤ)) = m at *
      norm_num at hm ⊢
      linarith
    refine (add_le_add le_rfl (add_le_add le_rfl e4)).trans ?_
    unfold rareEvent
    show 2 * _ + (4 * ((100000 : ℕ) : ℝ) * ((2 : ℕ) : ℝ) * Real.exp (-(8 ^ 2) / 2) + _) ≤ _
    rw [show (-(8 ^ 2) / 2 : ℝ) = -((32 : ℕ) : ℝ) by norm_num]
    have := e1.trans e2
    push_cast at this e3 ⊢
    linarith

example : DoubleDeviates perfectMeasure (started env (choices .doubleDigital) (session .doubleDigital .singlePath [("K1", .dbl (.num (90 : ℝ))), ("K2", .dbl (.num (110 : ℝ)))] .call) s 100000)
    (Real.exp (-(1 / 16 * 1)) * (exceedance 100 (1 / 4) (1 / 16) 0 1 90 - exceedance 100 (1 / 4) (1 / 16) 0 1 110)) (digitalGap (1 / 16) 1 100000)
    fun ε => 2 * Real.exp (-(2 * (100000 : ℕ) * ε ^ 2) / Real.exp (-(1 / 16 * 1)) ^ 2) +
      (rareEvent 2 100000 8 + 2 * nearEvent (1 / 4) 1 2 100000 {2 - 1} (margin (1 / 4) (1 / 16) 0 1 2 8 (2 ^ (-49 : ℤ)))) := by
  rw [← C90_doubleDigital_formula (n := 2) (by norm_num) (by norm_num) (by norm_num) (by norm_num) (by norm_num) (by norm_num)]
  exact C90_doubleDigital env randomEngine (accepted (f := .doubleDigital) (cls := .singlePath) (ps := [("K1", .dbl (.num (90 : ℝ))), ("K2", .dbl (.num (110 : ℝ)))])
    (p := .doubleDigital (.num (90 : ℝ)) (.num (110 : ℝ))) (b := none) (.inl rfl) (by simp [Family]) ⟨_, _, rfl, rfl, by rw [PathErrorExample.num_zero, Dbl.lt_num_false]; exact_mod_cast (by norm_num : (0 : ℝ) ≤ 90),
      by rw [PathErrorExample.num_zero, Dbl.lt_num_false]; exact_mod_cast (by norm_num : (0 : ℝ) ≤ 110), rfl⟩ rfl rfl rfl) rfl
    (data (f := .doubleDigital) (cls := .singlePath) (ps := [("K1", .dbl (.num (90 : ℝ))), ("K2", .dbl (.num (110 : ℝ)))]) (ty := .call) rfl) (by norm_num)
    (L := 90) (U := 110) rfl rfl comfortable close (N := 100000) (by norm_num) (by norm_num [INT_MAX]) s

example : fairValue 100 (1 / 4) (1 / 16) 0 1 2 (fun x => digitalValue False 96 (x (2 - 1))) = Real.exp (-(1 / 16 * 1)) * (1 - exceedance 100 (1 / 4) (1 / 16) 0 1 96) :=
  C90_digitalPut_formula (by norm_num) (by norm_num) (by norm_num) (by norm_num) (by norm_num)

include hty

/-- A down-and-in option and an up-and-out option with 100000 paths. -/
example : DoubleDeviates perfectMeasure (started env (choices .knockIn) (session .knockIn .knockIn [("K", .dbl (.num (96 : ℝ))), ("B", .dbl (.num (80 : ℝ))), ("direction", .dir .down)] ty) s 100000)
    (fairValue 100 (1 / 4) (1 / 16) 0 1 2 (knockInValue (ty = .call) 96 80 .down 2)) (sessionGap 100 (1 / 4) (1 / 16) 0 1 96 2 100000 8 (2 ^ (-49 : ℤ)))
    fun ε => fairVariance 100 (1 / 4) (1 / 16) 0 1 2 (knockInValue (ty = .call) 96 80 .down 2) / ((100000 : ℕ) * ε ^ 2) +
      (rareEvent 2 100000 8 + nearEvent (1 / 4) 1 2 100000 (Finset.range 2) (margin (1 / 4) (1 / 16) 0 1 2 8 (2 ^ (-49 : ℤ)))) :=
  C90_knockIn env randomEngine (accepted (f := .knockIn) (cls := .knockIn) (ps := [("K", .dbl (.num (96 : ℝ))), ("B", .dbl (.num (80 : ℝ))), ("direction", .dir .down)])
    (p := .vanilla ty (.num (96 : ℝ))) (b := some (.num (80 : ℝ), .down)) hty (by simp [Family]) ⟨_, rfl, strike_nonneg, rfl⟩ ⟨_, _, rfl, rfl, rfl⟩ rfl rfl) rfl
    (data (f := .knockIn) (cls := .knockIn) (ps := [("K", .dbl (.num (96 : ℝ))), ("B", .dbl (.num (80 : ℝ))), ("direction", .dir .down)]) (ty := ty) rfl) (by norm_num)
    (K := 96) rfl (by norm_num [abs_of_pos]) (L := 80) (d := .down) rfl rfl comfortable close (N := 100000) (by norm_num) (by norm_num [INT_MAX]) s

example : DoubleDeviates perfectMeasure (started env (choices .knockOut) (session .knockOut .knockOut [("K", .dbl (.num (96 : ℝ))), ("B", .dbl (.num (120 : ℝ))), ("direction", .dir .up)] ty) s 100000)
    (fairValue 100 (1 / 4) (1 / 16) 0 1 2 (knockOutValue (ty = .call) 96 120 .up 2)) (sessionGap 100 (1 / 4) (1 / 16) 0 1 96 2 100000 8 (2 ^ (-49 : ℤ)))
    fun ε => fairVariance 100 (1 / 4) (1 / 16) 0 1 2 (knockOutValue (ty = .call) 96 120 .up 2) / ((100000 : ℕ) * ε ^ 2) +
      (rareEvent 2 100000 8 + nearEvent (1 / 4) 1 2 100000 (Finset.range 2) (margin (1 / 4) (1 / 16) 0 1 2 8 (2 ^ (-49 : ℤ)))) :=
  C90_knockOut env randomEngine (accepted (f := .knockOut) (cls := .knockOut) (ps := [("K", .dbl (.num (96 : ℝ))), ("B", .dbl (.num (120 : ℝ))), ("direction", .dir .up)])
    (p := .vanilla ty (.num (96 : ℝ))) (b := some (.num (120 : ℝ), .up)) hty (by simp [Family]) ⟨_, rfl, strike_nonneg, rfl⟩ ⟨_, _, rfl, rfl, rfl⟩ rfl rfl) rfl
    (data (f := .knockOut) (cls := .knockOut) (ps := [("K", .dbl (.num (96 : ℝ))), ("B", .dbl (.num (120 : ℝ))), ("direction", .dir .up)]) (ty := ty) rfl) (by norm_num)
    (K := 96) rfl (by norm_num [abs_of_pos]) (L := 120) (d := .up) rfl rfl comfortable close (N := 100000) (by norm_num) (by norm_num [INT_MAX]) s

omit hty

example : DoubleDeviates perfectMeasure (started env (choices .knockIn) (session .knockIn .knockIn [("K", .dbl (.num (96 : ℝ))), ("B", .dbl (.num (80 : ℝ))), ("direction", .dir .down)] .put) s 100000)
    (fairValue 100 (1 / 4) (1 / 16) 0 1 2 (knockInValue False 96 80 .down 2)) (sessionGap 100 (1 / 4) (1 / 16) 0 1 96 2 100000 8 (2 ^ (-49 : ℤ)))
    fun ε => 2 * Real.exp (-(2 * (100000 : ℕ) * ε ^ 2) / (Real.exp (-(1 / 16 * 1)) * 96) ^ 2) +
      (rareEvent 2 100000 8 + nearEvent (1 / 4) 1 2 100000 (Finset.range 2) (margin (1 / 4) (1 / 16) 0 1 2 8 (2 ^ (-49 : ℤ)))) :=
  C90_knockInPut env randomEngine (accepted (f := .knockIn) (cls := .knockIn) (ps := [("K", .dbl (.num (96 : ℝ))), ("B", .dbl (.num (80 : ℝ))), ("direction", .dir .down)])
    (p := .vanilla .put (.num (96 : ℝ))) (b := some (.num (80 : ℝ), .down)) (.inr rfl) (by simp [Family]) ⟨_, rfl, strike_nonneg, rfl⟩ ⟨_, _, rfl, rfl, rfl⟩ rfl rfl) rfl
    (data (f := .knockIn) (cls := .knockIn) (ps := [("K", .dbl (.num (96 : ℝ))), ("B", .dbl (.num (80 : ℝ))), ("direction", .dir .down)]) (ty := .put) rfl) (by norm_num)
    (K := 96) rfl (by norm_num [abs_of_pos]) (L := 80) (d := .down) rfl rfl comfortable close (N := 100000) (by norm_num) (by norm_num [INT_MAX]) s rfl (by norm_num)

example : DoubleDeviates perfectMeasure (started env (choices .knockOut) (session .knockOut .knockOut [("K", .dbl (.num (96 : ℝ))), ("B", .dbl (.num (120 : ℝ))), ("direction", .dir .up)] .put) s 100000)
    (fairValue 100 (1 / 4) (1 / 16) 0 1 2 (knockOutValue False 96 120 .up 2)) (sessionGap 100 (1 / 4) (1 / 16) 0 1 96 2 100000 8 (2 ^ (-49 : ℤ)))
    fun ε => 2 * Real.exp (-(2 * (100000 : ℕ) * ε ^ 2) / (Real.exp (-(1 / 16 * 1)) * 96) ^ 2) +
      (rareEvent 2 100000 8 + nearEvent (1 / 4) 1 2 100000 (Finset.range 2) (margin (1 / 4) (1 / 16) 0 1 2 8 (2 ^ (-49 : ℤ)))) :=
  C90_knockOutPut env randomEngine (accepted (f := .knockOut) (cls := .knockOut) (ps := [("K", .dbl (.num (96 : ℝ))), ("B", .dbl (.num (120 : ℝ))), ("direction", .dir .up)])
    (p := .vanilla .put (.num (96 : ℝ))) (b := some (.num (120 : ℝ), .up)) (.inr rfl) (by simp [Family]) ⟨_, rfl, strike_nonneg, rfl⟩ ⟨_, _, rfl, rfl, rfl⟩ rfl rfl) rfl
    (data (f := .knockOut) (cls := .knockOut) (ps := [("K", .dbl (.num (96 : ℝ))), ("B", .dbl (.num (120 : ℝ))), ("direction", .dir .up)]) (ty := .put) rfl) (by norm_num)
    (K := 96) rfl (by norm_num [abs_of_pos]) (L := 120) (d := .up) rfl rfl comfortable close (N := 100000) (by norm_num) (by norm_num [INT_MAX]) s rfl (by norm_num)

end BarrierSessionExample

end Verif
