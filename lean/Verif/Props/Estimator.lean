import Verif.Lemmas.MonteCarloSampling
import Verif.Lemmas.PerfectGenerator
import Verif.Props.RiskNeutral
import Verif.Props.PathDependent

/-!
# Property C65: the Monte Carlo price is an unbiased estimator, for every model and pricer
-/

namespace Verif
open MeasureTheory ProbabilityTheory Function Spec
open scoped ENNReal

variable {G α : Type} [MeasurableSpace G] [MeasurableSpace α] {μ : Measure G} [IsProbabilityMeasure μ] {g : Gen G ℝ} {count : ℝ → Measure ℕ}

/-- The common part of the pricers: expectation and variance of the price. -/
theorem estimator_longPricer {e : Eff G α} (h : Random μ fun _ : Unit => e) {pp : α → Res ℝ} {f : α → ℝ} (hf : Measurable f)
    (hpp : ∀ s a s', e s = (.ok a, s') → pp a = .ok (f a)) {V : G → ℝ} (hV : ∀ s, ∃ a s', e s = (.ok a, s') ∧ V s = f a) (hL : MemLp V 2 μ) (r T : ℝ)
    {N : ℕ} (hN : 0 < N) :
    Estimator μ (MC.longPricer e (Eff.lift (.ok r)) pp T N) (Real.exp (-(r * T)) * ∫ s, V s ∂μ)
      (Var[fun s => Real.exp (-(r * T)) * V s; μ] / N) := by
  obtain ⟨y, t, h⟩ := h
  have hV' : V = fun s => f (y () s) := by
    funext s
    obtain ⟨a, s', e1, e2⟩ := hV s
    rw [h.run () s] at e1
    cases e1
    exact e2
  have hNr : (0 : ℝ) < N := by exact_mod_cast hN
  have my := h.measurable_ya ()
  let X : ℕ → G → ℝ := fun n s => f (y () ((t ())^[n] s))
  have hX : ∀ n, X n = V ∘ (t ())^[n] := fun n => by funext s; simp only [X, hV', comp]
  have hp := h.preserving_iterate
  have hXL : ∀ n, MemLp (X n) 2 μ := fun n => by rw [hX]; exact hL.comp_measurePreserving (hp n)
  have hXi : ∀ n, ∫ s, X n s ∂μ = ∫ s, V s ∂μ := fun n => by
    simp only [X]
    rw [hV']
    have := integral_map (μ := μ) (φ := (t ())^[n]) (hp n).measurable.aemeasurable (f := fun s => f (y () s)) (hf.comp my).aestronglyMeasurable
    rw [(hp n).map_eq] at this
    exact this.symm
  have hXv : ∀ n, Var[X n; μ] = Var[V; μ] := fun n => by
    have := variance_map (X := fun s => f (y () s)) (μ := μ) (Y := (t ())^[n]) (hf.comp my).aemeasurable (hp n).measurable.aemeasurable
    rw [(hp n).map_eq] at this
    rw [hV']
    exact this.symm
  have hind : Set.Pairwise (Finset.range N : Set ℕ) fun a b => IndepFun (X a) (X b) μ := by
    intro a _ b _ hab
    rcases lt_or_gt_of_ne hab with hlt | hlt
    · exact (h.indep_runs hlt).comp hf hf
    · exact ((h.indep_runs hlt).comp hf hf).symm
  let Y : G → ℝ := fun s => Real.exp (-(r * T)) / N * (∑ n ∈ Finset.range N, X n) s
  refine ⟨Y, fun s => ⟨(t ())^[N] s, ?_⟩, ?_, ?_, ?_⟩
  · have hd := h.draws N s
    have hv : Pays pp ((List.range N).map fun n => y () ((t ())^[n] s)) ((List.range N).map fun n => X n s) := by
      unfold Pays
      rw [List.forall₂_map_left_iff, List.forall₂_map_right_iff]
      exact List.forall₂_same.mpr fun n _ => hpp _ _ _ (h.run () ((t ())^[n] s))
    have := MC.longPricer_ok (T := T) (getR := Eff.lift (.ok r)) (r := r) (s := s) rfl hd hv
    simp only [List.length_map, List.length_range] at this
    rw [this, price_eq_discountedMean _ _ _ (by simp), discountedMean, List.length_map, List.length_range,
      ← List.sum_toFinset _ List.nodup_range, List.toFinset_range]
    simp only [Y, Finset.sum_apply]
    congr 2
    ring
  · exact (memLp_finsetSum' _ fun n _ => hXL n).const_mul _
  · simp only [Y, Finset.sum_apply]
    rw [integral_const_mul, integral_finsetSum _ fun n _ => (hXL n).integrable (by norm_num), Finset.sum_congr rfl fun n _ => hXi n]
    simp only [Finset.sum_const, Finset.card_range, nsmul_eq_mul]
    field_simp
  · rw [variance_const_mul, IndepFun.variance_sum (fun n _ => hXL n) hind, Finset.sum_congr rfl fun n _ => hXv n, Finset.sum_const, Finset.card_range, nsmul_eq_mul,
      variance_const_mul]
    field_simp


/-- Pricers that look at the whole path. -/
theorem estimator_prices (hg : RandomSource g μ count) {v : View ℝ} (hS : 0 < v.price) {T : ℝ} {steps : ℕ} (h2 : steps ≤ INT_MAX) {k : ModelKind ℝ}
    (hk : Simulatable (T / steps) k) {pp : List ℝ → Res ℝ} {f : List ℝ → ℝ} (hf : Measurable f)
    (hpp : ∀ l : List ℝ, l.length = steps → (∀ x ∈ l, 0 < x) → pp l = .ok (f l))
    {X : ℕ → G → ℝ} (hX : SimulatedPath (Sim.prices g steps v T k) steps X)
    (hL : MemLp (fun s => f ((List.range steps).map fun i => X i s)) 2 μ) (r : ℝ) {N : ℕ} (hN : 0 < N) :
    Estimator μ (MC.longPricer (Sim.prices g steps v T k) (Eff.lift (.ok r)) pp T N)
      (Real.exp (-(r * T)) * ∫ s, f ((List.range steps).map fun i => X i s) ∂μ)
      (Var[fun s => Real.exp (-(r * T)) * f ((List.range steps).map fun i => X i s); μ] / N) := by
  refine estimator_longPricer (Sim.random_prices hg v T h2 hk) hf (fun s l s' hl => hpp l ?_ ?_) (fun s => ?_) hL r T hN
  · exact C32_length _ _ _ _ _ _ _ _ hl
  · exact C32_positive _ _ _ hS _ _ _ _ _ hl
  · obtain ⟨s', h⟩ := hX s
    exact ⟨_, s', h, rfl⟩

theorem getD_of_lt {l : List ℝ} {n : ℕ} (h : n < l.length) : l.getD n 0 = l[n] := by
  simp [List.getD, h]

theorem sum_map_range (f : ℕ → ℝ) (n : ℕ) : ((List.range n).map f).sum = ∑ i ∈ Finset.range n, f i := by
  rw [← List.sum_toFinset _ List.nodup_range, List.toFinset_range]

theorem prod_map_range (f : ℕ → ℝ) (n : ℕ) : ((List.range n).map f).prod = ∏ i ∈ Finset.range n, f i := by
  rw [← List.prod_toFinset _ List.nodup_range, List.toFinset_range]

theorem measurable_arithMean : Measurable arithMean := by
  refine measurable_fromList fun n => ?_
  simp only [arithMean, List.sum_ofFn, List.length_ofFn]
  fun_prop

theorem measurable_geomMean : Measurable geomMean := by
  refine measurable_fromList fun n => ?_
  simp only [geomMean, List.prod_ofFn, List.length_ofFn]
  fun_prop

/-- **C65.** The single path pricer, for every model: the price is an unbiased estimator of the discounted expected payoff of
the price at maturity, with the variance of the discounted payoff divided by the number of paths. -/
theorem C65_singlePath (hg : RandomSource g μ count) {v : View ℝ} (hS : 0 < v.price) {T : ℝ} {steps : ℕ} (h1 : 0 < steps) (h2 : steps ≤ INT_MAX)
    {k : ModelKind ℝ} (hk : Simulatable (T / steps) k) {f : ℝ → ℝ} (hf : Measurable f) {pay : ℝ → Res ℝ} (hpay : ∀ x, pay x = .ok (f x))
    {X : ℕ → G → ℝ} (hX : SimulatedPath (Sim.prices g steps v T k) steps X) (hL : MemLp (fun s => f (X (steps - 1) s)) 2 μ)
    {N : ℕ} (hN : 0 < N) (hN2 : N ≤ INT_MAX) :
    Estimator μ (MC.singlePath (modelSource g steps v k) (Eff.lift (.ok v.r)) pay T N)
      (Real.exp (-(v.r * T)) * ∫ s, f (X (steps - 1) s) ∂μ) (Var[fun s => Real.exp (-(v.r * T)) * f (X (steps - 1) s); μ] / N) := by
  have hlast : ∀ l : List ℝ, (h : l ≠ []) → l.length = steps → l.getLast h = l.getD (steps - 1) 0 := by
    intro l h hl
    rw [List.getLast_eq_getElem, getD_of_lt (by omega)]
    simp only [hl]
  have key : Random μ fun _ : Unit => Sim.maturity g steps v T k := by
    obtain ⟨y, t, h⟩ := Sim.random_prices hg v T h2 hk
    refine (Random.bind ⟨y, t, h⟩ (g := fun _ l => (pure (l.getD (steps - 1) 0) : Eff G ℝ))
      (Random.pure ((measurable_getD (steps - 1)).comp measurable_snd))).congr fun _ => ?_
    funext s
    have hr := h.run () s
    obtain ⟨hne, e⟩ := (C32_maturity g steps h1 v T k s).1 _ _ hr
    rw [e, Eff.bind_of_ok hr, hlast _ hne (C32_length _ _ _ _ _ _ _ _ hr)]
    rfl
  rw [MC.singlePath_eq, MC.intPricer_eq_long hN2]
  refine estimator_longPricer (V := fun s => f (X (steps - 1) s)) key hf (fun s a s' _ => hpay a) (fun s => ?_) hL v.r T hN
  obtain ⟨s', h⟩ := hX s
  obtain ⟨hne, e⟩ := (C32_maturity g steps h1 v T k s).1 _ _ h
  refine ⟨_, s', e, ?_⟩
  rw [hlast _ hne (by simp), getD_of_lt (by simp; omega)]
  simp

/-- **C65.** The arithmetic Asian pricer. -/
theorem C65_arithmeticAsian (hg : RandomSource g μ count) {v : View ℝ} (hS : 0 < v.price) {T : ℝ} {steps : ℕ} (h2 : steps ≤ INT_MAX)
    {k : ModelKind ℝ} (hk : Simulatable (T / steps) k) {f : ℝ → ℝ} (hf : Measurable f) {pay : ℝ → Res ℝ} (hpay : ∀ x, pay x = .ok (f x))
    {X : ℕ → G → ℝ} (hX : SimulatedPath (Sim.prices g steps v T k) steps X) (hL : MemLp (fun s => f ((∑ i ∈ Finset.range steps, X i s) / steps)) 2 μ)
    {N : ℕ} (hN : 0 < N) :
    Estimator μ (MC.asian .arithmetic (modelSource g steps v k) (Eff.lift (.ok v.r)) pay T N)
      (Real.exp (-(v.r * T)) * ∫ s, f ((∑ i ∈ Finset.range steps, X i s) / steps) ∂μ)
      (Var[fun s => Real.exp (-(v.r * T)) * f ((∑ i ∈ Finset.range steps, X i s) / steps); μ] / N) := by
  have e : (fun s => f ((∑ i ∈ Finset.range steps, X i s) / steps)) = fun s => f (arithMean ((List.range steps).map fun i => X i s)) := by
    funext s
    rw [arithMean, sum_map_range, List.length_map, List.length_range]
  have := estimator_prices hg hS h2 hk (pp := MC.asianPath .arithmetic pay steps) (hf.comp measurable_arithMean)
    (fun l hl _ => by
      rw [← hl, asianPath_arith pay l (by omega), hpay, foldl_add_real]
      simp [arithMean]) hX (by rw [e] at hL; exact hL) v.r hN
  rw [MC.asian_eq, e]
  simp only [comp] at this
  simp only [congrFun e]
  exact this

/-- **C65.** The geometric Asian pricer. -/
theorem C65_geometricAsian (hg : RandomSource g μ count) {v : View ℝ} (hS : 0 < v.price) {T : ℝ} {steps : ℕ} (h2 : steps ≤ INT_MAX)
    {k : ModelKind ℝ} (hk : Simulatable (T / steps) k) {f : ℝ → ℝ} (hf : Measurable f) {pay : ℝ → Res ℝ} (hpay : ∀ x, pay x = .ok (f x))
    {X : ℕ → G → ℝ} (hX : SimulatedPath (Sim.prices g steps v T k) steps X)
    (hL : MemLp (fun s => f ((∏ i ∈ Finset.range steps, X i s) ^ ((1 : ℝ) / steps))) 2 μ) {N : ℕ} (hN : 0 < N) :
    Estimator μ (MC.asian .geometric (modelSource g steps v k) (Eff.lift (.ok v.r)) pay T N)
      (Real.exp (-(v.r * T)) * ∫ s, f ((∏ i ∈ Finset.range steps, X i s) ^ ((1 : ℝ) / steps)) ∂μ)
      (Var[fun s => Real.exp (-(v.r * T)) * f ((∏ i ∈ Finset.range steps, X i s) ^ ((1 : ℝ) / steps)); μ] / N) := by
  have e : (fun s => f ((∏ i ∈ Finset.range steps, X i s) ^ ((1 : ℝ) / steps))) = fun s => f (geomMean ((List.range steps).map fun i => X i s)) := by
    funext s
    rw [geomMean, prod_map_range, List.length_map, List.length_range]
  have := estimator_prices hg hS h2 hk (pp := MC.asianPath .geometric pay steps) (hf.comp measurable_geomMean)
    (fun l hl hp => by
      rw [← hl, asianPath_geom pay l (by omega), hpay, foldl_add_real]
      simp only [comp, geomMean_eq_exp hp]
      simp [show (Fl.log : ℝ → ℝ) = Real.log from rfl]) hX (by rw [e] at hL; exact hL) v.r hN
  rw [MC.asian_eq]
  simp only [comp] at this
  simp only [congrFun e]
  exact this

theorem touched_iff (d : BarrierDirection) (B : ℝ) (l : List ℝ) : Touched B d l ↔ ∃ x ∈ l, Beyond d B x := by
  unfold Touched Beyond
  cases d <;> simp

open Classical in
theorem measurable_barrier {f : ℝ → ℝ} (hf : Measurable f) (d : BarrierDirection) (B : ℝ) (n : ℕ) :
    Measurable (fun l : List ℝ => if ∃ x ∈ l, Beyond d B x then f (l.getD n 0) else 0) ∧
    Measurable (fun l : List ℝ => if ∃ x ∈ l, Beyond d B x then 0 else f (l.getD n 0)) := by
  have hB : MeasurableSet {x | Beyond d B x} := by
    cases d
    · exact measurableSet_Ici
    · exact measurableSet_Iic
  have hm : MeasurableSet {l : List ℝ | ∃ x ∈ l, Beyond d B x} := by
    have : Measurable fun l : List ℝ => (∃ x ∈ l, Beyond d B x) := by
      refine measurable_fromList fun m => ?_
      have hs : MeasurableSet {v : Fin m → ℝ | ∃ x ∈ List.ofFn v, Beyond d B x} := by
        have e : {v : Fin m → ℝ | ∃ x ∈ List.ofFn v, Beyond d B x} = ⋃ i, {v | Beyond d B (v i)} := by
          ext v
          simp [List.mem_ofFn]
        rw [e]
        exact MeasurableSet.iUnion fun i => (measurable_pi_apply (X := fun _ : Fin m => ℝ) i) hB
      exact measurableSet_setOf.mp hs
    exact measurableSet_setOf.mpr this
  have hl := hf.comp (measurable_getD n)
  exact ⟨Measurable.ite hm hl measurable_const, Measurable.ite hm measurable_const hl⟩

open Classical in
/-- **C65.** The barrier pricers. -/
theorem C65_barrier (hg : RandomSource g μ count) {v : View ℝ} (hS : 0 < v.price) {T : ℝ} {steps : ℕ} (h1 : 0 < steps) (h2 : steps ≤ INT_MAX)
    {k : ModelKind ℝ} (hk : Simulatable (T / steps) k) {f : ℝ → ℝ} (hf : Measurable f) {pay : ℝ → Res ℝ} (hpay : ∀ x, pay x = .ok (f x))
    (d : BarrierDirection) (B : ℝ) {X : ℕ → G → ℝ} (hX : SimulatedPath (Sim.prices g steps v T k) steps X)
    {N : ℕ} (hN : 0 < N) (hN2 : N ≤ INT_MAX) :
    (MemLp (fun s => if ∃ i < steps, Beyond d B (X i s) then f (X (steps - 1) s) else 0) 2 μ →
      Estimator μ (MC.barrier .knockIn (modelSource g steps v k) (Eff.lift (.ok v.r)) (OptionModel.knockInIsActive B d) pay T N)
        (Real.exp (-(v.r * T)) * ∫ s, (if ∃ i < steps, Beyond d B (X i s) then f (X (steps - 1) s) else 0) ∂μ)
        (Var[fun s => Real.exp (-(v.r * T)) * (if ∃ i < steps, Beyond d B (X i s) then f (X (steps - 1) s) else 0); μ] / N)) ∧
    (MemLp (fun s => if ∃ i < steps, Beyond d B (X i s) then 0 else f (X (steps - 1) s)) 2 μ →
      Estimator μ (MC.barrier .knockOut (modelSource g steps v k) (Eff.lift (.ok v.r)) (OptionModel.knockOutIsActive B d) pay T N)
        (Real.exp (-(v.r * T)) * ∫ s, (if ∃ i < steps, Beyond d B (X i s) then 0 else f (X (steps - 1) s)) ∂μ)
        (Var[fun s => Real.exp (-(v.r * T)) * (if ∃ i < steps, Beyond d B (X i s) then 0 else f (X (steps - 1) s)); μ] / N)) := by
  have hm := measurable_barrier hf d B (steps - 1)
  have hlast : ∀ l : List ℝ, (h : l ≠ []) → l.length = steps → l.getLast h = l.getD (steps - 1) 0 := by
    intro l h hl
    rw [List.getLast_eq_getElem, getD_of_lt (by omega)]
    simp only [hl]
  have ex : ∀ s, (∃ x ∈ (List.range steps).map (fun i => X i s), Beyond d B x) ↔ ∃ i < steps, Beyond d B (X i s) := by
    intro s; simp
  have el : ∀ s, ((List.range steps).map fun i => X i s).getD (steps - 1) 0 = X (steps - 1) s := by
    intro s
    rw [getD_of_lt (by simp; omega)]
    simp
  constructor
  · intro hL
    have := estimator_prices hg hS h2 hk (pp := MC.barrierPath .knockIn (OptionModel.knockInIsActive B d) pay steps) hm.1
      (fun l hl _ => by
        have hne : l ≠ [] := by rw [← List.length_pos_iff]; omega
        rw [← hl]
        refine barrierPath_knockIn (by omega) ⟨hne, fun ht => ?_, fun ht => ?_⟩
        · rw [touched_iff] at ht
          rw [if_pos ht, hpay, hlast l hne hl, hl]
        · rw [touched_iff] at ht
          rw [if_neg ht]; simp) hX (by simpa only [ex, el] using hL) v.r hN
    rw [MC.barrier_eq, MC.intPricer_eq_long hN2]
    simp only [ex, el] at this
    exact this
  · intro hL
    have := estimator_prices hg hS h2 hk (pp := MC.barrierPath .knockOut (OptionModel.knockOutIsActive B d) pay steps) hm.2
      (fun l hl _ => by
        have hne : l ≠ [] := by rw [← List.length_pos_iff]; omega
        rw [← hl]
        refine barrierPath_knockOut (by omega) ⟨hne, fun ht => ?_, fun ht => ?_⟩
        · rw [touched_iff] at ht
          rw [if_neg ht, hpay, hlast l hne hl, hl]
        · rw [touched_iff] at ht
          rw [if_pos ht]; simp) hX (by simpa only [ex, el] using hL) v.r hN
    rw [MC.barrier_eq, MC.intPricer_eq_long hN2]
    simp only [ex, el] at this
    exact this

/-- **C65.** Chebyshev's bound: whatever the tolerance, the probability of a larger error goes to 0 like `1 / N`. -/
theorem C65_error {run : Eff G ℝ} {mean var : ℝ} {N : ℕ} (h : Estimator μ run mean (var / N)) {ε : ℝ} (hε : 0 < ε) :
    ∃ Y : G → ℝ, (∀ s, ∃ s', run s = (.ok (Y s), s')) ∧ μ {s | ε ≤ |Y s - mean|} ≤ ENNReal.ofReal (var / (N * ε ^ 2)) := by
  obtain ⟨Y, h1, h2, h3, h4⟩ := h
  refine ⟨Y, h1, ?_⟩
  have := meas_ge_le_variance_div_sq h2 hε
  rwa [h3, h4, div_div] at this

/-- **C65.** Every model with admissible parameters simulates a path of measurable, positive prices. -/
theorem C65_path (hg : RandomSource g μ count) {v : View ℝ} (hS : 0 < v.price) (T : ℝ) {steps : ℕ} (h2 : steps ≤ INT_MAX)
    {k : ModelKind ℝ} (hk : Simulatable (T / steps) k) :
    ∃ X : ℕ → G → ℝ, SimulatedPath (Sim.prices g steps v T k) steps X ∧ (∀ i, Measurable (X i)) ∧ ∀ i < steps, ∀ s, 0 < X i s := by
  obtain ⟨y, t, h⟩ := Sim.random_prices hg v T h2 hk
  have hl : ∀ s, (y () s).length = steps := fun s => C32_length _ _ _ _ _ _ _ _ (h.run () s)
  refine ⟨fun i s => (y () s).getD i 0, fun s => ⟨t () s, ?_⟩, fun i => (measurable_getD i).comp (h.measurable_ya ()), fun i hi s => ?_⟩
  · rw [h.run () s]
    congr 2
    refine List.ext_getElem (by simp [hl]) fun n h3 h4 => ?_
    simp [h3]
  · show 0 < (y () s).getD i 0
    rw [getD_of_lt (by rw [hl]; exact hi)]
    exact C32_positive _ _ _ hS _ _ _ _ _ (h.run () s) _ (List.getElem_mem _)

theorem putValue (K x : ℝ) : (Payoff.vanilla .put K).eval1 x = .ok (max (K - x) 0) := by
  simp [Payoff.eval1]

/-- A put with strike 100 in Merton's model, 252 steps and 10000 paths: the expected price is the discounted expected
payoff, and the variance is at most one tenthousandth of the squared strike. -/
example : ∃ (X : ℕ → PerfectState → ℝ) (V : ℝ),
    SimulatedPath (Sim.prices perfectGen 252 ⟨100, 1/5, none, 1/20⟩ 1 (.merton 1 (-1/10) (3/20))) 252 X ∧ V ≤ 100 ^ 2 ∧
    Estimator perfectMeasure (MC.singlePath (modelSource perfectGen 252 ⟨100, 1/5, none, 1/20⟩ (.merton 1 (-1/10) (3/20))) (Eff.lift (.ok (1/20)))
      (Payoff.vanilla .put 100).eval1 1 10000) (Real.exp (-(1/20 * 1)) * ∫ s, max (100 - X 251 s) 0 ∂perfectMeasure) (V / (10000 : ℕ)) := by
  have hk : Simulatable (1 / (252 : ℕ)) (.merton 1 (-1/10) (3/20)) := by
    constructor <;> norm_num
  have hS : (0 : ℝ) < (⟨100, 1/5, none, 1/20⟩ : View ℝ).price := by norm_num
  obtain ⟨X, h1, h2, h3⟩ := C65_path randomSource_perfectGen hS 1 (steps := 252) (by decide) hk
  have hm : Measurable fun s => max (100 - X 251 s) 0 := by
    have := h2 251
    fun_prop
  have hb : ∀ s, 0 ≤ max (100 - X 251 s) 0 ∧ max (100 - X 251 s) 0 ≤ 100 := fun s =>
    ⟨le_max_right _ _, max_le (by linarith [h3 251 (by norm_num) s]) (by norm_num)⟩
  have hL : MemLp (fun s => max (100 - X 251 s) 0) 2 perfectMeasure :=
    MemLp.of_bound hm.aestronglyMeasurable 100 (.of_forall fun s => by
      rw [Real.norm_eq_abs, abs_of_nonneg (hb s).1]; exact (hb s).2)
  refine ⟨X, _, h1, ?_, C65_singlePath randomSource_perfectGen hS (by norm_num) (by decide) hk (by fun_prop) (putValue 100) h1 hL
    (by norm_num) (by decide)⟩
  refine (variance_le_expectation_sq (by fun_prop)).trans ?_
  have : ∀ s, (Real.exp (-(1/20 * 1)) * max (100 - X 251 s) 0) ^ 2 ≤ (100 : ℝ) ^ 2 := by
    intro s
    have h4 : Real.exp (-(1/20 * 1)) ≤ 1 := Real.exp_le_one_iff.mpr (by norm_num)
    have h5 := Real.exp_pos (-(1/20 * 1))
    refine pow_le_pow_left₀ (mul_nonneg h5.le (hb s).1) ?_ 2
    nlinarith [hb s]
  refine (integral_mono_of_nonneg (.of_forall fun s => sq_nonneg _) (integrable_const ((100 : ℝ) ^ 2)) (.of_forall this)).trans ?_
  simp

/-- A down-and-out put in Kou's model and an arithmetic Asian put in Heston's: the payoffs are bounded, so the hypotheses
hold for every number of paths. -/
example (N : ℕ) (hN : 0 < N) (hN2 : N ≤ INT_MAX) : ∃ (X : ℕ → PerfectState → ℝ) (m V : ℝ),
    SimulatedPath (Sim.prices perfectGen 12 ⟨100, 1/5, none, 1/20⟩ 1 (.kou 1 (1/2) 2 3 (11/8))) 12 X ∧
    Estimator perfectMeasure (MC.barrier .knockOut (modelSource perfectGen 12 ⟨100, 1/5, none, 1/20⟩ (.kou 1 (1/2) 2 3 (11/8))) (Eff.lift (.ok (1/20)))
      (OptionModel.knockOutIsActive 80 .down) (Payoff.vanilla .put 100).eval1 1 N) m (V / N) := by
  classical
  have hk : Simulatable (1 / (12 : ℕ)) (.kou 1 (1/2) 2 3 (11/8)) := by
    refine ⟨?_, ?_, ?_⟩ <;> norm_num
  have hS : (0 : ℝ) < (⟨100, 1/5, none, 1/20⟩ : View ℝ).price := by norm_num
  obtain ⟨X, h1, h2, h3⟩ := C65_path randomSource_perfectGen hS 1 (steps := 12) (by decide) hk
  refine ⟨X, _, _, h1, (C65_barrier randomSource_perfectGen hS (by norm_num) (by decide) hk (by fun_prop) (putValue 100) .down 80 h1
    hN hN2).2 ?_⟩
  have hm : MeasurableSet {s | ∃ i < 12, Beyond .down 80 (X i s)} := by
    have e : {s | ∃ i < 12, Beyond .down 80 (X i s)} = ⋃ i ∈ Finset.range 12, X i ⁻¹' Set.Iic 80 := by
      ext s; simp [Beyond]
    rw [e]
    exact Finset.measurableSet_biUnion _ fun i _ => h2 i measurableSet_Iic
  have := h2 (12 - 1)
  refine MemLp.of_bound (Measurable.ite hm measurable_const (by fun_prop)).aestronglyMeasurable 100 (.of_forall fun s => ?_)
  have := h3 (12 - 1) (by norm_num) s
  split
  · simp
  · rw [Real.norm_eq_abs, abs_of_nonneg (le_max_right _ _)]
    exact max_le (by linarith) (by norm_num)

example (N : ℕ) (hN : 0 < N) : ∃ X : ℕ → PerfectState → ℝ,
    SimulatedPath (Sim.prices perfectGen 12 ⟨100, 1/5, none, 1/20⟩ 1 (.heston 2 (1/25) (3/10) (-7/10) (1/25) cirExplicitEuler)) 12 X ∧
    ∃ V, Estimator perfectMeasure (MC.asian .arithmetic (modelSource perfectGen 12 ⟨100, 1/5, none, 1/20⟩
      (.heston 2 (1/25) (3/10) (-7/10) (1/25) cirExplicitEuler)) (Eff.lift (.ok (1/20))) (Payoff.vanilla .put 100).eval1 1 N)
      (Real.exp (-(1/20 * 1)) * ∫ s, max (100 - (∑ i ∈ Finset.range 12, X i s) / (12 : ℕ)) 0 ∂perfectMeasure) (V / N) := by
  have hk : Simulatable (1 / (12 : ℕ)) (.heston 2 (1/25) (3/10) (-7/10) (1/25) cirExplicitEuler) := by
    intro dt kappa theta sigmaV
    simp only [cirExplicitEuler, Fl.max_real, Fl.sqrt_real, Fl.lit_real]
    fun_prop
  have hS : (0 : ℝ) < (⟨100, 1/5, none, 1/20⟩ : View ℝ).price := by norm_num
  obtain ⟨X, h1, h2, h3⟩ := C65_path randomSource_perfectGen hS 1 (steps := 12) (by decide) hk
  refine ⟨X, h1, _, C65_arithmeticAsian randomSource_perfectGen hS (by decide) hk (f := fun x => max (100 - x) 0) (by fun_prop) (putValue 100) h1 ?_ hN⟩
  refine MemLp.of_bound (by fun_prop : Measurable _).aestronglyMeasurable 100 (.of_forall fun s => ?_)
  have : 0 ≤ ∑ i ∈ Finset.range 12, X i s := Finset.sum_nonneg fun i hi => (h3 i (by simpa using hi) s).le
  rw [Real.norm_eq_abs, abs_of_nonneg (le_max_right _ _)]
  exact max_le (by have := div_nonneg this (by norm_num : (0 : ℝ) ≤ (12 : ℕ)); linarith) (by norm_num)

end Verif
