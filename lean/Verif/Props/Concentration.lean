import Verif.Spec.AveragesSpec
import Verif.Props.Estimator
import Mathlib.Probability.Moments.SubGaussian

/-!
# Property C70: the paths are independent, and bounded payoffs have confidence intervals
-/

namespace Verif
open MeasureTheory ProbabilityTheory Function Spec
open scoped ENNReal

variable {G α : Type} [MeasurableSpace G] [MeasurableSpace α] {μ : Measure G} [IsProbabilityMeasure μ] {g : Gen G ℝ} {count : ℝ → Measure ℕ}

namespace Sampled
variable {e : Eff G α} {y : Unit → G → α} {t : Unit → G → G}

theorem measure_runs (h : Sampled μ (fun _ : Unit => e) y t) : ∀ (N : ℕ) (A : ℕ → Set α), (∀ n, MeasurableSet (A n)) →
    MeasurableSet {s | ∀ n < N, y () ((t ())^[n] s) ∈ A n} ∧
    μ {s | ∀ n < N, y () ((t ())^[n] s) ∈ A n} = ∏ n ∈ Finset.range N, μ.map (y ()) (A n)
  | 0, A, _ => by simp
  | N + 1, A, hA => by
    have my := h.measurable_ya ()
    have mt := h.measurable_ta ()
    obtain ⟨m1, e1⟩ := measure_runs h N (fun n => A (n + 1)) fun n => hA (n + 1)
    set B := {s | ∀ n < N, y () ((t ())^[n] s) ∈ A (n + 1)} with hB
    have es : {s | ∀ n < N + 1, y () ((t ())^[n] s) ∈ A n} = (fun s => (y () s, t () s)) ⁻¹' (A 0 ×ˢ B) := by
      ext s
      simp only [Set.mem_setOf_eq, Set.mem_preimage, Set.mem_prod, hB]
      constructor
      · intro hs
        exact ⟨hs 0 (by omega), fun n hn => hs (n + 1) (by omega)⟩
      · rintro ⟨h0, h1⟩ n hn
        cases n with
        | zero => exact h0
        | succ n => exact h1 n (by omega)
    have mp : MeasurableSet (A 0 ×ˢ B) := (hA 0).prod m1
    haveI : IsProbabilityMeasure (μ.map (y ())) := Measure.isProbabilityMeasure_map (by fun_prop)
    refine ⟨by rw [es]; exact (my.prodMk mt) mp, ?_⟩
    rw [es, ← Measure.map_apply (my.prodMk mt) mp, h.indep (), Measure.prod_prod, e1, Finset.prod_range_succ']
    ring

/-- The results of all runs are independent. -/
theorem iIndep_runs (h : Sampled μ (fun _ : Unit => e) y t) : iIndepFun (fun n s => y () ((t ())^[n] s)) μ := by
  classical
  have my := h.measurable_ya ()
  rw [iIndepFun_iff_measure_inter_preimage_eq_mul]
  intro S sets hsets
  obtain ⟨N, hN⟩ : ∃ N, ∀ n ∈ S, n < N := ⟨S.sup id + 1, fun n hn => Nat.lt_succ_of_le (Finset.le_sup (f := id) hn)⟩
  let A : ℕ → Set α := fun n => if n ∈ S then sets n else Set.univ
  have hA : ∀ n, MeasurableSet (A n) := fun n => by
    by_cases hn : n ∈ S
    · simp only [A, hn, if_true]; exact hsets n hn
    · simp only [A, hn, if_false]; exact MeasurableSet.univ
  haveI : IsProbabilityMeasure (μ.map (y ())) := Measure.isProbabilityMeasure_map (by fun_prop)
  have e1 : (⋂ i ∈ S, (fun s => y () ((t ())^[i] s)) ⁻¹' sets i) = {s | ∀ n < N, y () ((t ())^[n] s) ∈ A n} := by
    ext s
    simp only [Set.mem_iInter, Set.mem_preimage, Set.mem_setOf_eq, A]
    constructor
    · intro hs n _
      by_cases hn : n ∈ S
      · rw [if_pos hn]; exact hs n hn
      · rw [if_neg hn]; trivial
    · intro hs n hn
      have := hs n (hN n hn)
      rwa [if_pos hn] at this
  have e2 : ∀ n ∈ S, μ ((fun s => y () ((t ())^[n] s)) ⁻¹' sets n) = μ.map (y ()) (A n) := by
    intro n hn
    have hp := h.preserving_iterate n
    simp only [A, hn, if_true]
    rw [Measure.map_apply my (hsets n hn), ← hp.measure_preimage (my (hsets n hn)).nullMeasurableSet]
    rfl
  rw [e1, (h.measure_runs N A hA).2, Finset.prod_congr rfl e2]
  refine (Finset.prod_subset (fun n hn => Finset.mem_range.mpr (hN n hn)) fun n _ hn => ?_).symm
  simp [A, hn]

end Sampled

/-- The common part of the pricers. -/
theorem averages_longPricer {e : Eff G α} (h : Random μ fun _ : Unit => e) {pp : α → Res ℝ} {f : α → ℝ} (hf : Measurable f)
    (hpp : ∀ s a s', e s = (.ok a, s') → pp a = .ok (f a)) {V : G → ℝ} (hV : ∀ s, ∃ a s', e s = (.ok a, s') ∧ V s = f a) (r T : ℝ) :
    Averages μ (MC.longPricer e (Eff.lift (.ok r)) pp T) Set.univ (Real.exp (-(r * T))) V := by
  obtain ⟨y, t, h⟩ := h
  have hV' : V = fun s => f (y () s) := by
    funext s
    obtain ⟨a, s', e1, e2⟩ := hV s
    rw [h.run () s] at e1
    cases e1
    exact e2
  have my := h.measurable_ya ()
  refine ⟨fun n s => f (y () ((t ())^[n] s)), h.iIndep_runs.comp (fun _ => f) fun _ => hf, fun n => ?_, fun N _ hN s => ⟨(t ())^[N] s, ?_⟩⟩
  · have hp := h.preserving_iterate n
    refine ⟨(hf.comp (my.comp hp.measurable)).aemeasurable, by rw [hV']; exact (hf.comp my).aemeasurable, ?_⟩
    rw [hV']
    conv_rhs => rw [← hp.map_eq, Measure.map_map (g := fun s => f (y () s)) (hf.comp my) hp.measurable]
    rfl
  · have hd := h.draws N s
    have hv : Pays pp ((List.range N).map fun n => y () ((t ())^[n] s)) ((List.range N).map fun n => f (y () ((t ())^[n] s))) := by
      unfold Pays
      rw [List.forall₂_map_left_iff, List.forall₂_map_right_iff]
      exact List.forall₂_same.mpr fun n _ => hpp _ _ _ (h.run () ((t ())^[n] s))
    have := MC.longPricer_ok (T := T) (getR := Eff.lift (.ok r)) (r := r) (s := s) rfl hd hv
    simp only [List.length_map, List.length_range] at this
    rw [this, price_eq_discountedMean _ _ _ (by simp), discountedMean, List.length_map, List.length_range,
      ← List.sum_toFinset _ List.nodup_range, List.toFinset_range]

/-- Pricers that look at the whole path. -/
theorem averages_prices (hg : RandomSource g μ count) {v : View ℝ} (hS : 0 < v.price) {T : ℝ} {steps : ℕ} (h2 : steps ≤ INT_MAX) {k : ModelKind ℝ}
    (hk : Simulatable (T / steps) k) {pp : List ℝ → Res ℝ} {f : List ℝ → ℝ} (hf : Measurable f)
    (hpp : ∀ l : List ℝ, l.length = steps → (∀ x ∈ l, 0 < x) → pp l = .ok (f l))
    {X : ℕ → G → ℝ} (hX : SimulatedPath (Sim.prices g steps v T k) steps X) (r : ℝ) :
    Averages μ (MC.longPricer (Sim.prices g steps v T k) (Eff.lift (.ok r)) pp T) Set.univ (Real.exp (-(r * T)))
      (fun s => f ((List.range steps).map fun i => X i s)) := by
  refine averages_longPricer (Sim.random_prices hg v T h2 hk) hf (fun s l s' hl => hpp l ?_ ?_) (fun s => ?_) r T
  · exact C32_length _ _ _ _ _ _ _ _ hl
  · exact C32_positive _ _ _ hS _ _ _ _ _ hl
  · obtain ⟨s', h⟩ := hX s
    exact ⟨_, s', h, rfl⟩

theorem averages_int {run run' : ℕ → Eff G ℝ} {d : ℝ} {V : G → ℝ} (h : Averages μ run Set.univ d V) (e : ∀ N ≤ INT_MAX, run' N = run N) :
    Averages μ run' (Set.Iic INT_MAX) d V := by
  obtain ⟨X, h1, h2, h3⟩ := h
  exact ⟨X, h1, h2, fun N hN h0 s => by rw [e N hN]; exact h3 N trivial h0 s⟩

/-- **C70.** The single path pricer averages independent copies of the payoff of the simulated price at maturity. -/
theorem C70_singlePath (hg : RandomSource g μ count) {v : View ℝ} {T : ℝ} {steps : ℕ} (h1 : 0 < steps) (h2 : steps ≤ INT_MAX)
    {k : ModelKind ℝ} (hk : Simulatable (T / steps) k) {f : ℝ → ℝ} (hf : Measurable f) {pay : ℝ → Res ℝ} (hpay : ∀ x, pay x = .ok (f x))
    {X : ℕ → G → ℝ} (hX : SimulatedPath (Sim.prices g steps v T k) steps X) :
    Averages μ (MC.singlePath (modelSource g steps v k) (Eff.lift (.ok v.r)) pay T) (Set.Iic INT_MAX) (Real.exp (-(v.r * T)))
      (fun s => f (X (steps - 1) s)) := by
  have hlast : ∀ l : List ℝ, (h : l ≠ []) → l.length = steps → l.getLast h = l.getD (steps - 1) 0 := by
    intro l h hl
    rw [List.getLast_eq_getElem, getD_of_lt (by omega)]
    simp only [hl]
  have key : Random μ fun _ : Unit => Sim.maturity g steps v T k := by
    obtain ⟨y, t, h⟩ := Sim.random_prices hg v T h2 hk
    refine (Random.bind ⟨y, t, h⟩ (g := fun _ l => (pure (l.getD (steps - 1) 0) : Eff G ℝ))
      (Random.pure ((measurable_getD (steps - 1)).comp measurable_snd))).congr fun _ => ?_
    funext s
    have hr := h.run () s
    obtain ⟨hne, e⟩ := (C32_maturity g steps h1 v T k s).1 _ _ hr
    rw [e, Eff.bind_of_ok hr, hlast _ hne (C32_length _ _ _ _ _ _ _ _ hr)]
    rfl
  refine averages_int (averages_longPricer (V := fun s => f (X (steps - 1) s)) key hf (fun s a s' _ => hpay a) (fun s => ?_) v.r T)
    fun N hN => by rw [MC.singlePath_eq, MC.intPricer_eq_long hN]; rfl
  obtain ⟨s', h⟩ := hX s
  obtain ⟨hne, e⟩ := (C32_maturity g steps h1 v T k s).1 _ _ h
  refine ⟨_, s', e, ?_⟩
  rw [hlast _ hne (by simp), getD_of_lt (by simp; omega)]
  simp

/-- **C70.** The Asian pricers average independent copies of the payoff of the arithmetic or geometric mean of a path. -/
theorem C70_asian (hg : RandomSource g μ count) {v : View ℝ} (hS : 0 < v.price) {T : ℝ} {steps : ℕ} (h2 : steps ≤ INT_MAX)
    {k : ModelKind ℝ} (hk : Simulatable (T / steps) k) {f : ℝ → ℝ} (hf : Measurable f) {pay : ℝ → Res ℝ} (hpay : ∀ x, pay x = .ok (f x))
    {X : ℕ → G → ℝ} (hX : SimulatedPath (Sim.prices g steps v T k) steps X) :
    Averages μ (MC.asian .arithmetic (modelSource g steps v k) (Eff.lift (.ok v.r)) pay T) Set.univ (Real.exp (-(v.r * T)))
      (fun s => f ((∑ i ∈ Finset.range steps, X i s) / steps)) ∧
    Averages μ (MC.asian .geometric (modelSource g steps v k) (Eff.lift (.ok v.r)) pay T) Set.univ (Real.exp (-(v.r * T)))
      (fun s => f ((∏ i ∈ Finset.range steps, X i s) ^ ((1 : ℝ) / steps))) := by
  constructor
  · have e : (fun s => f ((∑ i ∈ Finset.range steps, X i s) / steps)) = fun s => f (arithMean ((List.range steps).map fun i => X i s)) := by
      funext s
      rw [arithMean, sum_map_range, List.length_map, List.length_range]
    rw [e]
    exact averages_prices hg hS h2 hk (pp := MC.asianPath .arithmetic pay steps) (hf.comp measurable_arithMean)
      (fun l hl _ => by
        rw [← hl, asianPath_arith pay l (by omega), hpay, foldl_add_real]
        simp [arithMean]) hX v.r
  · have e : (fun s => f ((∏ i ∈ Finset.range steps, X i s) ^ ((1 : ℝ) / steps))) = fun s => f (geomMean ((List.range steps).map fun i => X i s)) := by
      funext s
      rw [geomMean, prod_map_range, List.length_map, List.length_range]
    rw [e]
    exact averages_prices hg hS h2 hk (pp := MC.asianPath .geometric pay steps) (hf.comp measurable_geomMean)
      (fun l hl hp => by
        rw [← hl, asianPath_geom pay l (by omega), hpay, foldl_add_real]
        simp only [comp, geomMean_eq_exp hp]
        simp [show (Fl.log : ℝ → ℝ) = Real.log from rfl]) hX v.r

open Classical in
/-- **C70.** The barrier pricers average independent copies of the payoff of the paths that have, or have not, touched the
barrier. -/
theorem C70_barrier (hg : RandomSource g μ count) {v : View ℝ} (hS : 0 < v.price) {T : ℝ} {steps : ℕ} (h1 : 0 < steps) (h2 : steps ≤ INT_MAX)
    {k : ModelKind ℝ} (hk : Simulatable (T / steps) k) {f : ℝ → ℝ} (hf : Measurable f) {pay : ℝ → Res ℝ} (hpay : ∀ x, pay x = .ok (f x))
    (d : BarrierDirection) (B : ℝ) {X : ℕ → G → ℝ} (hX : SimulatedPath (Sim.prices g steps v T k) steps X) :
    Averages μ (MC.barrier .knockIn (modelSource g steps v k) (Eff.lift (.ok v.r)) (OptionModel.knockInIsActive B d) pay T) (Set.Iic INT_MAX)
      (Real.exp (-(v.r * T))) (fun s => if ∃ i < steps, Beyond d B (X i s) then f (X (steps - 1) s) else 0) ∧
    Averages μ (MC.barrier .knockOut (modelSource g steps v k) (Eff.lift (.ok v.r)) (OptionModel.knockOutIsActive B d) pay T) (Set.Iic INT_MAX)
      (Real.exp (-(v.r * T))) (fun s => if ∃ i < steps, Beyond d B (X i s) then 0 else f (X (steps - 1) s)) := by
  have hm := measurable_barrier hf d B (steps - 1)
  have hlast : ∀ l : List ℝ, (h : l ≠ []) → l.length = steps → l.getLast h = l.getD (steps - 1) 0 := by
    intro l h hl
    rw [List.getLast_eq_getElem, getD_of_lt (by omega)]
    simp only [hl]
  have ex : ∀ s, (∃ x ∈ (List.range steps).map (fun i => X i s), Beyond d B x) ↔ ∃ i < steps, Beyond d B (X i s) := by
    intro s; simp
  have el : ∀ s, ((List.range steps).map fun i => X i s).getD (steps - 1) 0 = X (steps - 1) s := by
    intro s
    rw [getD_of_lt (by simp; omega)]
    simp
  constructor
  · have := averages_prices hg hS h2 hk (pp := MC.barrierPath .knockIn (OptionModel.knockInIsActive B d) pay steps) hm.1
      (fun l hl _ => by
        have hne : l ≠ [] := by rw [← List.length_pos_iff]; omega
        rw [← hl]
        refine barrierPath_knockIn (by omega) ⟨hne, fun ht => ?_, fun ht => ?_⟩
        · rw [touched_iff] at ht
          rw [if_pos ht, hpay, hlast l hne hl, hl]
        · rw [touched_iff] at ht
          rw [if_neg ht]; simp) hX v.r
    simp only [ex, el] at this
    exact averages_int this fun N hN => by rw [MC.barrier_eq, MC.intPricer_eq_long hN]; rfl
  · have := averages_prices hg hS h2 hk (pp := MC.barrierPath .knockOut (OptionModel.knockOutIsActive B d) pay steps) hm.2
      (fun l hl _ => by
        have hne : l ≠ [] := by rw [← List.length_pos_iff]; omega
        rw [← hl]
        refine barrierPath_knockOut (by omega) ⟨hne, fun ht => ?_, fun ht => ?_⟩
        · rw [touched_iff] at ht
          rw [if_neg ht, hpay, hlast l hne hl, hl]
        · rw [touched_iff] at ht
          rw [if_pos ht]; simp) hX v.r
    simp only [ex, el] at this
    exact averages_int this fun N hN => by rw [MC.barrier_eq, MC.intPricer_eq_long hN]; rfl

/-- **C70.** Hoeffding's inequality: for a payoff between `a` and `b` the probability of an error of `ε` or more decreases
exponentially in the number of paths. -/
theorem C70_hoeffding {run : ℕ → Eff G ℝ} {ok : Set ℕ} {d : ℝ} (hd : 0 < d) {V : G → ℝ} (h : Averages μ run ok d V) {a b : ℝ} (hab : a < b)
    (hb : ∀ s, a ≤ V s ∧ V s ≤ b) {N : ℕ} (hN : N ∈ ok) (h0 : 0 < N) :
    Deviates μ (run N) (d * ∫ s, V s ∂μ) fun ε => 2 * Real.exp (-(2 * N * ε ^ 2) / (d * (b - a)) ^ 2) := by
  obtain ⟨X, h1, h2, h3⟩ := h
  refine ⟨_, h3 N hN h0, fun ε hε => ?_⟩
  have hNr : (0 : ℝ) < N := by exact_mod_cast h0
  set m := ∫ s, V s ∂μ with hm
  have hVm : AEMeasurable V μ := (h2 0).aemeasurable_snd
  have hsub : HasSubgaussianMGF (fun s => V s - m) ((‖b - a‖₊ / 2) ^ 2) μ := hasSubgaussianMGF_of_mem_Icc hVm (.of_forall fun s => hb s)
  have hX : ∀ n, HasSubgaussianMGF (fun s => X n s - m) ((‖b - a‖₊ / 2) ^ 2) μ := fun n =>
    hsub.congr_identDistrib ((h2 n).symm.comp (u := fun x => x - m) (by fun_prop))
  have hi : iIndepFun (fun n s => X n s - m) μ := h1.comp (fun _ x => x - m) fun _ => by fun_prop
  have hi' : iIndepFun (fun n s => -(X n s - m)) μ := h1.comp (fun _ x => -(x - m)) fun _ => by fun_prop
  have hba : 0 < b - a := sub_pos.mpr hab
  have hc : ((((‖b - a‖₊ / 2) ^ 2 : NNReal)) : ℝ) = ((b - a) / 2) ^ 2 := by
    simp [abs_of_pos hba]
  have hdelta : 0 ≤ N * ε / d := by positivity
  have p1 := HasSubgaussianMGF.measure_sum_range_ge_le_of_iIndepFun hi (n := N) (fun i _ => hX i) hdelta
  have p2 := HasSubgaussianMGF.measure_sum_range_ge_le_of_iIndepFun hi' (n := N) (fun i _ => (hX i).neg) hdelta
  rw [hc] at p1 p2
  have ee : -(N * ε / d) ^ 2 / (2 * N * ((b - a) / 2) ^ 2) = -(2 * N * ε ^ 2) / (d * (b - a)) ^ 2 := by
    field_simp
  rw [ee] at p1 p2
  have hs : ∀ s, ∑ n ∈ Finset.range N, (X n s - m) = N / d * (d * ((∑ n ∈ Finset.range N, X n s) / N) - d * m) := by
    intro s
    rw [Finset.sum_sub_distrib, Finset.sum_const, Finset.card_range, nsmul_eq_mul]
    field_simp
  have hpos : 0 < N / d := div_pos hNr hd
  have hset : {s | ε ≤ |d * ((∑ n ∈ Finset.range N, X n s) / N) - d * m|} ⊆
      {s | N * ε / d ≤ ∑ n ∈ Finset.range N, (X n s - m)} ∪ {s | N * ε / d ≤ ∑ n ∈ Finset.range N, -(X n s - m)} := by
    intro s hs'
    simp only [Set.mem_setOf_eq, Set.mem_union] at hs' ⊢
    rw [Finset.sum_neg_distrib, hs, show N * ε / d = N / d * ε by ring]
    rcases le_abs.mp hs' with h | h
    · exact .inl (mul_le_mul_of_nonneg_left h hpos.le)
    · right
      rw [← mul_neg]
      exact mul_le_mul_of_nonneg_left h hpos.le
  calc _ ≤ _ := measureReal_mono hset
    _ ≤ _ := measureReal_union_le _ _
    _ ≤ _ := add_le_add p1 p2
    _ = _ := by ring

/-- **C70.** Confidence intervals: with the half width `d (b - a) √(log (2 / δ) / (2 N))` the interval around the returned
price misses the discounted expected payoff with probability at most `δ`. -/
theorem C70_confidence {run : ℕ → Eff G ℝ} {ok : Set ℕ} {d : ℝ} (hd : 0 < d) {V : G → ℝ} (h : Averages μ run ok d V) {a b : ℝ} (hab : a < b)
    (hb : ∀ s, a ≤ V s ∧ V s ≤ b) {N : ℕ} (hN : N ∈ ok) (h0 : 0 < N) {δ : ℝ} (hδ : 0 < δ) (hδ1 : δ ≤ 1) :
    ∃ Y : G → ℝ, (∀ s, ∃ s', run N s = (.ok (Y s), s')) ∧
      μ.real {s | d * (b - a) * Real.sqrt (Real.log (2 / δ) / (2 * N)) ≤ |Y s - d * ∫ s, V s ∂μ|} ≤ δ := by
  obtain ⟨Y, h1, h2⟩ := C70_hoeffding hd h hab hb hN h0
  have hNr : (0 : ℝ) < N := by exact_mod_cast h0
  have hba : 0 < b - a := sub_pos.mpr hab
  have hl : 0 ≤ Real.log (2 / δ) := Real.log_nonneg (by rw [le_div_iff₀ hδ]; linarith)
  refine ⟨Y, h1, (h2 _ (by positivity)).trans_eq ?_⟩
  have e : -(2 * N * (d * (b - a) * Real.sqrt (Real.log (2 / δ) / (2 * N))) ^ 2) / (d * (b - a)) ^ 2 = -Real.log (2 / δ) := by
    rw [mul_pow, Real.sq_sqrt (by positivity)]
    field_simp
  show 2 * Real.exp _ = δ
  rw [e, Real.exp_neg, Real.exp_log (by positivity)]
  field_simp

/-- **C70.** The averages have the expectation and the variance of C65. -/
theorem C70_estimator {run : ℕ → Eff G ℝ} {ok : Set ℕ} {d : ℝ} {V : G → ℝ} (h : Averages μ run ok d V) (hL : MemLp V 2 μ) {N : ℕ} (hN : N ∈ ok)
    (h0 : 0 < N) : Estimator μ (run N) (d * ∫ s, V s ∂μ) (Var[fun s => d * V s; μ] / N) := by
  obtain ⟨X, h1, h2, h3⟩ := h
  have hNr : (0 : ℝ) < N := by exact_mod_cast h0
  have hXL : ∀ n, MemLp (X n) 2 μ := fun n => (h2 n).symm.memLp_snd hL
  have e : (fun s => d * ((∑ n ∈ Finset.range N, X n s) / N)) = fun s => d / N * (∑ n ∈ Finset.range N, X n) s := by
    funext s; rw [Finset.sum_apply]; ring
  refine ⟨_, h3 N hN h0, ?_, ?_, ?_⟩ <;> rw [e]
  · exact (memLp_finsetSum' _ fun n _ => hXL n).const_mul _
  · simp only [Finset.sum_apply]
    rw [integral_const_mul, integral_finsetSum _ fun n _ => (hXL n).integrable (by norm_num), Finset.sum_congr rfl fun n _ => (h2 n).integral_eq]
    simp only [Finset.sum_const, Finset.card_range, nsmul_eq_mul]
    field_simp
  · rw [variance_const_mul, IndepFun.variance_sum (fun n _ => hXL n) fun a _ b _ hab => h1.indepFun hab,
      Finset.sum_congr rfl fun n _ => (h2 n).variance_eq, Finset.sum_const, Finset.card_range, nsmul_eq_mul, variance_const_mul]
    field_simp

/-- **C70.** Puts, in every model: the error bound depends on the strike, the discount factor and the number of paths only. -/
theorem C70_put (hg : RandomSource g μ count) {v : View ℝ} (hS : 0 < v.price) {T : ℝ} {steps : ℕ} (h1 : 0 < steps) (h2 : steps ≤ INT_MAX)
    {k : ModelKind ℝ} (hk : Simulatable (T / steps) k) {K : ℝ} (hK : 0 < K) {X : ℕ → G → ℝ} (hX : SimulatedPath (Sim.prices g steps v T k) steps X)
    {N : ℕ} (hN : 0 < N) (hN2 : N ≤ INT_MAX) :
    Deviates μ (MC.singlePath (modelSource g steps v k) (Eff.lift (.ok v.r)) (Payoff.vanilla .put K).eval1 T N)
      (Real.exp (-(v.r * T)) * ∫ s, max (K - X (steps - 1) s) 0 ∂μ)
      fun ε => 2 * Real.exp (-(2 * N * ε ^ 2) / (Real.exp (-(v.r * T)) * K) ^ 2) := by
  have hp : ∀ i < steps, ∀ s, 0 < X i s := by
    intro i hi s
    obtain ⟨s', h⟩ := hX s
    exact C32_positive _ _ _ hS _ _ _ _ _ h _ (List.mem_map.mpr ⟨i, List.mem_range.mpr hi, rfl⟩)
  have := C70_hoeffding (Real.exp_pos _) (C70_singlePath hg h1 h2 hk (f := fun x => max (K - x) 0) (by fun_prop) (putValue K) hX) hK
    (fun s => ⟨le_max_right _ _, max_le (by linarith [hp (steps - 1) (by omega) s]) hK.le⟩) (N := N) hN2 hN
  simpa only [sub_zero] using this

/-- A put with strike 100 in Merton's model with 252 steps and 100000 paths: the price is off by 1 or more with probability at
most `2 exp (-20)`. -/
example : ∃ X : ℕ → PerfectState → ℝ, SimulatedPath (Sim.prices perfectGen 252 ⟨100, 1/5, none, 0⟩ 1 (.merton 1 (-1/10) (3/20))) 252 X ∧
    ∃ Y : PerfectState → ℝ, (∀ s, ∃ s', MC.singlePath (modelSource perfectGen 252 ⟨100, 1/5, none, 0⟩ (.merton 1 (-1/10) (3/20))) (Eff.lift (.ok 0))
      (Payoff.vanilla .put 100).eval1 1 100000 s = (.ok (Y s), s')) ∧
    perfectMeasure.real {s | 1 ≤ |Y s - ∫ s, max (100 - X 251 s) 0 ∂perfectMeasure|} ≤ 2 * Real.exp (-20) := by
  have hk : Simulatable (1 / (252 : ℕ)) (.merton 1 (-1/10) (3/20)) := by
    constructor <;> norm_num
  have hS : (0 : ℝ) < (⟨100, 1/5, none, 0⟩ : View ℝ).price := by norm_num
  obtain ⟨X, h1, -, -⟩ := C65_path randomSource_perfectGen hS 1 (steps := 252) (by decide) hk
  obtain ⟨Y, e1, e2⟩ := C70_put randomSource_perfectGen hS (by norm_num) (by decide) hk (K := 100) (by norm_num) h1 (N := 100000) (by norm_num) (by decide)
  refine ⟨X, h1, Y, e1, ?_⟩
  have := e2 1 (by norm_num)
  norm_num at this
  exact this

open Classical in
/-- A confidence interval for a down-and-out put in Kou's model. -/
example (N : ℕ) (hN : 0 < N) (hN2 : N ≤ INT_MAX) : ∃ (X : ℕ → PerfectState → ℝ) (Y : PerfectState → ℝ),
    SimulatedPath (Sim.prices perfectGen 12 ⟨100, 1/5, none, 1/20⟩ 1 (.kou 1 (1/2) 2 3 (11/8))) 12 X ∧
    (∀ s, ∃ s', MC.barrier .knockOut (modelSource perfectGen 12 ⟨100, 1/5, none, 1/20⟩ (.kou 1 (1/2) 2 3 (11/8))) (Eff.lift (.ok (1/20)))
      (OptionModel.knockOutIsActive 80 .down) (Payoff.vanilla .put 100).eval1 1 N s = (.ok (Y s), s')) ∧
    perfectMeasure.real {s | Real.exp (-(1/20 * 1)) * (100 - 0) * Real.sqrt (Real.log (2 / (1/100)) / (2 * N)) ≤ |Y s - Real.exp (-(1/20 * 1)) *
      ∫ s, (if ∃ i < 12, Beyond .down 80 (X i s) then 0 else max (100 - X 11 s) 0) ∂perfectMeasure|} ≤ 1/100 := by
  have hk : Simulatable (1 / (12 : ℕ)) (.kou 1 (1/2) 2 3 (11/8)) := by
    refine ⟨?_, ?_, ?_⟩ <;> norm_num
  have hS : (0 : ℝ) < (⟨100, 1/5, none, 1/20⟩ : View ℝ).price := by norm_num
  obtain ⟨X, h1, h2, h3⟩ := C65_path randomSource_perfectGen hS 1 (steps := 12) (by decide) hk
  have hA := (C70_barrier randomSource_perfectGen hS (by norm_num) (by decide) hk (f := fun x => max (100 - x) 0) (by fun_prop) (putValue 100) .down 80 h1).2
  obtain ⟨Y, e1, e2⟩ := C70_confidence (Real.exp_pos _) hA (a := 0) (b := 100) (by norm_num) (fun s => by
    have := h3 11 (by norm_num) s
    split
    · norm_num
    · exact ⟨le_max_right _ _, max_le (by linarith) (by norm_num)⟩) (N := N) hN2 hN (δ := 1/100) (by norm_num) (by norm_num)
  refine ⟨X, Y, h1, e1, ?_⟩
  convert e2

/-- Both Asian puts in Heston's model: averages of independent copies, with their variance. -/
example (N : ℕ) (hN : 0 < N) : ∃ X : ℕ → PerfectState → ℝ,
    SimulatedPath (Sim.prices perfectGen 12 ⟨100, 1/5, none, 1/20⟩ 1 (.heston 2 (1/25) (3/10) (-7/10) (1/25) cirExplicitEuler)) 12 X ∧
    Estimator perfectMeasure (MC.asian .geometric (modelSource perfectGen 12 ⟨100, 1/5, none, 1/20⟩
      (.heston 2 (1/25) (3/10) (-7/10) (1/25) cirExplicitEuler)) (Eff.lift (.ok (1/20))) (Payoff.vanilla .put 100).eval1 1 N)
      (Real.exp (-(1/20 * 1)) * ∫ s, max (100 - (∏ i ∈ Finset.range 12, X i s) ^ ((1 : ℝ) / (12 : ℕ))) 0 ∂perfectMeasure)
      (Var[fun s => Real.exp (-(1/20 * 1)) * max (100 - (∏ i ∈ Finset.range 12, X i s) ^ ((1 : ℝ) / (12 : ℕ))) 0; perfectMeasure] / N) := by
  have hk : Simulatable (1 / (12 : ℕ)) (.heston 2 (1/25) (3/10) (-7/10) (1/25) cirExplicitEuler) := by
    intro dt kappa theta sigmaV
    simp only [cirExplicitEuler, Fl.max_real, Fl.sqrt_real, Fl.lit_real]
    fun_prop
  have hS : (0 : ℝ) < (⟨100, 1/5, none, 1/20⟩ : View ℝ).price := by norm_num
  obtain ⟨X, h1, h2, h3⟩ := C65_path randomSource_perfectGen hS 1 (steps := 12) (by decide) hk
  refine ⟨X, h1, C70_estimator (C70_asian randomSource_perfectGen hS (by decide) hk (f := fun x => max (100 - x) 0) (by fun_prop) (putValue 100) h1).2 ?_
    trivial hN⟩
  refine MemLp.of_bound (by fun_prop : Measurable _).aestronglyMeasurable 100 (.of_forall fun s => ?_)
  have : 0 ≤ ∏ i ∈ Finset.range 12, X i s := Finset.prod_nonneg fun i hi => (h3 i (by simpa using hi) s).le
  rw [Real.norm_eq_abs, abs_of_nonneg (le_max_right _ _)]
  exact max_le (by have := Real.rpow_nonneg this ((1 : ℝ) / (12 : ℕ)); linarith) (by norm_num)

end Verif
