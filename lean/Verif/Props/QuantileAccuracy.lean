import Verif.Props.QuasiMonteCarlo
import Verif.Props.MainProgram
import Verif.Props.ClosedForm
import Verif.Lemmas.QuantileTail
import Verif.Lemmas.Hybrid
import Mathlib.Probability.ProductMeasure
import Mathlib.Probability.Independence.InfinitePi

/-!
# Property C79: `inv_cdf` is the normal quantile function up to half a billionth
-/

namespace Verif
open MeasureTheory ProbabilityTheory Filter Topology Spec

/-! ## The error of the approximation -/

theorem lowerQuantile_error {u : ℝ} (h0 : 0 < u) (h1 : u ≤ 1 / 2) : |Phi (lowerQuantile u) - u| ≤ 1 / 2000000000 := by
  unfold lowerQuantile
  split
  · have := Central.error (x := u - 1 / 2) (abs_le.mpr ⟨by linarith, by linarith⟩)
    rwa [show 1 / 2 + (u - 1 / 2) = u by ring] at this
  · rename_i h
    have hl : Real.log u ≤ Real.log (8 / 100) := Real.log_le_log h0 (not_lt.mp h)
    have h4 : 0 < -Real.log (8 / 100 : ℝ) := by
      have := Real.log_neg (x := 8 / 100) (by norm_num) (by norm_num); linarith
    have := Tail.error (r := Real.log (-Real.log u)) (Real.log_le_log h4 (by linarith))
    rwa [Real.exp_log (by linarith), neg_neg, Real.exp_log h0, ← Tail.tail_eq] at this

theorem quantile_error {u : ℝ} (h0 : 0 < u) (h1 : u < 1) : |Phi (quantile u) - u| ≤ 1 / 2000000000 := by
  unfold quantile
  split
  · have := lowerQuantile_error (u := 1 - u) (by linarith) (by linarith)
    rw [Phi_neg]
    rwa [← abs_neg, show -(Phi (lowerQuantile (1 - u)) - (1 - u)) = 1 - Phi (lowerQuantile (1 - u)) - u by ring] at this
  · exact lowerQuantile_error h0 (by linarith)

/-- **C79.** In exact arithmetic `inv_cdf` returns, for every probability, a number whose normal distribution function differs
from the probability by at most half a billionth. -/
theorem C79_accuracy (u : ℝ) (h0 : 0 < u) (h1 : u < 1) : ∃ z, moroInvCdf u = .ok z ∧ |cdf (gaussianReal 0 1) z - u| ≤ 1 / 2000000000 :=
  ⟨_, moroInvCdf_real h0 h1, quantile_error h0 h1⟩

/-- The law of `inv_cdf` at a uniform draw. -/
noncomputable def quantileLaw : Measure ℝ := (volume.restrict (Set.Ioo 0 1)).map quantile

instance : IsProbabilityMeasure (volume.restrict (Set.Ioo (0 : ℝ) 1)) := ⟨by simp⟩

instance : IsProbabilityMeasure quantileLaw := Measure.isProbabilityMeasure_map measurable_quantile.aemeasurable

theorem quantileLaw_lower (L : Set ℝ) (hm : MeasurableSet L) (hL : IsLowerSet L) :
    |quantileLaw.real L - (gaussianReal 0 1).real L| ≤ 1 / 2000000000 := by
  set G := (gaussianReal 0 1).real L
  have hG0 : 0 ≤ G := measureReal_nonneg
  have hG1 : G ≤ 1 := measureReal_le_one
  have e : quantileLaw.real L = volume.real (quantile ⁻¹' L ∩ Set.Ioo 0 1) := by
    rw [quantileLaw, map_measureReal_apply measurable_quantile hm, measureReal_restrict_apply (measurable_quantile hm)]
  have hPhi : ∀ x, Phi x = (gaussianReal 0 1).real (Set.Iic x) := fun x => cdf_eq_real _ x
  have hin : ∀ u, 0 < u → u < 1 → quantile u ∈ L → u ≤ G + 1 / 2000000000 := fun u h0 h1 hu => by
    have h2 : Phi (quantile u) ≤ G := by
      rw [hPhi]; exact measureReal_mono fun x hx => hL hx hu
    have := (abs_le.mp (quantile_error h0 h1)).1
    linarith
  have hout : ∀ u, 0 < u → u < 1 → quantile u ∉ L → G - 1 / 2000000000 ≤ u := fun u h0 h1 hu => by
    have h2 : G ≤ Phi (quantile u) := by
      rw [hPhi]; exact measureReal_mono fun x hx => by
        by_contra hc
        exact hu (hL (not_le.mp hc).le hx)
    have := (abs_le.mp (quantile_error h0 h1)).2
    linarith
  rw [e, abs_le]
  constructor
  · have hs : Set.Ioo 0 (G - 1 / 2000000000) ⊆ quantile ⁻¹' L ∩ Set.Ioo 0 1 := fun u hu => by
      have h1 : u < 1 := by linarith [hu.2]
      refine ⟨?_, hu.1, h1⟩
      by_contra hc
      linarith [hout u hu.1 h1 hc, hu.2]
    have := measureReal_mono hs (μ := volume) (measure_ne_top_of_subset Set.inter_subset_right (by simp))
    rw [Real.volume_real_Ioo] at this
    linarith [le_max_left (G - 1 / 2000000000 - 0) 0]
  · have hs : quantile ⁻¹' L ∩ Set.Ioo 0 1 ⊆ Set.Ioc 0 (G + 1 / 2000000000) := fun u hu => ⟨hu.2.1, hin u hu.2.1 hu.2.2 hu.1⟩
    have := measureReal_mono hs (μ := volume) (by simp)
    rw [Real.volume_real_Ioc, max_eq_left (by linarith)] at this
    linarith

/-- **C79.** Applied to a uniform draw, `inv_cdf` has the standard normal law up to half a billionth: the probability of a result
of at most `x` differs by no more than that from the normal distribution function, whatever `x`. -/
theorem C79_law {Z : ℝ → ℝ} (hZ : ∀ u, 0 < u → u < 1 → moroInvCdf u = .ok (Z u)) (x : ℝ) :
    |volume.real {u | 0 < u ∧ u < 1 ∧ Z u ≤ x} - cdf (gaussianReal 0 1) x| ≤ 1 / 2000000000 := by
  have h := quantileLaw_lower (Set.Iic x) measurableSet_Iic (isLowerSet_Iic x)
  rw [← cdf_eq_real (gaussianReal 0 1), quantileLaw, map_measureReal_apply measurable_quantile measurableSet_Iic,
    measureReal_restrict_apply (measurable_quantile measurableSet_Iic)] at h
  have e : {u | 0 < u ∧ u < 1 ∧ Z u ≤ x} = quantile ⁻¹' Set.Iic x ∩ Set.Ioo 0 1 := by
    ext u
    simp only [Set.mem_setOf_eq, Set.mem_inter_iff, Set.mem_preimage, Set.mem_Iic, Set.mem_Ioo]
    constructor
    · rintro ⟨a, b, c⟩
      have := (hZ u a b).symm.trans (moroInvCdf_real a b)
      rw [Res.ok.injEq] at this
      exact ⟨this ▸ c, a, b⟩
    · rintro ⟨c, a, b⟩
      have := (hZ u a b).symm.trans (moroInvCdf_real a b)
      rw [Res.ok.injEq] at this
      exact ⟨a, b, this ▸ c⟩
  rw [e]
  exact h

/-! ## Quasi Monte Carlo prices and exact prices -/

theorem setIntegral_cube (d : ℕ) {g : (Fin d → ℝ) → ℝ} (hg : Measurable g) :
    ∫ u in cube d, g (fun j => quantile (u j)) = ∫ z, g z ∂(Measure.pi fun _ : Fin d => quantileLaw) := by
  have hm : Measurable fun (u : Fin d → ℝ) j => quantile (u j) := measurable_pi_lambda _ fun j => measurable_quantile.comp (measurable_pi_apply j)
  have h1 : Measure.map (fun (u : Fin d → ℝ) j => quantile (u j)) (volume.restrict (cube d)) = Measure.pi fun _ => quantileLaw := by
    rw [cube_eq, volume_pi, Measure.restrict_pi_pi]
    haveI : ∀ _ : Fin d, SigmaFinite ((volume.restrict (Set.Ioo (0 : ℝ) 1)).map quantile) := fun _ => by
      change SigmaFinite quantileLaw; infer_instance
    rw [Measure.pi_map_pi (f := fun _ : Fin d => quantile) fun _ => measurable_quantile.aemeasurable]
    rfl
  rw [← h1, integral_map hm.aemeasurable hg.aestronglyMeasurable]

theorem quasiPath_comp {d : ℕ} (S r c σ T : ℝ) (Z : ℝ → ℝ) (u : Fin d → ℝ) : quasiPath S r c σ T Z u = quasiPath S r c σ T id fun j => Z (u j) := rfl

theorem quasiPath_monotone {d : ℕ} {S : ℝ} (hS : 0 ≤ S) (r c : ℝ) {σ : ℝ} (hσ : 0 ≤ σ) (T : ℝ) : Monotone (quasiPath (d := d) S r c σ T id) := by
  intro z w h k
  unfold quasiPath
  have := Finset.sum_le_sum (s := Finset.Iic k) fun j _ => h j
  simp only [id]
  gcongr

/-- The error of the integral of a bounded monotone payoff of an increasing mean of the path. -/
theorem quasi_error {d : ℕ} {S : ℝ} (hS : 0 < S) (r c : ℝ) {σ : ℝ} (hσ : 0 ≤ σ) (T : ℝ) {m : (Fin d → ℝ) → ℝ} (hm : Measurable m)
    (hmono : ∀ p p' : Fin d → ℝ, (∀ k, 0 < p k) → (∀ k, p k ≤ p' k) → 0 < m p ∧ m p ≤ m p') {f : ℝ → ℝ} (hf : Measurable f) {B : ℝ}
    (hB : ∀ x > 0, 0 ≤ f x ∧ f x ≤ B) (hmon : AntitoneOn f (Set.Ioi 0) ∨ MonotoneOn f (Set.Ioi 0)) :
    |(∫ u in cube d, f (m (quasiPath S r c σ T quantile u))) -
      ∫ z, f (m (quasiPath S r c σ T id z)) ∂(Measure.pi fun _ : Fin d => gaussianReal 0 1)| ≤ B * (d * (1 / 2000000000)) := by
  let g : (Fin d → ℝ) → ℝ := fun z => f (m (quasiPath S r c σ T id z))
  have hp : Measurable fun z : Fin d → ℝ => quasiPath S r c σ T id z := by
    refine measurable_pi_lambda _ fun k => ?_
    unfold quasiPath
    fun_prop
  have hg : Measurable g := hf.comp (hm.comp hp)
  have hpos : ∀ z, 0 < m (quasiPath S r c σ T id z) := fun z => (hmono _ _ (fun k => quasiPath_pos hS _ _ _ _ _ _ k) fun k => le_rfl).1
  have hle : ∀ z w, z ≤ w → m (quasiPath S r c σ T id z) ≤ m (quasiPath S r c σ T id w) := fun z w h =>
    (hmono _ _ (fun k => quasiPath_pos hS _ _ _ _ _ _ k) (quasiPath_monotone hS.le r c hσ T h)).2
  have e := setIntegral_cube d hg
  change |(∫ u in cube d, g fun j => quantile (u j)) - ∫ z, g z ∂_| ≤ _
  rw [e]
  rcases hmon with h | h
  · exact hybrid_integral quantileLaw_lower hg (fun z w hzw => h (hpos z) (hpos w) (hle z w hzw)) fun z => hB _ (hpos z)
  · have h' := hybrid_integral (d := d) quantileLaw_lower (h := fun z => B - g z) (by fun_prop)
      (fun z w hzw => sub_le_sub_left (h (hpos z) (hpos w) (hle z w hzw)) B) (B := B)
      fun z => ⟨by linarith [(hB _ (hpos z)).2], by linarith [(hB _ (hpos z)).1]⟩
    have hi : ∀ ρ : Measure (Fin d → ℝ), IsProbabilityMeasure ρ → Integrable g ρ := fun ρ _ =>
      Integrable.of_bound hg.aestronglyMeasurable B (.of_forall fun z => by
        rw [Real.norm_eq_abs, abs_of_nonneg (hB _ (hpos z)).1]; exact (hB _ (hpos z)).2)
    rw [integral_sub (integrable_const _) (hi _ inferInstance), integral_sub (integrable_const _) (hi _ inferInstance)] at h'
    simp only [integral_const, probReal_univ, one_smul] at h'
    rw [← abs_neg] at h'
    convert h' using 2
    ring

section
variable {Q : Type} {q : Quasi.Sequence Q ℝ} {dim seed : ℕ} {s0 : Q} {P : ℕ → Fin dim → ℝ}

/-- **C79.** If the points of the sequence are uniformly distributed in the open unit cube, the quasi Monte Carlo prices of an
Asian option with a bounded monotone payoff converge to a limit that differs from the exact price, the discounted expectation of
the payoff in the Black-Scholes model, by at most half a billionth of the discounted bound per date. -/
theorem C79_asian (h0 : 0 < dim) (hm : dim ≤ INT_MAX) (hq : q.seeded dim seed = .ok s0) (hP : Yields q.generate s0 P)
    (hx : Equidistributed fun n j => P n j / q.scale) (hc : ∀ n, (fun j => P n j / q.scale) ∈ cube dim) :
    ∃ st, Quasi.construct q dim seed = .ok st ∧ ∀ (v : View ℝ) (T : ℝ), 0 < v.price → 0 < v.sigma → 0 < T →
      ∀ (f : ℝ → ℝ) (pay : ℝ → Res ℝ) (B : ℝ), (∀ x, pay x = .ok (f x)) → Measurable f → (∀ x > 0, 0 ≤ f x ∧ f x ≤ B) →
      (AntitoneOn f (Set.Ioi 0) ∨ MonotoneOn f (Set.Ioi 0)) →
      (∃ (Y : ℕ → ℝ) (l : ℝ), (∀ N, (MC.asian .arithmetic (modelSource (Quasi.gen q) dim v .gbm) (Eff.lift (.ok v.r)) pay T N st).1 = .ok (Y N)) ∧
        Tendsto Y atTop (𝓝 l) ∧
        |l - Real.exp (-(v.r * T)) * ∫ z, f ((∑ k, quasiPath v.price v.r (v.coupon.getD 0) v.sigma T id z k) / dim)
          ∂(Measure.pi fun _ : Fin dim => gaussianReal 0 1)| ≤ Real.exp (-(v.r * T)) * B * dim / 2000000000) ∧
      (∃ (Y : ℕ → ℝ) (l : ℝ), (∀ N, (MC.asian .geometric (modelSource (Quasi.gen q) dim v .gbm) (Eff.lift (.ok v.r)) pay T N st).1 = .ok (Y N)) ∧
        Tendsto Y atTop (𝓝 l) ∧
        |l - Real.exp (-(v.r * T)) * ∫ z, f ((∏ k, quasiPath v.price v.r (v.coupon.getD 0) v.sigma T id z k) ^ ((1 : ℝ) / dim))
          ∂(Measure.pi fun _ : Fin dim => gaussianReal 0 1)| ≤ Real.exp (-(v.r * T)) * B * dim / 2000000000) := by
  obtain ⟨st, h1, h2⟩ := C77_limit_partial h0 hm hq hP (Z := quantile) (fun u => moroInvCdf_real) hx hc
  refine ⟨st, h1, fun v T hS hσ hT f pay B hpay hf hB hmon => ?_⟩
  have hD : {x ∈ Set.Ioi (0 : ℝ) | ¬ ContinuousWithinAt f (Set.Ioi 0) x}.Countable :=
    hmon.elim (fun h => h.countable_not_continuousWithinAt) fun h => h.countable_not_continuousWithinAt
  obtain ⟨⟨Y, hY, tY⟩, ⟨Y', hY', tY'⟩⟩ := h2 v T hS hσ.ne' hT f pay hpay hf ⟨B, fun x hx => abs_le.mpr ⟨by linarith [hB x hx], (hB x hx).2⟩⟩ _ hD
    fun x hx hn => (by_contra fun h => hn ⟨hx, h⟩ : ContinuousWithinAt f (Set.Ioi 0) x).continuousAt (Ioi_mem_nhds hx)
  have hd : (0 : ℝ) < dim := by exact_mod_cast h0
  have final : ∀ a b : ℝ, |a - b| ≤ B * (dim * (1 / 2000000000)) →
      |Real.exp (-(v.r * T)) * a - Real.exp (-(v.r * T)) * b| ≤ Real.exp (-(v.r * T)) * B * dim / 2000000000 := fun a b h => by
    rw [← mul_sub, abs_mul, abs_of_pos (Real.exp_pos _)]
    refine (mul_le_mul_of_nonneg_left h (Real.exp_pos _).le).trans (le_of_eq ?_)
    ring
  refine ⟨⟨Y, _, hY, tY, final _ _ ?_⟩, ⟨Y', _, hY', tY', final _ _ ?_⟩⟩
  · refine quasi_error hS _ _ hσ.le T (m := fun p => (∑ k, p k) / dim) (by fun_prop) (fun p p' hp hpp => ⟨?_, ?_⟩) hf hB hmon
    · exact div_pos (Finset.sum_pos (fun k _ => hp k) ⟨⟨0, h0⟩, Finset.mem_univ _⟩) hd
    · exact div_le_div_of_nonneg_right (Finset.sum_le_sum fun k _ => hpp k) hd.le
  · refine quasi_error hS _ _ hσ.le T (m := fun p => (∏ k, p k) ^ ((1 : ℝ) / dim))
      ((Finset.measurable_prod _ fun k _ => measurable_pi_apply k).pow_const _) (fun p p' hp hpp => ⟨?_, ?_⟩) hf hB hmon
    · exact Real.rpow_pos_of_pos (Finset.prod_pos fun k _ => hp k) _
    · exact Real.rpow_le_rpow (Finset.prod_nonneg fun k _ => (hp k).le) (Finset.prod_le_prod (fun k _ => (hp k).le) fun k _ => hpp k) (by positivity)

/-- **C79.** The limit of the quasi Monte Carlo prices of an arithmetic Asian put is the exact price up to half a billionth of the
discounted strike per date. -/
theorem C79_put (h0 : 0 < dim) (hm : dim ≤ INT_MAX) (hq : q.seeded dim seed = .ok s0) (hP : Yields q.generate s0 P)
    (hx : Equidistributed fun n j => P n j / q.scale) (hc : ∀ n, (fun j => P n j / q.scale) ∈ cube dim) {v : View ℝ} {T K : ℝ}
    (hS : 0 < v.price) (hσ : 0 < v.sigma) (hT : 0 < T) (hK : 0 < K) :
    ∃ st, Quasi.construct q dim seed = .ok st ∧ ∃ (Y : ℕ → ℝ) (l : ℝ),
      (∀ N, (MC.asian .arithmetic (modelSource (Quasi.gen q) dim v .gbm) (Eff.lift (.ok v.r)) (Payoff.vanilla .put K).eval1 T N st).1 = .ok (Y N)) ∧
      Tendsto Y atTop (𝓝 l) ∧
      |l - Real.exp (-(v.r * T)) * ∫ z, max (K - (∑ k, quasiPath v.price v.r (v.coupon.getD 0) v.sigma T id z k) / dim) 0
        ∂(Measure.pi fun _ : Fin dim => gaussianReal 0 1)| ≤ Real.exp (-(v.r * T)) * K * dim / 2000000000 := by
  obtain ⟨st, h1, h2⟩ := C79_asian h0 hm hq hP hx hc
  refine ⟨st, h1, (h2 v T hS hσ hT (fun x => max (K - x) 0) _ K (fun x => put_eval K x) (by fun_prop)
    (fun x hx => ⟨le_max_right _ _, max_le (by linarith) hK.le⟩) (.inl fun x _ y _ hxy => ?_)).1⟩
  exact max_le_max (by linarith) le_rfl

theorem iidNormal_infinitePi : IidNormal (Measure.infinitePi fun _ : ℕ => gaussianReal 0 1) fun i ω => ω i where
  measurable i := measurable_pi_apply i
  law i := Measure.infinitePi_map_eval _ i
  indep := iIndepFun_infinitePi (X := fun _ u => u) fun _ => measurable_id

theorem integral_geometricPut {n : ℕ} (hn : 0 < n) (v : View ℝ) (hS : 0 < v.price) (hσ : 0 < v.sigma) {T : ℝ} (hT : 0 < T) {K : ℝ} (hK : 0 < K) :
    Real.exp (-(v.r * T)) * ∫ z, max (K - (∏ k, quasiPath v.price v.r (v.coupon.getD 0) v.sigma T id z k) ^ ((1 : ℝ) / n)) 0
      ∂(Measure.pi fun _ : Fin n => gaussianReal 0 1) = geometricAsianPut v.price v.sigma v.r (v.coupon.getD 0) T K n := by
  letI : FlInf ℝ := ⟨0⟩
  let μ := Measure.infinitePi fun _ : ℕ => gaussianReal 0 1
  let Z : ℕ → (ℕ → ℝ) → ℝ := fun i ω => ω i
  have hZ : IidNormal μ Z := iidNormal_infinitePi
  let G : (ℕ → ℝ) → ℝ := fun ω => (∏ j ∈ Finset.range n, gbmPrice v T n Z 0 j ω) ^ ((1 : ℝ) / n)
  have mG : Measurable G := measurable_geometricMean hZ v T n
  have e : μ.map G = (gaussianReal 0 1).map (blackScholesPrice (meanView v n) T) := map_geometricMean hZ v hS hT.le hn
  have hvec : Measurable fun (ω : ℕ → ℝ) (j : Fin n) => Z j ω := measurable_pi_lambda _ fun j => hZ.measurable j
  have hmeas : Measurable fun z : Fin n → ℝ => max (K - (∏ k, quasiPath v.price v.r (v.coupon.getD 0) v.sigma T id z k) ^ ((1 : ℝ) / n)) 0 := by
    unfold quasiPath
    fun_prop
  have hG : ∀ ω, (∏ k, quasiPath v.price v.r (v.coupon.getD 0) v.sigma T id (fun j : Fin n => Z j ω) k) ^ ((1 : ℝ) / n) = G ω := fun ω => by
    simp only [G, ← gbmPrice_quasiPath]
    rw [Finset.prod_range]
  rw [← hZ.map_vector, integral_map hvec.aemeasurable hmeas.aestronglyMeasurable]
  simp only [hG]
  have hB := integral_blackScholesPrice (meanView v n) hT.le
  rw [integral_of_map mG e (f := fun y => max (K - y) 0) (by fun_prop)]
  have hpar : ∀ z, max (K - blackScholesPrice (meanView v n) T z) 0 =
      max (blackScholesPrice (meanView v n) T z - K) 0 - (blackScholesPrice (meanView v n) T z - K) := by
    intro z
    rcases le_total K (blackScholesPrice (meanView v n) T z) with h | h
    · rw [max_eq_right (by linarith), max_eq_left (by linarith)]; ring
    · rw [max_eq_left (by linarith), max_eq_right (by linarith)]; ring
  simp only [hpar]
  have i1 : Integrable (fun z => blackScholesPrice (meanView v n) T z - K) (gaussianReal 0 1) := hB.1.sub (integrable_const K)
  rw [integral_sub i1.pos_part i1, integral_call (meanView v n) hS hT (meanSigma_pos hσ hn) hK, integral_sub hB.1 (integrable_const K), hB.2]
  simp only [geometricAsianPut, meanView, Option.getD_none, sub_zero, add_sub_cancel_right, integral_const, probReal_univ, one_smul]
  ring

/-- **C79.** The limit of the quasi Monte Carlo prices of a geometric Asian put is the value of the closed formula up to half a
billionth of the discounted strike per date. -/
theorem C79_geometricPut (h0 : 0 < dim) (hm : dim ≤ INT_MAX) (hq : q.seeded dim seed = .ok s0) (hP : Yields q.generate s0 P)
    (hx : Equidistributed fun n j => P n j / q.scale) (hc : ∀ n, (fun j => P n j / q.scale) ∈ cube dim) {v : View ℝ} {T K : ℝ}
    (hS : 0 < v.price) (hσ : 0 < v.sigma) (hT : 0 < T) (hK : 0 < K) :
    ∃ st, Quasi.construct q dim seed = .ok st ∧ ∃ (Y : ℕ → ℝ) (l : ℝ),
      (∀ N, (MC.asian .geometric (modelSource (Quasi.gen q) dim v .gbm) (Eff.lift (.ok v.r)) (Payoff.vanilla .put K).eval1 T N st).1 = .ok (Y N)) ∧
      Tendsto Y atTop (𝓝 l) ∧
      |l - geometricAsianPut v.price v.sigma v.r (v.coupon.getD 0) T K dim| ≤ Real.exp (-(v.r * T)) * K * dim / 2000000000 := by
  obtain ⟨st, h1, h2⟩ := C79_asian h0 hm hq hP hx hc
  rw [← integral_geometricPut h0 v hS hσ hT hK]
  refine ⟨st, h1, (h2 v T hS hσ hT (fun x => max (K - x) 0) _ K (fun x => put_eval K x) (by fun_prop)
    (fun x hx => ⟨le_max_right _ _, max_le (by linarith) hK.le⟩) (.inl fun x _ y _ hxy => ?_)).2⟩
  exact max_le_max (by linarith) le_rfl

end

/-! ## Examples -/

/-- Deep in the tail: the probability of a crash of one in a million. -/
example : ∃ z, moroInvCdf (1 / 1000000 : ℝ) = .ok z ∧ |cdf (gaussianReal 0 1) z - 1 / 1000000| ≤ 1 / 2000000000 :=
  C79_accuracy _ (by norm_num) (by norm_num)

/-- Half of the draws are negative, up to half a billionth. -/
example : |volume.real {u | 0 < u ∧ u < 1 ∧ quantile u ≤ 0} - 1 / 2| ≤ 1 / 2000000000 := by
  have := C79_law (Z := quantile) (fun u => moroInvCdf_real) 0
  rwa [show cdf (gaussianReal 0 1) 0 = 1 / 2 from Phi_zero] at this

/-- A year of daily prices: 252 dates, strike 100.  The limit is within two ten-thousandths of a cent of the closed formula. -/
example : ∃ (P : ℕ → Fin 252 → ℝ) (st : Quasi.State ℕ ℝ) (Y : ℕ → ℝ) (l : ℝ), Quasi.construct (pointSeq P) 252 7 = .ok st ∧
    (∀ N, (MC.asian .geometric (modelSource (Quasi.gen (pointSeq P)) 252 ⟨100, 1 / 5, none, 1 / 20⟩ .gbm) (Eff.lift (.ok (1 / 20)))
      (Payoff.vanilla .put (100 : ℝ)).eval1 1 N st).1 = .ok (Y N)) ∧
    Tendsto Y atTop (𝓝 l) ∧ |l - geometricAsianPut 100 (1 / 5) (1 / 20) 0 1 100 252| ≤ 2 / 100000 := by
  obtain ⟨x, hx, hxc⟩ := exists_equidistributed 252
  have e : (fun n j => x n j / (pointSeq x).scale) = x := by funext n j; exact div_one _
  obtain ⟨st, h1, Y, l, h2, h3, h4⟩ := C79_geometricPut (q := pointSeq x) (dim := 252) (seed := 7) (by norm_num) (by norm_num [INT_MAX]) rfl
    (pointSeq_yields x) (by rw [e]; exact hx) (fun n => by rw [show (fun j => x n j / (pointSeq x).scale) = x n from congrFun e n]; exact hxc n)
    (v := ⟨100, 1 / 5, none, 1 / 20⟩) (T := 1) (K := 100) (by norm_num) (by norm_num) (by norm_num) (by norm_num)
  refine ⟨x, st, Y, l, h1, h2, h3, h4.trans ?_⟩
  have : Real.exp (-(1 / 20 * 1)) ≤ 1 := Real.exp_le_one_iff.mpr (by norm_num)
  simp only
  push_cast
  linarith

/-- The same for an arithmetic Asian put on 12 dates. -/
example : ∃ (P : ℕ → Fin 12 → ℝ) (st : Quasi.State ℕ ℝ) (Y : ℕ → ℝ) (l : ℝ), Quasi.construct (pointSeq P) 12 7 = .ok st ∧
    (∀ N, (MC.asian .arithmetic (modelSource (Quasi.gen (pointSeq P)) 12 ⟨100, 1 / 5, none, 1 / 20⟩ .gbm) (Eff.lift (.ok (1 / 20)))
      (Payoff.vanilla .put (100 : ℝ)).eval1 1 N st).1 = .ok (Y N)) ∧
    Tendsto Y atTop (𝓝 l) ∧ |l - Real.exp (-(1 / 20 * 1)) * ∫ z, max (100 - (∑ k, quasiPath 100 (1 / 20) 0 (1 / 5) 1 id z k) / 12) 0
      ∂(Measure.pi fun _ : Fin 12 => gaussianReal 0 1)| ≤ 1 / 1000000 := by
  obtain ⟨x, hx, hxc⟩ := exists_equidistributed 12
  have e : (fun n j => x n j / (pointSeq x).scale) = x := by funext n j; exact div_one _
  obtain ⟨st, h1, Y, l, h2, h3, h4⟩ := C79_put (q := pointSeq x) (dim := 12) (seed := 7) (by norm_num) (by norm_num [INT_MAX]) rfl
    (pointSeq_yields x) (by rw [e]; exact hx) (fun n => by rw [show (fun j => x n j / (pointSeq x).scale) = x n from congrFun e n]; exact hxc n)
    (v := ⟨100, 1 / 5, none, 1 / 20⟩) (T := 1) (K := 100) (by norm_num) (by norm_num) (by norm_num) (by norm_num)
  refine ⟨x, st, Y, l, h1, h2, h3, ?_⟩
  have : Real.exp (-(1 / 20 * 1)) ≤ 1 := Real.exp_le_one_iff.mpr (by norm_num)
  simp only [Option.getD_none] at h4
  push_cast at h4
  refine h4.trans ?_
  linarith

end Verif
