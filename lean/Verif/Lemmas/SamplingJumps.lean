import Verif.Lemmas.SamplingModels

/-!
# The Kou and variance gamma loops with a perfect generator
-/

namespace Verif
open MeasureTheory ProbabilityTheory Function
open scoped ENNReal

variable {G : Type} [MeasurableSpace G] {μ : Measure G} [IsProbabilityMeasure μ]

namespace Sim
open Spec
variable {g : Gen G ℝ} {count : ℝ → Measure ℕ}

/-! ## Kou -/

theorem valid_uniform (a b : ℝ) : ValidLaw (Dist.law (Dist.uniform a b)) := by simp [Dist.law, ValidLaw]

theorem lintegral_law_uniform (a b : ℝ) {p : ℝ} (h0 : 0 ≤ p) (h1 : p ≤ 1) (A B : ℝ≥0∞) :
    ∫⁻ u, (if u < p then A else B) ∂stdMeasure count (Dist.law (Dist.uniform a b)) = ENNReal.ofReal p * A + ENNReal.ofReal (1 - p) * B := by
  rw [← lintegral_uniform h0 h1 A B]
  simp [Dist.law, stdMeasure]

/-- The jump of Kou after the uniform draw. -/
theorem random_kouUp (hg : RandomSource g μ count) (p : ℝ) {eta1 : ℝ} (he1 : 0 < eta1) :
    Random μ fun q : ℝ × ℝ => (if Fl.lt q.2 p then (do
      let up ← draw g (.exponential eta1)
      return q.1 + up) else return q.1 : Eff G ℝ) := by
  refine Random.ite ?_ ?_ (Random.pure measurable_fst)
  · simp only [Fl.lt_real]
    exact measurableSet_lt measurable_snd measurable_const
  · exact (random_draw hg (d := .exponential eta1) he1).bind (Random.pure (k := fun q : (ℝ × ℝ) × ℝ => q.1.1 + q.2) (by fun_prop))

theorem random_kouDown (hg : RandomSource g μ count) {eta2 : ℝ} (he2 : 0 < eta2) :
    Random μ fun acc : ℝ => (draw g (.exponential eta2) >>= fun down => (pure (acc + -down) : Eff G ℝ)) :=
  (random_draw hg (d := .exponential eta2) he2).bind (Random.pure (k := fun q : ℝ × ℝ => q.1 + -q.2) (by fun_prop))

theorem random_kouJump (hg : RandomSource g μ count) (p a b : ℝ) {eta1 eta2 : ℝ} (he1 : 0 < eta1) (he2 : 0 < eta2) :
    Random μ (kouJump g p (.uniform a b) (.exponential eta1) (.exponential eta2)) :=
  (random_draw hg (valid_uniform a b)).bind ((random_kouUp hg p he1).bind ((random_kouDown hg he2).comp measurable_snd))

theorem expect_kouDown (hg : RandomSource g μ count) {eta2 : ℝ} (he2 : 0 < eta2) (acc : ℝ) :
    expect μ (draw g (.exponential eta2) >>= fun down => (pure (acc + -down) : Eff G ℝ)) (fun j => ENNReal.ofReal (Real.exp j)) =
      ENNReal.ofReal (eta2 / (eta2 + 1)) * ENNReal.ofReal (Real.exp acc) := by
  rw [expect_map, expect_draw hg (d := .exponential eta2) he2 (by fun_prop)]
  simp only [Real.exp_add acc, ENNReal.ofReal_mul (Real.exp_pos acc).le]
  rw [lintegral_const_mul _ (by fun_prop), mul_comm]
  congr 1
  have h := lintegral_exp_expMeasure he2 (b := -1) (by linarith)
  simp only [neg_mul, one_mul, sub_neg_eq_add] at h
  exact h

theorem expect_kouUp (hg : RandomSource g μ count) {eta1 : ℝ} (he1 : 1 < eta1) (J : ℝ) :
    expect μ (draw g (.exponential eta1) >>= fun up => (pure (J + up) : Eff G ℝ)) (fun j => ENNReal.ofReal (Real.exp j)) =
      ENNReal.ofReal (eta1 / (eta1 - 1)) * ENNReal.ofReal (Real.exp J) := by
  have he1' : 0 < eta1 := by linarith
  rw [expect_map, expect_draw hg (d := .exponential eta1) he1' (by fun_prop)]
  simp only [Real.exp_add J, ENNReal.ofReal_mul (Real.exp_pos J).le]
  rw [lintegral_const_mul _ (by fun_prop), mul_comm]
  congr 1
  have h := lintegral_exp_expMeasure he1' he1
  simp only [one_mul] at h
  exact h

/-- Expected factor of one jump in the code: the down jump is always applied. -/
noncomputable def kouFactor (p eta1 eta2 : ℝ) : ℝ := (p * (eta1 / (eta1 - 1)) + (1 - p)) * (eta2 / (eta2 + 1))

theorem expect_kouJump (hg : RandomSource g μ count) {p : ℝ} (h0 : 0 ≤ p) (h1 : p ≤ 1) (a b : ℝ) {eta1 eta2 : ℝ} (he1 : 1 < eta1) (he2 : 0 < eta2) (J : ℝ) :
    expect μ (kouJump g p (.uniform a b) (.exponential eta1) (.exponential eta2) J) (fun j => ENNReal.ofReal (Real.exp j)) =
      ENNReal.ofReal (kouFactor p eta1 eta2) * ENNReal.ofReal (Real.exp J) := by
  have he1' : 0 < eta1 := by linarith
  have ru := random_kouUp hg p he1'
  have rd := random_kouDown hg he2
  have hexp : Measurable fun j : ℝ => ENNReal.ofReal (Real.exp j) := by fun_prop
  unfold kouJump
  rw [expect_draw_bind hg (valid_uniform a b) ((ru.comp (k := fun U => (J, U)) (by fun_prop)).bind (rd.comp measurable_snd)) hexp]
  have e : ∀ U, expect μ ((if Fl.lt U p then (do
      let up ← draw g (.exponential eta1)
      return J + up) else return J : Eff G ℝ) >>= fun acc => draw g (.exponential eta2) >>= fun down => (pure (acc + -down) : Eff G ℝ))
      (fun j => ENNReal.ofReal (Real.exp j)) =
      if U < p then ENNReal.ofReal (eta2 / (eta2 + 1)) * (ENNReal.ofReal (eta1 / (eta1 - 1)) * ENNReal.ofReal (Real.exp J))
        else ENNReal.ofReal (eta2 / (eta2 + 1)) * ENNReal.ofReal (Real.exp J) := by
    intro U
    rw [expect_bind' (ru.comp (k := fun _ : Unit => (J, U)) (by fun_prop)) rd hexp]
    simp only [expect_kouDown hg he2]
    rw [expect_const_mul (ru.comp (k := fun _ : Unit => (J, U)) (by fun_prop)) () hexp]
    by_cases hU : U < p
    · simp only [hU, if_true, (Fl.lt_real U p).mpr hU]
      rw [expect_kouUp hg he1]
    · have : ¬ (Fl.lt U p = true) := fun h => hU ((Fl.lt_real U p).mp h)
      simp only [hU, if_false, this, Bool.false_eq_true]
      rw [expect_pure]
  refine (lintegral_congr e).trans ?_
  rw [lintegral_law_uniform a b h0 h1]
  have p1 : 0 ≤ eta1 / (eta1 - 1) := div_nonneg he1'.le (by linarith)
  have p2 : 0 ≤ eta2 / (eta2 + 1) := by positivity
  have q1 : 0 ≤ 1 - p := by linarith
  rw [← ENNReal.ofReal_mul p1, ← ENNReal.ofReal_mul p2, ← ENNReal.ofReal_mul p2, ← ENNReal.ofReal_mul h0, ← ENNReal.ofReal_mul q1,
    ← ENNReal.ofReal_mul (by unfold kouFactor; positivity), ← ENNReal.ofReal_add (by positivity) (by positivity)]
  congr 1
  unfold kouFactor
  ring

theorem measurable_kouUpdate (v : View ℝ) (lambda muJ dt : ℝ) : Measurable fun p : ℝ × ℝ × ℝ => kouUpdate v lambda muJ dt p.1 p.2.1 p.2.2 := by
  simp only [kouUpdate, Fl.exp_real, Fl.sqrt_real, Fl.lit_real]
  fun_prop

theorem random_kouRest (hg : RandomSource g μ count) (v : View ℝ) (lambda muJ dt p a b : ℝ) {eta1 eta2 : ℝ} (he1 : 0 < eta1) (he2 : 0 < eta2) :
    Random μ fun q : (ℝ × ℝ) × ℕ => Eff.forN (kouJump g p (.uniform a b) (.exponential eta1) (.exponential eta2)) q.2 (lit 0) >>= fun J =>
      (pure (kouUpdate v lambda muJ dt q.1.1 q.1.2 J, kouUpdate v lambda muJ dt q.1.1 q.1.2 J) : Eff G (ℝ × ℝ)) := by
  refine ((random_kouJump hg p a b he1 he2).forN_count.comp (k := fun q : (ℝ × ℝ) × ℕ => (q.2, lit 0)) (by fun_prop)).bind
    (Random.pure (k := fun q : ((ℝ × ℝ) × ℕ) × ℝ => (kouUpdate v lambda muJ dt q.1.1.1 q.1.1.2 q.2, kouUpdate v lambda muJ dt q.1.1.1 q.1.1.2 q.2)) ?_)
  have m1 : Measurable fun q : ((ℝ × ℝ) × ℕ) × ℝ => kouUpdate v lambda muJ dt q.1.1.1 q.1.1.2 q.2 :=
    (measurable_kouUpdate v lambda muJ dt).comp (by fun_prop : Measurable fun q : ((ℝ × ℝ) × ℕ) × ℝ => (q.1.1.1, q.1.1.2, q.2))
  exact m1.prodMk m1

theorem random_kouStep (hg : RandomSource g μ count) (v : View ℝ) (lambda muJ dt p a b : ℝ) {mean : ℝ} (hm : 0 < mean) {eta1 eta2 : ℝ}
    (he1 : 0 < eta1) (he2 : 0 < eta2) :
    Random μ (kouStep g v lambda p muJ dt .stdNormal (.poisson mean) (.uniform a b) (.exponential eta1) (.exponential eta2)) :=
  (random_draw hg valid_stdNormal).bind ((random_drawCount hg hm).bind (random_kouRest hg v lambda muJ dt p a b he1 he2))

theorem expect_kouStep (hg : RandomSource g μ count) (v : View ℝ) (lambda muJ a b : ℝ) {dt : ℝ} (hdt : 0 ≤ dt) {mean : ℝ} (hm : 0 < mean)
    {p : ℝ} (h0 : 0 ≤ p) (h1 : p ≤ 1) {eta1 eta2 : ℝ} (he1 : 1 < eta1) (he2 : 0 < eta2) (S : ℝ) :
    expect μ (kouStep g v lambda p muJ dt .stdNormal (.poisson mean) (.uniform a b) (.exponential eta1) (.exponential eta2) S) (fun x => ENNReal.ofReal x.2) =
      ENNReal.ofReal (Real.exp ((v.r - v.c - lambda * (muJ - 1)) * dt)) * jumpFactor count mean (kouFactor p eta1 eta2) * ENNReal.ofReal S := by
  have he1' : 0 < eta1 := by linarith
  have r := random_kouRest hg v lambda muJ dt p a b he1' he2
  have hexp : Measurable fun j : ℝ => ENNReal.ofReal (Real.exp j) := by fun_prop
  unfold kouStep
  rw [expect_draw_bind hg valid_stdNormal ((random_drawCount hg hm).bind (r.comp (k := fun p : ℝ × ℕ => ((S, p.1), p.2)) (by fun_prop))) (by fun_prop)]
  have e1 : ∀ z, expect μ (drawCount g (.poisson mean) >>= fun n => Eff.forN (kouJump g p (.uniform a b) (.exponential eta1) (.exponential eta2)) n (lit 0) >>= fun J =>
      (pure (kouUpdate v lambda muJ dt S z J, kouUpdate v lambda muJ dt S z J) : Eff G (ℝ × ℝ))) (fun x => ENNReal.ofReal x.2) =
      ENNReal.ofReal S * ENNReal.ofReal (Real.exp ((v.r - v.c - 1 / 2 * v.sigma * v.sigma - lambda * (muJ - 1)) * dt)) *
        jumpFactor count mean (kouFactor p eta1 eta2) * ENNReal.ofReal (Real.exp (v.sigma * Real.sqrt dt * z)) := by
    intro z
    rw [expect_drawCount_bind hg hm (r.comp (k := fun n : ℕ => ((S, z), n)) (by fun_prop)) (by fun_prop)]
    have e2 : ∀ n, expect μ (Eff.forN (kouJump g p (.uniform a b) (.exponential eta1) (.exponential eta2)) n (lit 0) >>= fun J =>
        (pure (kouUpdate v lambda muJ dt S z J, kouUpdate v lambda muJ dt S z J) : Eff G (ℝ × ℝ))) (fun x => ENNReal.ofReal x.2) =
        ENNReal.ofReal S * ENNReal.ofReal (Real.exp ((v.r - v.c - 1 / 2 * v.sigma * v.sigma - lambda * (muJ - 1)) * dt)) *
          ENNReal.ofReal (Real.exp (v.sigma * Real.sqrt dt * z)) * ENNReal.ofReal (kouFactor p eta1 eta2) ^ n := by
      intro n
      rw [expect_map]
      have e3 : ∀ J, ENNReal.ofReal (kouUpdate v lambda muJ dt S z J, kouUpdate v lambda muJ dt S z J).2 =
          (ENNReal.ofReal S * ENNReal.ofReal (Real.exp ((v.r - v.c - 1 / 2 * v.sigma * v.sigma - lambda * (muJ - 1)) * dt)) *
          ENNReal.ofReal (Real.exp (v.sigma * Real.sqrt dt * z))) * ENNReal.ofReal (Real.exp J) := by
        intro J
        rw [← ENNReal.ofReal_mul' (Real.exp_pos _).le, ← ENNReal.ofReal_mul' (Real.exp_pos _).le, ← ENNReal.ofReal_mul' (Real.exp_pos _).le,
          mul_assoc, mul_assoc, ← Real.exp_add, ← Real.exp_add]
        simp only [kouUpdate, Fl.exp_real, Fl.sqrt_real, Fl.lit_real, Rat.cast_div, Rat.cast_one, Rat.cast_ofNat]
        congr 3
        ring
      simp only [e3]
      have hj := (random_kouJump hg p a b he1' he2).forN n
      rw [expect_const_mul hj _ hexp, expect_forN (random_kouJump hg p a b he1' he2) hexp (expect_kouJump hg h0 h1 a b he1 he2)]
      simp
    simp only [e2]
    rw [lintegral_const_mul _ measurable_from_nat]
    unfold jumpFactor
    ring
  refine (lintegral_congr e1).trans ?_
  rw [lintegral_const_mul _ (by fun_prop), lintegral_exp_stdNormal, mul_pow, Real.sq_sqrt hdt]
  have : ENNReal.ofReal (Real.exp ((v.r - v.c - lambda * (muJ - 1)) * dt)) =
      ENNReal.ofReal (Real.exp ((v.r - v.c - 1 / 2 * v.sigma * v.sigma - lambda * (muJ - 1)) * dt)) *
      ENNReal.ofReal (Real.exp (v.sigma ^ 2 * dt / 2)) := by
    rw [← ENNReal.ofReal_mul' (Real.exp_pos _).le, ← Real.exp_add]
    congr 2
    ring
  rw [this]
  ring

/-! ## Variance gamma -/

theorem measurable_vgUpdate (v : View ℝ) (theta omega dt : ℝ) : Measurable fun p : ℝ × ℝ × ℝ => vgUpdate v theta omega dt p.1 p.2.1 p.2.2 := by
  simp only [vgUpdate, Fl.exp_real, Fl.sqrt_real, Fl.lit_real]
  fun_prop

theorem valid_gamma {a b : ℝ} (ha : 0 < a) (hb : 0 < b) : ValidLaw (Dist.law (Dist.gamma a b)) := by
  simp [Dist.law, ValidLaw, ha, hb]

theorem random_vgStep (hg : RandomSource g μ count) (v : View ℝ) (theta omega dt : ℝ) {a b : ℝ} (ha : 0 < a) (hb : 0 < b) :
    Random μ (vgStep g v theta omega dt (.gamma a b) .stdNormal) := by
  refine (random_draw hg (valid_gamma ha hb)).bind ((random_draw hg valid_stdNormal).bind (Random.pure (k := fun p : (ℝ × ℝ) × ℝ =>
    (vgUpdate v theta omega dt p.1.1 p.1.2 p.2, vgUpdate v theta omega dt p.1.1 p.1.2 p.2)) ?_))
  have m1 : Measurable fun p : (ℝ × ℝ) × ℝ => vgUpdate v theta omega dt p.1.1 p.1.2 p.2 :=
    (measurable_vgUpdate v theta omega dt).comp (by fun_prop : Measurable fun p : (ℝ × ℝ) × ℝ => (p.1.1, p.1.2, p.2))
  exact m1.prodMk m1

theorem expect_vgStep (hg : RandomSource g μ count) (v : View ℝ) (theta omega dt : ℝ) {a b : ℝ} (ha : 0 < a) (hb : 0 < b) (S : ℝ) :
    expect μ (vgStep g v theta omega dt (.gamma a b) .stdNormal S) (fun x => ENNReal.ofReal x.2) =
      ENNReal.ofReal (Real.exp ((v.r - v.c + omega) * dt)) *
        (∫⁻ x, ENNReal.ofReal (Real.exp ((theta + v.sigma ^ 2 / 2) * x)) ∂gammaMeasure a b) * ENNReal.ofReal S := by
  have m1 : Measurable fun p : ℝ × ℝ => vgUpdate v theta omega dt S p.1 p.2 :=
    (measurable_vgUpdate v theta omega dt).comp (by fun_prop : Measurable fun p : ℝ × ℝ => (S, p.1, p.2))
  unfold vgStep
  rw [expect_draw_bind hg (valid_gamma ha hb) ((random_draw hg valid_stdNormal).bind (Random.pure (k := fun p : ℝ × ℝ =>
    (vgUpdate v theta omega dt S p.1 p.2, vgUpdate v theta omega dt S p.1 p.2)) (m1.prodMk m1))) (by fun_prop)]
  have hlaw : stdMeasure count (Dist.law (Dist.gamma a b)) = gammaMeasure a b := by
    simp [Dist.law, stdMeasure]
  rw [hlaw]
  have hae : ∀ᵐ x ∂gammaMeasure a b, 0 ≤ x := by
    rw [ae_iff]
    unfold gammaMeasure
    have hs : {x : ℝ | ¬ 0 ≤ x} = Set.Iio 0 := by ext x; simp
    rw [hs, withDensity_apply _ measurableSet_Iio]
    exact lintegral_gammaPDF_of_nonpos le_rfl
  have e : ∀ x, 0 ≤ x → expect μ (draw g .stdNormal >>= fun z => (pure (vgUpdate v theta omega dt S x z, vgUpdate v theta omega dt S x z) : Eff G (ℝ × ℝ)))
      (fun x => ENNReal.ofReal x.2) = ENNReal.ofReal S * ENNReal.ofReal (Real.exp ((v.r - v.c + omega) * dt)) *
        ENNReal.ofReal (Real.exp ((theta + v.sigma ^ 2 / 2) * x)) := by
    intro x hx
    rw [expect_map]
    refine (expect_draw hg valid_stdNormal (m1.comp measurable_prodMk_left).ennreal_ofReal).trans ?_
    have e2 : ∀ z, ENNReal.ofReal (((fun p : ℝ × ℝ => vgUpdate v theta omega dt S p.1 p.2) ∘ Prod.mk x) z) =
        ENNReal.ofReal S * ENNReal.ofReal (Real.exp ((v.r - v.c + omega) * dt)) * ENNReal.ofReal (Real.exp (theta * x)) *
          ENNReal.ofReal (Real.exp (v.sigma * Real.sqrt x * z)) := by
      intro z
      rw [← ENNReal.ofReal_mul' (Real.exp_pos _).le, ← ENNReal.ofReal_mul' (Real.exp_pos _).le, ← ENNReal.ofReal_mul' (Real.exp_pos _).le,
        mul_assoc, mul_assoc, ← Real.exp_add, ← Real.exp_add]
      simp only [vgUpdate, Fl.exp_real, Fl.sqrt_real, comp]
    simp only [e2]
    rw [lintegral_const_mul _ (by fun_prop), lintegral_exp_stdNormal, mul_pow, Real.sq_sqrt hx, mul_assoc, mul_assoc, mul_assoc,
      ← ENNReal.ofReal_mul' (Real.exp_pos _).le (p := Real.exp (theta * x)), ← Real.exp_add]
    congr 4
    ring
  rw [lintegral_congr_ae (hae.mono e), lintegral_const_mul _ (by fun_prop)]
  ring

end Sim
end Verif
