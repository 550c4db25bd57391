import Verif.Lemmas.SamplingLoops
import Verif.Lemmas.Laws
import Verif.Lemmas.StockModel
import Verif.Lemmas.MonteCarlo
import Mathlib.MeasureTheory.Function.Floor

/-!
# The simulation loops of the stock models with a perfect generator
-/

namespace Verif
open MeasureTheory ProbabilityTheory Function
open scoped ENNReal

variable {α β γ G : Type} [MeasurableSpace α] [MeasurableSpace β] [MeasurableSpace γ] [MeasurableSpace G]
variable {μ : Measure G} [IsProbabilityMeasure μ]

/-! ## Small steps -/

theorem expect_bind' {e : Eff G β} {k : β → Eff G γ} (h : Random μ fun _ : Unit => e) (h' : Random μ k) {φ : γ → ℝ≥0∞} (hφ : Measurable φ) :
    expect μ (e >>= k) φ = expect μ e fun b => expect μ (k b) φ :=
  expect_bind (f := fun _ : Unit => e) (g := fun _ => k) h (h'.comp measurable_snd) () hφ

omit [MeasurableSpace β] [MeasurableSpace γ] [IsProbabilityMeasure μ] in
theorem expect_map (e : Eff G β) (f : β → γ) (φ : γ → ℝ≥0∞) : expect μ (e >>= fun b => pure (f b)) φ = expect μ e fun b => φ (f b) := by
  unfold expect
  refine lintegral_congr fun s => ?_
  rcases hs : e s with ⟨r, s'⟩
  cases r with
  | ok b => rw [Eff.bind_of_ok hs]; rfl
  | throw _ => rw [Eff.bind_of_throw hs]
  | ub => rw [Eff.bind_of_ub hs]

theorem expect_forN {body : α → Eff G α} (h : Random μ body) {w : α → ℝ≥0∞} (hw : Measurable w) {c : ℝ≥0∞}
    (hc : ∀ a, expect μ (body a) w = c * w a) : ∀ (n : ℕ) (a : α), expect μ (Eff.forN body n a) w = c ^ n * w a
  | 0, a => by simp [Eff.forN, expect_pure]
  | n + 1, a => by
    show expect μ (body a >>= fun a' => Eff.forN body n a') w = _
    rw [expect_bind' (h.comp (measurable_const (a := a))) (h.forN n) hw]
    simp only [expect_forN h hw hc n]
    rw [expect_const_mul h a hw, hc, pow_succ, mul_assoc]

/-- A change of the state before the run. -/
def Eff.after (m : G → G) (e : Eff G β) : Eff G β := fun s => e (m s)

theorem Random.after {f : α → Eff G β} (h : Random μ f) {m : G → G} (hm : MeasurePreserving m μ μ) : Random μ fun a => Eff.after m (f a) := by
  obtain ⟨y, t, h⟩ := h
  have my : Measurable fun p : α × G => y p.1 p.2 := h.measurable_y
  have mt : Measurable fun p : α × G => t p.1 p.2 := h.measurable_t
  have hm' := hm.measurable
  refine ⟨fun a s => y a (m s), fun a s => t a (m s), Sampled.of_lintegral ?_ ?_ (fun a s => h.run a (m s)) fun a φ hφ => ?_⟩
  · exact my.comp (measurable_fst.prodMk (hm'.comp measurable_snd))
  · exact mt.comp (measurable_fst.prodMk (hm'.comp measurable_snd))
  · have m1 := h.measurable_ya a
    have m2 := h.measurable_ta a
    have e1 := hm.lintegral_comp (f := fun s => φ (y a s, t a s)) (hφ.comp (m1.prodMk m2))
    have mφ : Measurable fun c : β => ∫⁻ s', φ (c, s') ∂μ := Measurable.lintegral_prod_right' hφ
    have e2 := hm.lintegral_comp (f := fun s => ∫⁻ s', φ (y a s, s') ∂μ) (mφ.comp m1)
    rw [e1, e2]
    exact h.lintegral a hφ

theorem expect_after {e : Eff G β} (h : Random μ fun _ : Unit => e) {m : G → G} (hm : MeasurePreserving m μ μ) {φ : β → ℝ≥0∞} (hφ : Measurable φ) :
    expect μ (Eff.after m e) φ = expect μ e φ := by
  obtain ⟨y, t, h⟩ := h
  rw [Random.expect_eq (f := fun _ : Unit => e) h ()]
  have : expect μ (Eff.after m e) φ = ∫⁻ s, φ (y () (m s)) ∂μ := by
    unfold expect
    refine lintegral_congr fun s => ?_
    have := h.run () (m s)
    simp only [Eff.after] at this ⊢
    rw [this]
  rw [this]
  exact hm.lintegral_comp (f := fun s => φ (y () s)) (hφ.comp (h.measurable_ya ()))

namespace Sim
open Spec
variable {g : Gen G ℝ} {count : ℝ → Measure ℕ}

omit [MeasurableSpace β] in
theorem newDist_bind (d : Dist ℝ) (k : Dist ℝ → Eff G β) : (newDist g (.ok d) >>= k) = Eff.after (g.newDist d) (k d) := rfl

theorem random_draw (hg : RandomSource g μ count) {d : Dist ℝ} (hd : ValidLaw d.law) : Random μ fun _ : α => draw g d := by
  obtain ⟨x, t, hx, ht, hr, hm⟩ := hg.draw d hd
  refine ⟨fun _ => x, fun _ => t, hx.comp measurable_snd, ht.comp measurable_snd, fun _ => hr, fun _ => ?_⟩
  have : μ.map x = stdMeasure count d.law := by
    have h1 : (μ.map fun s => (x s, t s)).map Prod.fst = μ.map x := by
      rw [Measure.map_map measurable_fst (hx.prodMk ht)]; rfl
    rw [← h1, hm, Measure.map_fst_prod]
    simp
  rw [hm, this]

theorem expect_draw (hg : RandomSource g μ count) {d : Dist ℝ} (hd : ValidLaw d.law) {φ : ℝ → ℝ≥0∞} (hφ : Measurable φ) :
    expect μ (draw g d) φ = ∫⁻ x, φ x ∂stdMeasure count d.law := by
  obtain ⟨x, t, hx, ht, hr, hm⟩ := hg.draw d hd
  have h1 : μ.map x = stdMeasure count d.law := by
    have h1 : (μ.map fun s => (x s, t s)).map Prod.fst = μ.map x := by
      rw [Measure.map_map measurable_fst (hx.prodMk ht)]; rfl
    rw [← h1, hm, Measure.map_fst_prod]
    simp
  rw [← h1, lintegral_map hφ hx]
  unfold expect draw
  refine lintegral_congr fun s => ?_
  rw [hr]

theorem expect_draw_bind (hg : RandomSource g μ count) {d : Dist ℝ} (hd : ValidLaw d.law) {k : ℝ → Eff G β} (hk : Random μ k) {φ : β → ℝ≥0∞}
    (hφ : Measurable φ) : expect μ (draw g d >>= k) φ = ∫⁻ x, expect μ (k x) φ ∂stdMeasure count d.law := by
  rw [expect_bind' (random_draw hg hd) hk hφ, expect_draw hg hd]
  exact hk.measurable_expect (φ := fun q => φ q.2) (by fun_prop)

theorem toInt_natCast {n : ℕ} (h : n ≤ INT_MAX) : FlInt.toInt (n : ℝ) = some (n : ℤ) := by
  have h' : n ≤ 2147483647 := h
  have : (n : ℤ) ≤ 2147483647 := by exact_mod_cast h'
  simp [FlInt.toInt, truncInt, this]

theorem drawCount_run (hg : RandomSource g μ count) {mean : ℝ} (hm : 0 < mean) : ∃ (x : G → ℝ) (t : G → G), Measurable x ∧ Measurable t ∧
    (∀ s, drawCount g (.poisson mean) s = (.ok ⌊x s⌋₊, t s)) ∧
    μ.map (fun s => (x s, t s)) = ((count mean).map fun n : ℕ => (n : ℝ)).prod μ := by
  obtain ⟨x, t, hx, ht, hr, hm'⟩ := hg.draw (.poisson mean) hm
  refine ⟨x, t, hx, ht, fun s => ?_, hm'⟩
  obtain ⟨n, hn, e⟩ := hg.integer mean s (t s) (x s) hm (hr s)
  unfold drawCount
  rw [Eff.bind_of_ok (show draw g (.poisson mean) s = (.ok (x s), t s) from hr s), e, toInt_natCast hn]
  simp

theorem map_fst_count {mean : ℝ} {x : G → ℝ} {t : G → G} (hx : Measurable x) (ht : Measurable t)
    (h : μ.map (fun s => (x s, t s)) = ((count mean).map fun n : ℕ => (n : ℝ)).prod μ) : μ.map (fun s => ⌊x s⌋₊) = count mean := by
  have h1 : (μ.map fun s => (x s, t s)).map Prod.fst = μ.map x := by
    rw [Measure.map_map measurable_fst (hx.prodMk ht)]; rfl
  have h2 : μ.map x = (count mean).map fun n : ℕ => (n : ℝ) := by
    rw [← h1, h, Measure.map_fst_prod]
    simp
  have h3 : μ.map (fun s => ⌊x s⌋₊) = (μ.map x).map fun r : ℝ => ⌊r⌋₊ := by
    rw [Measure.map_map Nat.measurable_floor hx]; rfl
  rw [h3, h2, Measure.map_map Nat.measurable_floor measurable_from_nat]
  have : ((fun r : ℝ => ⌊r⌋₊) ∘ fun n : ℕ => (n : ℝ)) = id := by funext n; simp
  rw [this, Measure.map_id]

theorem random_drawCount (hg : RandomSource g μ count) {mean : ℝ} (hm : 0 < mean) : Random μ fun _ : α => drawCount g (.poisson mean) := by
  obtain ⟨x, t, hx, ht, hr, hm'⟩ := drawCount_run hg hm
  have hf : Measurable fun s => ⌊x s⌋₊ := Nat.measurable_floor.comp hx
  refine ⟨fun _ s => ⌊x s⌋₊, fun _ => t, hf.comp measurable_snd, ht.comp measurable_snd, fun _ => hr, fun _ => ?_⟩
  rw [map_fst_count hx ht hm']
  have h3 : μ.map (fun s => (⌊x s⌋₊, t s)) = (μ.map fun s => (x s, t s)).map (Prod.map (fun r : ℝ => ⌊r⌋₊) id) := by
    rw [Measure.map_map (Nat.measurable_floor.prodMap measurable_id) (hx.prodMk ht)]; rfl
  rw [h3, hm']
  haveI : IsProbabilityMeasure (count mean) := by
    rw [← map_fst_count hx ht hm']
    exact Measure.isProbabilityMeasure_map hf.aemeasurable
  haveI : IsProbabilityMeasure ((count mean).map fun n : ℕ => (n : ℝ)) := Measure.isProbabilityMeasure_map measurable_from_nat.aemeasurable
  rw [← Measure.map_prod_map _ _ Nat.measurable_floor measurable_id, Measure.map_map Nat.measurable_floor measurable_from_nat, Measure.map_id]
  have : ((fun r : ℝ => ⌊r⌋₊) ∘ fun n : ℕ => (n : ℝ)) = id := by funext n; simp
  rw [this, Measure.map_id]

theorem expect_drawCount (hg : RandomSource g μ count) {mean : ℝ} (hm : 0 < mean) (φ : ℕ → ℝ≥0∞) :
    expect μ (drawCount g (.poisson mean)) φ = ∫⁻ n, φ n ∂count mean := by
  obtain ⟨x, t, hx, ht, hr, hm'⟩ := drawCount_run hg hm
  rw [← map_fst_count hx ht hm', lintegral_map measurable_from_nat (show Measurable (fun s => ⌊x s⌋₊) from Nat.measurable_floor.comp hx)]
  unfold expect
  refine lintegral_congr fun s => ?_
  rw [hr]

theorem expect_drawCount_bind (hg : RandomSource g μ count) {mean : ℝ} (hm : 0 < mean) {k : ℕ → Eff G β} (hk : Random μ k) {φ : β → ℝ≥0∞}
    (hφ : Measurable φ) : expect μ (drawCount g (.poisson mean) >>= k) φ = ∫⁻ n, expect μ (k n) φ ∂count mean := by
  rw [expect_bind' (random_drawCount hg hm) hk hφ, expect_drawCount hg hm]

/-! ## Geometric Brownian motion -/

theorem valid_stdNormal : ValidLaw (Dist.law (Dist.stdNormal : Dist ℝ)) := by simp [Dist.law, ValidLaw]

theorem random_gbmStep (hg : RandomSource g μ count) (v : View ℝ) (dt : ℝ) : Random μ (gbmStep g v dt .stdNormal) := by
  refine (random_draw hg valid_stdNormal).bind (Random.pure (k := fun p : ℝ × ℝ => (gbmUpdate v dt p.1 p.2, gbmUpdate v dt p.1 p.2)) ?_)
  simp only [gbmUpdate, Fl.exp_real, Fl.sqrt_real]
  fun_prop

theorem expect_gbmStep (hg : RandomSource g μ count) (v : View ℝ) {dt : ℝ} (hdt : 0 ≤ dt) (S : ℝ) :
    expect μ (gbmStep g v dt .stdNormal S) (fun x => ENNReal.ofReal x.2) = ENNReal.ofReal (Real.exp ((v.r - v.c) * dt)) * ENNReal.ofReal S := by
  unfold gbmStep
  rw [expect_map, expect_draw hg valid_stdNormal (by simp only [gbmUpdate, Fl.exp_real, Fl.sqrt_real]; fun_prop)]
  have e : ∀ z, ENNReal.ofReal (gbmUpdate v dt S z) = ENNReal.ofReal S * ENNReal.ofReal (Real.exp ((v.r - v.c - 1 / 2 * v.sigma * v.sigma) * dt)) *
      ENNReal.ofReal (Real.exp (v.sigma * Real.sqrt dt * z)) := by
    intro z
    rw [← ENNReal.ofReal_mul' (Real.exp_pos _).le, ← ENNReal.ofReal_mul' (Real.exp_pos _).le, mul_assoc, ← Real.exp_add]
    simp [gbmUpdate]
  simp only [e]
  rw [lintegral_const_mul _ (by fun_prop), lintegral_exp_stdNormal, mul_comm (ENNReal.ofReal S), mul_right_comm,
    ← ENNReal.ofReal_mul' (Real.exp_pos _).le, ← Real.exp_add, mul_pow, Real.sq_sqrt hdt]
  congr 3
  ring

/-! ## Heston -/

/-- The variance update can be simulated: it is a measurable function of the variance and the draw. -/
def _root_.Verif.CIR.MeasurableUpdate (disc : CIR ℝ) : Prop := ∀ dt kappa theta sigmaV, Measurable fun p : ℝ × ℝ => disc.update p.1 dt kappa theta sigmaV p.2

theorem measurable_svUpdate (v : View ℝ) (rho dt : ℝ) : Measurable fun p : (ℝ × ℝ) × ℝ × ℝ => svUpdate v rho dt p.1.1 p.1.2 p.2.1 p.2.2 := by
  simp only [svUpdate, Fl.exp_real, Fl.sqrt_real, Fl.max_real, Fl.lit_real]
  fun_prop

theorem random_hestonStep (hg : RandomSource g μ count) (v : View ℝ) (kappa theta sigmaV rho : ℝ) {disc : CIR ℝ} (hd : disc.MeasurableUpdate) (dt : ℝ) :
    Random μ (hestonStep g v kappa theta sigmaV rho disc dt .stdNormal) := by
  refine (random_draw hg valid_stdNormal).bind ((random_draw hg valid_stdNormal).bind (Random.pure (k := fun p : ((ℝ × ℝ) × ℝ) × ℝ =>
    ((svUpdate v rho dt p.1.1.1 p.1.1.2 p.1.2 p.2, disc.update p.1.1.2 dt kappa theta sigmaV p.1.2), svUpdate v rho dt p.1.1.1 p.1.1.2 p.1.2 p.2)) ?_))
  have m1 : Measurable fun p : ((ℝ × ℝ) × ℝ) × ℝ => svUpdate v rho dt p.1.1.1 p.1.1.2 p.1.2 p.2 :=
    (measurable_svUpdate v rho dt).comp (by fun_prop : Measurable fun p : ((ℝ × ℝ) × ℝ) × ℝ => (p.1.1, p.1.2, p.2))
  have m2 : Measurable fun p : ((ℝ × ℝ) × ℝ) × ℝ => disc.update p.1.1.2 dt kappa theta sigmaV p.1.2 :=
    (hd dt kappa theta sigmaV).comp (by fun_prop : Measurable fun p : ((ℝ × ℝ) × ℝ) × ℝ => (p.1.1.2, p.1.2))
  exact (m1.prodMk m2).prodMk m1

theorem lintegral_svUpdate (v : View ℝ) {rho : ℝ} (h1 : -1 ≤ rho) (h2 : rho ≤ 1) {dt : ℝ} (hdt : 0 ≤ dt) (S V : ℝ) :
    ∫⁻ z1, ∫⁻ z2, ENNReal.ofReal (svUpdate v rho dt S V z1 z2) ∂stdMeasure count (Dist.law Dist.stdNormal)
      ∂stdMeasure count (Dist.law Dist.stdNormal) = ENNReal.ofReal (Real.exp ((v.r - v.c) * dt)) * ENNReal.ofReal S := by
  have hr : 0 ≤ 1 - rho * rho := by nlinarith
  have hV : 0 ≤ max V 0 * dt := mul_nonneg (le_max_right _ _) hdt
  have e : ∀ z1 z2, ENNReal.ofReal (svUpdate v rho dt S V z1 z2) =
      ENNReal.ofReal S * ENNReal.ofReal (Real.exp ((v.r - v.c - 1 / 2 * max V 0) * dt)) *
      ENNReal.ofReal (Real.exp (Real.sqrt (max V 0 * dt) * rho * z1)) *
      ENNReal.ofReal (Real.exp (Real.sqrt (max V 0 * dt) * Real.sqrt (1 - rho * rho) * z2)) := by
    intro z1 z2
    rw [← ENNReal.ofReal_mul' (Real.exp_pos _).le, ← ENNReal.ofReal_mul' (Real.exp_pos _).le, ← ENNReal.ofReal_mul' (Real.exp_pos _).le,
      mul_assoc, mul_assoc, ← Real.exp_add, ← Real.exp_add]
    simp only [svUpdate, Fl.exp_real, Fl.sqrt_real, Fl.max_real, Fl.lit_real, Rat.cast_zero, Rat.cast_one, Rat.cast_div, Rat.cast_ofNat]
    congr 3
    ring
  simp only [e]
  have e2 : ∀ z1, ∫⁻ z2, ENNReal.ofReal S * ENNReal.ofReal (Real.exp ((v.r - v.c - 1 / 2 * max V 0) * dt)) *
      ENNReal.ofReal (Real.exp (Real.sqrt (max V 0 * dt) * rho * z1)) *
      ENNReal.ofReal (Real.exp (Real.sqrt (max V 0 * dt) * Real.sqrt (1 - rho * rho) * z2)) ∂stdMeasure count (Dist.law Dist.stdNormal) =
      (ENNReal.ofReal S * ENNReal.ofReal (Real.exp ((v.r - v.c - 1 / 2 * max V 0) * dt)) *
        ENNReal.ofReal (Real.exp ((Real.sqrt (max V 0 * dt) * Real.sqrt (1 - rho * rho)) ^ 2 / 2))) *
      ENNReal.ofReal (Real.exp (Real.sqrt (max V 0 * dt) * rho * z1)) := by
    intro z1
    rw [lintegral_const_mul _ (by fun_prop), lintegral_exp_stdNormal]
    ring
  simp only [e2]
  rw [lintegral_const_mul _ (by fun_prop), lintegral_exp_stdNormal, mul_assoc, mul_assoc, mul_comm (ENNReal.ofReal S),
    ← ENNReal.ofReal_mul' (Real.exp_pos _).le, ← ENNReal.ofReal_mul' (by positivity), ← Real.exp_add, ← Real.exp_add, mul_pow, mul_pow,
    Real.sq_sqrt hV, Real.sq_sqrt hr]
  congr 3
  ring

theorem expect_hestonStep (hg : RandomSource g μ count) (v : View ℝ) (kappa theta sigmaV : ℝ) {rho : ℝ} (h1 : -1 ≤ rho) (h2 : rho ≤ 1)
    {disc : CIR ℝ} (hd : disc.MeasurableUpdate) {dt : ℝ} (hdt : 0 ≤ dt) (x : ℝ × ℝ) :
    expect μ (hestonStep g v kappa theta sigmaV rho disc dt .stdNormal x) (fun x => ENNReal.ofReal x.2) =
      ENNReal.ofReal (Real.exp ((v.r - v.c) * dt)) * ENNReal.ofReal x.1 := by
  have m1 : Measurable fun p : ℝ × ℝ => svUpdate v rho dt x.1 x.2 p.1 p.2 :=
    (measurable_svUpdate v rho dt).comp (by fun_prop : Measurable fun p : ℝ × ℝ => (x, p.1, p.2))
  have m2 : Measurable fun p : ℝ × ℝ => disc.update x.2 dt kappa theta sigmaV p.1 :=
    (hd dt kappa theta sigmaV).comp (by fun_prop : Measurable fun p : ℝ × ℝ => (x.2, p.1))
  unfold hestonStep
  rw [expect_draw_bind hg valid_stdNormal ((random_draw hg valid_stdNormal).bind (Random.pure (k := fun p : ℝ × ℝ => ((svUpdate v rho dt x.1 x.2 p.1 p.2,
    disc.update x.2 dt kappa theta sigmaV p.1), svUpdate v rho dt x.1 x.2 p.1 p.2)) ((m1.prodMk m2).prodMk m1))) (by fun_prop)]
  rw [← lintegral_svUpdate (count := count) v h1 h2 hdt x.1 x.2]
  refine lintegral_congr fun z1 => ?_
  rw [expect_map]
  exact expect_draw hg valid_stdNormal (m1.comp measurable_prodMk_left).ennreal_ofReal

/-! ## Merton -/

theorem measurable_mertonUpdate (v : View ℝ) (dt : ℝ) : Measurable fun p : ℝ × ℝ × ℝ => mertonUpdate v dt p.1 p.2.1 p.2.2 := by
  simp only [mertonUpdate, Fl.exp_real, Fl.sqrt_real, Fl.lit_real]
  fun_prop

theorem random_mertonJump (hg : RandomSource g μ count) (muJ : ℝ) {sigmaJ : ℝ} (hs : 0 < sigmaJ) :
    Random μ (mertonJump g (.normal muJ sigmaJ)) :=
  (random_draw hg (d := .normal muJ sigmaJ) hs).bind (Random.pure (k := fun p : ℝ × ℝ => p.1 + p.2) (by fun_prop))

theorem expect_mertonJump (hg : RandomSource g μ count) (muJ : ℝ) {sigmaJ : ℝ} (hs : 0 < sigmaJ) (J : ℝ) :
    expect μ (mertonJump g (.normal muJ sigmaJ) J) (fun j => ENNReal.ofReal (Real.exp j)) =
      ENNReal.ofReal (Real.exp (muJ + sigmaJ ^ 2 / 2)) * ENNReal.ofReal (Real.exp J) := by
  unfold mertonJump
  rw [expect_map, expect_draw hg (d := .normal muJ sigmaJ) hs (by fun_prop)]
  simp only [Real.exp_add J, ENNReal.ofReal_mul (Real.exp_pos J).le]
  rw [lintegral_const_mul _ (by fun_prop), mul_comm]
  congr 1
  have h := lintegral_exp_gaussian muJ ⟨sigmaJ ^ 2, sq_nonneg sigmaJ⟩ 1
  simp only [one_mul, mul_one, one_pow] at h
  exact h

/-- The part of the Merton step after the two first draws. -/
theorem random_mertonRest (hg : RandomSource g μ count) (v : View ℝ) (dt muJ : ℝ) {sigmaJ : ℝ} (hs : 0 < sigmaJ) :
    Random μ fun p : (ℝ × ℝ) × ℕ => Eff.forN (mertonJump g (.normal muJ sigmaJ)) p.2 (lit 0) >>= fun J =>
      (pure (mertonUpdate v dt p.1.1 p.1.2 J, mertonUpdate v dt p.1.1 p.1.2 J) : Eff G (ℝ × ℝ)) := by
  refine ((random_mertonJump hg muJ hs).forN_count.comp (k := fun p : (ℝ × ℝ) × ℕ => (p.2, lit 0)) (by fun_prop)).bind
    (Random.pure (k := fun p : ((ℝ × ℝ) × ℕ) × ℝ => (mertonUpdate v dt p.1.1.1 p.1.1.2 p.2, mertonUpdate v dt p.1.1.1 p.1.1.2 p.2)) ?_)
  have m1 : Measurable fun p : ((ℝ × ℝ) × ℕ) × ℝ => mertonUpdate v dt p.1.1.1 p.1.1.2 p.2 :=
    (measurable_mertonUpdate v dt).comp (by fun_prop : Measurable fun p : ((ℝ × ℝ) × ℕ) × ℝ => (p.1.1.1, p.1.1.2, p.2))
  exact m1.prodMk m1

theorem random_mertonStep (hg : RandomSource g μ count) (v : View ℝ) (dt : ℝ) {mean : ℝ} (hm : 0 < mean) (muJ : ℝ) {sigmaJ : ℝ} (hs : 0 < sigmaJ) :
    Random μ (mertonStep g v dt .stdNormal (.poisson mean) (.normal muJ sigmaJ)) :=
  (random_draw hg valid_stdNormal).bind ((random_drawCount hg hm).bind (random_mertonRest hg v dt muJ hs))

/-- Probability generating function of the number of jumps in a step. -/
noncomputable def jumpFactor (count : ℝ → Measure ℕ) (mean m : ℝ) : ℝ≥0∞ := ∫⁻ n, ENNReal.ofReal m ^ n ∂count mean

theorem expect_mertonStep (hg : RandomSource g μ count) (v : View ℝ) {dt : ℝ} (hdt : 0 ≤ dt) {mean : ℝ} (hm : 0 < mean) (muJ : ℝ) {sigmaJ : ℝ}
    (hs : 0 < sigmaJ) (S : ℝ) :
    expect μ (mertonStep g v dt .stdNormal (.poisson mean) (.normal muJ sigmaJ) S) (fun x => ENNReal.ofReal x.2) =
      ENNReal.ofReal (Real.exp ((v.r - v.c) * dt)) * jumpFactor count mean (Real.exp (muJ + sigmaJ ^ 2 / 2)) * ENNReal.ofReal S := by
  have r := random_mertonRest hg v dt muJ hs
  unfold mertonStep
  rw [expect_draw_bind hg valid_stdNormal ((random_drawCount hg hm).bind (r.comp (k := fun p : ℝ × ℕ => ((S, p.1), p.2)) (by fun_prop))) (by fun_prop)]
  have e1 : ∀ z, expect μ (drawCount g (.poisson mean) >>= fun n => Eff.forN (mertonJump g (.normal muJ sigmaJ)) n (lit 0) >>= fun J =>
      (pure (mertonUpdate v dt S z J, mertonUpdate v dt S z J) : Eff G (ℝ × ℝ))) (fun x => ENNReal.ofReal x.2) =
      ENNReal.ofReal S * ENNReal.ofReal (Real.exp ((v.r - v.c - 1 / 2 * v.sigma * v.sigma) * dt)) *
        jumpFactor count mean (Real.exp (muJ + sigmaJ ^ 2 / 2)) * ENNReal.ofReal (Real.exp (v.sigma * Real.sqrt dt * z)) := by
    intro z
    rw [expect_drawCount_bind hg hm (r.comp (k := fun n : ℕ => ((S, z), n)) (by fun_prop)) (by fun_prop)]
    have e2 : ∀ n, expect μ (Eff.forN (mertonJump g (.normal muJ sigmaJ)) n (lit 0) >>= fun J =>
        (pure (mertonUpdate v dt S z J, mertonUpdate v dt S z J) : Eff G (ℝ × ℝ))) (fun x => ENNReal.ofReal x.2) =
        ENNReal.ofReal S * ENNReal.ofReal (Real.exp ((v.r - v.c - 1 / 2 * v.sigma * v.sigma) * dt)) *
          ENNReal.ofReal (Real.exp (v.sigma * Real.sqrt dt * z)) * ENNReal.ofReal (Real.exp (muJ + sigmaJ ^ 2 / 2)) ^ n := by
      intro n
      rw [expect_map]
      have e3 : ∀ J, ENNReal.ofReal (mertonUpdate v dt S z J, mertonUpdate v dt S z J).2 =
          (ENNReal.ofReal S * ENNReal.ofReal (Real.exp ((v.r - v.c - 1 / 2 * v.sigma * v.sigma) * dt)) *
          ENNReal.ofReal (Real.exp (v.sigma * Real.sqrt dt * z))) * ENNReal.ofReal (Real.exp J) := by
        intro J
        rw [← ENNReal.ofReal_mul' (Real.exp_pos _).le, ← ENNReal.ofReal_mul' (Real.exp_pos _).le, ← ENNReal.ofReal_mul' (Real.exp_pos _).le,
          mul_assoc, mul_assoc, ← Real.exp_add, ← Real.exp_add]
        simp only [mertonUpdate, Fl.exp_real, Fl.sqrt_real, Fl.lit_real, Rat.cast_div, Rat.cast_one, Rat.cast_ofNat]
        congr 3
        ring
      simp only [e3]
      have hj := (random_mertonJump hg muJ hs).forN n
      rw [expect_const_mul hj _ (by fun_prop), expect_forN (random_mertonJump hg muJ hs) (by fun_prop) (expect_mertonJump hg muJ hs)]
      simp
    simp only [e2]
    rw [lintegral_const_mul _ measurable_from_nat]
    unfold jumpFactor
    ring
  refine (lintegral_congr e1).trans ?_
  rw [lintegral_const_mul _ (by fun_prop), lintegral_exp_stdNormal, mul_pow, Real.sq_sqrt hdt]
  have : ENNReal.ofReal (Real.exp ((v.r - v.c) * dt)) = ENNReal.ofReal (Real.exp ((v.r - v.c - 1 / 2 * v.sigma * v.sigma) * dt)) *
      ENNReal.ofReal (Real.exp (v.sigma ^ 2 * dt / 2)) := by
    rw [← ENNReal.ofReal_mul' (Real.exp_pos _).le, ← Real.exp_add]
    congr 2
    ring
  rw [this]
  ring

/-! ## Bates -/

theorem random_batesJump (hg : RandomSource g μ count) (muJ : ℝ) {sigmaJ : ℝ} (hs : 0 < sigmaJ) :
    Random μ (batesJump g (.normal muJ sigmaJ)) :=
  (random_draw hg (d := .normal muJ sigmaJ) hs).bind (Random.pure (k := fun p : ℝ × ℝ => p.1 * Real.exp p.2) (by fun_prop))

theorem expect_batesJump (hg : RandomSource g μ count) (muJ : ℝ) {sigmaJ : ℝ} (hs : 0 < sigmaJ) (S : ℝ) :
    expect μ (batesJump g (.normal muJ sigmaJ) S) ENNReal.ofReal =
      ENNReal.ofReal (Real.exp (muJ + sigmaJ ^ 2 / 2)) * ENNReal.ofReal S := by
  unfold batesJump
  rw [expect_map, expect_draw hg (d := .normal muJ sigmaJ) hs (by simp only [Fl.exp_real]; fun_prop)]
  simp only [Fl.exp_real, ENNReal.ofReal_mul' (Real.exp_pos _).le]
  rw [lintegral_const_mul _ (by fun_prop), mul_comm]
  congr 1
  have h := lintegral_exp_gaussian muJ ⟨sigmaJ ^ 2, sq_nonneg sigmaJ⟩ 1
  simp only [one_mul, mul_one, one_pow] at h
  exact h

/-- The part of the Bates step after the draws for the diffusion and the number of jumps. -/
theorem random_batesRest (hg : RandomSource g μ count) (v : View ℝ) (kappa theta sigmaV rho : ℝ) {disc : CIR ℝ} (hd : disc.MeasurableUpdate) (dt muJ : ℝ)
    {sigmaJ : ℝ} (hs : 0 < sigmaJ) :
    Random μ fun p : (((ℝ × ℝ) × ℝ) × ℝ) × ℕ => Eff.forN (batesJump g (.normal muJ sigmaJ)) p.2 (svUpdate v rho dt p.1.1.1.1 p.1.1.1.2 p.1.1.2 p.1.2) >>= fun S' =>
      (pure ((S', disc.update p.1.1.1.2 dt kappa theta sigmaV p.1.1.2), S') : Eff G ((ℝ × ℝ) × ℝ)) := by
  have m1 : Measurable fun p : (((ℝ × ℝ) × ℝ) × ℝ) × ℕ => svUpdate v rho dt p.1.1.1.1 p.1.1.1.2 p.1.1.2 p.1.2 :=
    (measurable_svUpdate v rho dt).comp (by fun_prop : Measurable fun p : (((ℝ × ℝ) × ℝ) × ℝ) × ℕ => (p.1.1.1, p.1.1.2, p.1.2))
  refine ((random_batesJump hg muJ hs).forN_count.comp (k := fun p : (((ℝ × ℝ) × ℝ) × ℝ) × ℕ => (p.2, _)) (measurable_snd.prodMk m1)).bind
    (Random.pure (k := fun p : ((((ℝ × ℝ) × ℝ) × ℝ) × ℕ) × ℝ => ((p.2, disc.update p.1.1.1.1.2 dt kappa theta sigmaV p.1.1.1.2), p.2)) ?_)
  have m2 : Measurable fun p : ((((ℝ × ℝ) × ℝ) × ℝ) × ℕ) × ℝ => disc.update p.1.1.1.1.2 dt kappa theta sigmaV p.1.1.1.2 :=
    (hd dt kappa theta sigmaV).comp (by fun_prop : Measurable fun p : ((((ℝ × ℝ) × ℝ) × ℝ) × ℕ) × ℝ => (p.1.1.1.1.2, p.1.1.1.2))
  exact (measurable_snd.prodMk m2).prodMk measurable_snd

theorem random_batesStep (hg : RandomSource g μ count) (v : View ℝ) (kappa theta sigmaV rho : ℝ) {disc : CIR ℝ} (hd : disc.MeasurableUpdate) (dt : ℝ)
    {mean : ℝ} (hm : 0 < mean) (muJ : ℝ) {sigmaJ : ℝ} (hs : 0 < sigmaJ) :
    Random μ (batesStep g v kappa theta sigmaV rho disc dt .stdNormal (.poisson mean) (.normal muJ sigmaJ)) :=
  (random_draw hg valid_stdNormal).bind ((random_draw hg valid_stdNormal).bind ((random_drawCount hg hm).bind
    (random_batesRest hg v kappa theta sigmaV rho hd dt muJ hs)))

theorem expect_batesStep (hg : RandomSource g μ count) (v : View ℝ) (kappa theta sigmaV : ℝ) {rho : ℝ} (h1 : -1 ≤ rho) (h2 : rho ≤ 1)
    {disc : CIR ℝ} (hd : disc.MeasurableUpdate) {dt : ℝ} (hdt : 0 ≤ dt) {mean : ℝ} (hm : 0 < mean) (muJ : ℝ) {sigmaJ : ℝ}
    (hs : 0 < sigmaJ) (x : ℝ × ℝ) :
    expect μ (batesStep g v kappa theta sigmaV rho disc dt .stdNormal (.poisson mean) (.normal muJ sigmaJ) x) (fun x => ENNReal.ofReal x.2) =
      ENNReal.ofReal (Real.exp ((v.r - v.c) * dt)) * jumpFactor count mean (Real.exp (muJ + sigmaJ ^ 2 / 2)) * ENNReal.ofReal x.1 := by
  have r := random_batesRest hg v kappa theta sigmaV rho hd dt muJ hs
  unfold batesStep
  rw [expect_draw_bind hg valid_stdNormal ((random_draw hg valid_stdNormal).bind ((random_drawCount hg hm).bind
    (r.comp (k := fun p : (ℝ × ℝ) × ℕ => (((x, p.1.1), p.1.2), p.2)) (by fun_prop)))) (by fun_prop)]
  have e1 : ∀ z1 z2, expect μ (drawCount g (.poisson mean) >>= fun n => Eff.forN (batesJump g (.normal muJ sigmaJ)) n (svUpdate v rho dt x.1 x.2 z1 z2) >>= fun S' =>
      (pure ((S', disc.update x.2 dt kappa theta sigmaV z1), S') : Eff G ((ℝ × ℝ) × ℝ))) (fun x => ENNReal.ofReal x.2) =
      jumpFactor count mean (Real.exp (muJ + sigmaJ ^ 2 / 2)) * ENNReal.ofReal (svUpdate v rho dt x.1 x.2 z1 z2) := by
    intro z1 z2
    rw [expect_drawCount_bind hg hm (r.comp (k := fun n : ℕ => (((x, z1), z2), n)) (by fun_prop)) (by fun_prop)]
    have e2 : ∀ n, expect μ (Eff.forN (batesJump g (.normal muJ sigmaJ)) n (svUpdate v rho dt x.1 x.2 z1 z2) >>= fun S' =>
        (pure ((S', disc.update x.2 dt kappa theta sigmaV z1), S') : Eff G ((ℝ × ℝ) × ℝ))) (fun x => ENNReal.ofReal x.2) =
        ENNReal.ofReal (Real.exp (muJ + sigmaJ ^ 2 / 2)) ^ n * ENNReal.ofReal (svUpdate v rho dt x.1 x.2 z1 z2) := by
      intro n
      rw [expect_map]
      exact expect_forN (random_batesJump hg muJ hs) (by fun_prop) (expect_batesJump hg muJ hs) n _
    simp only [e2]
    rw [lintegral_mul_const _ measurable_from_nat]
    rfl
  have m1 : Measurable fun p : ℝ × ℝ => ENNReal.ofReal (svUpdate v rho dt x.1 x.2 p.1 p.2) :=
    ((measurable_svUpdate v rho dt).comp (by fun_prop : Measurable fun p : ℝ × ℝ => (x, p.1, p.2))).ennreal_ofReal
  have e3 : ∀ z1, expect μ (draw g .stdNormal >>= fun z2 => drawCount g (.poisson mean) >>= fun n =>
      Eff.forN (batesJump g (.normal muJ sigmaJ)) n (svUpdate v rho dt x.1 x.2 z1 z2) >>= fun S' =>
      (pure ((S', disc.update x.2 dt kappa theta sigmaV z1), S') : Eff G ((ℝ × ℝ) × ℝ))) (fun x => ENNReal.ofReal x.2) =
      jumpFactor count mean (Real.exp (muJ + sigmaJ ^ 2 / 2)) *
        ∫⁻ z2, ENNReal.ofReal (svUpdate v rho dt x.1 x.2 z1 z2) ∂stdMeasure count (Dist.law Dist.stdNormal) := by
    intro z1
    rw [expect_draw_bind hg valid_stdNormal ((random_drawCount hg hm).bind
      (r.comp (k := fun p : ℝ × ℕ => (((x, z1), p.1), p.2)) (by fun_prop))) (by fun_prop)]
    exact (lintegral_congr (e1 z1)).trans (lintegral_const_mul _ (m1.comp measurable_prodMk_left))
  refine (lintegral_congr e3).trans ?_
  haveI : IsProbabilityMeasure (stdMeasure count (Dist.law (Dist.stdNormal : Dist ℝ))) :=
    instIsProbabilityMeasureGaussianReal (lit 0) ⟨(lit 1 : ℝ) ^ 2, sq_nonneg _⟩
  rw [lintegral_const_mul _ (Measurable.lintegral_prod_right' m1), lintegral_svUpdate (count := count) v h1 h2 hdt x.1 x.2]
  ring

end Sim
end Verif
