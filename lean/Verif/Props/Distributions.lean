import Verif.Spec.DistributionSpec
import Verif.Lemmas.PerfectGenerator

/-!
# Property C64: distribution objects check their parameters and sample from the distribution they name
-/

namespace Verif
open MeasureTheory ProbabilityTheory Spec

variable {G : Type} [MeasurableSpace G] {μ : Measure G} [IsProbabilityMeasure μ] {g : Gen G ℝ} {count : ℝ → Measure ℕ}

/-- **C64.** The standard normal distribution. -/
theorem C64_standardNormal (hg : RandomSource g μ count) : DrawsFrom g μ .stdNormal (gaussianReal 0 1) := by
  obtain ⟨x, t, h1, h2, h3, h4⟩ := hg.draw .stdNormal (show (0 : ℝ) < lit 1 by simp)
  refine ⟨x, t, h1, h2, h3, h4.trans ?_⟩
  congr 1
  show gaussianReal (lit 0) ⟨(lit 1 : ℝ) ^ 2, _⟩ = _
  congr 1
  · simp
  · ext; simp only [Fl.lit_real, Rat.cast_one, one_pow]; rfl

/-- **C64.** The normal distribution with mean `mu` and standard deviation `sigma`. -/
theorem C64_normal (hg : RandomSource g μ count) (mu sigma : ℝ) :
    Validates (Dist.mkNormal mu sigma) (0 < sigma) fun d => DrawsFrom g μ d (gaussianReal mu ⟨sigma ^ 2, sq_nonneg sigma⟩) := by
  unfold Dist.mkNormal
  constructor
  · intro h
    rw [if_neg (by simpa using h)]
    exact ⟨_, rfl, hg.draw (.normal mu sigma) h⟩
  · intro h
    rw [if_pos (by simpa using h)]
    simp

/-- **C64.** The Poisson distribution with mean `lambda`; the number is a natural number up to `INT_MAX`. -/
theorem C64_poisson (hg : RandomSource g μ count) (lambda : ℝ) :
    Validates (Dist.mkPoisson lambda) (0 < lambda) fun d => DrawsFrom g μ d ((count lambda).map fun n : ℕ => (n : ℝ)) ∧
      ∀ s s' x, g.draw d s = (.ok x, s') → ∃ n : ℕ, n ≤ INT_MAX ∧ x = n := by
  unfold Dist.mkPoisson
  constructor
  · intro h
    rw [if_neg (by simpa using h)]
    exact ⟨_, rfl, hg.draw (.poisson lambda) h, fun s s' x hx => hg.integer lambda s s' x h hx⟩
  · intro h
    rw [if_pos (by simpa using h)]
    simp

/-- **C64.** The exponential distribution with rate `lambda`. -/
theorem C64_exponential (hg : RandomSource g μ count) (lambda : ℝ) :
    Validates (Dist.mkExponential lambda) (0 < lambda) fun d => DrawsFrom g μ d (expMeasure lambda) := by
  unfold Dist.mkExponential
  constructor
  · intro h
    rw [if_neg (by simpa using h)]
    exact ⟨_, rfl, hg.draw (.exponential lambda) h⟩
  · intro h
    rw [if_pos (by simpa using h)]
    simp

/-- **C64.** The gamma distribution with shape `alpha` and rate `beta` (mean `alpha / beta`). -/
theorem C64_gamma (hg : RandomSource g μ count) (alpha beta : ℝ) :
    Validates (Dist.mkGamma alpha beta) (0 < alpha ∧ 0 < beta) fun d => DrawsFrom g μ d (gammaMeasure alpha beta) := by
  unfold Dist.mkGamma
  constructor
  · rintro ⟨h1, h2⟩
    rw [if_neg (by simp [h1, h2])]
    refine ⟨_, rfl, ?_⟩
    obtain ⟨x, t, k1, k2, k3, k4⟩ := hg.draw (.gamma alpha beta) ⟨h1, show 0 < lit 1 / beta by simp [h2]⟩
    refine ⟨x, t, k1, k2, k3, k4.trans ?_⟩
    congr 1
    show gammaMeasure alpha (1 / (lit 1 / beta)) = _
    simp
  · intro h
    rw [if_pos (by
      simp only [Bool.or_eq_true, Fl.le_real, Fl.lit_real, Rat.cast_zero]
      by_contra hn
      push_neg at hn
      exact h hn)]
    simp

/-- **C64, partial.** The uniform distribution on `[a, b)`: the arguments are checked, but the numbers are always drawn from
`[0, 1)`.  Missing: the law given by the arguments (see `C64_uniform_fails`). -/
theorem C64_uniform_partial (hg : RandomSource g μ count) (a b : ℝ) :
    Validates (Dist.mkUniform a b) (a < b) fun d => DrawsFrom g μ d (cond volume (Set.Ico 0 1)) := by
  unfold Dist.mkUniform
  constructor
  · intro h
    rw [if_neg (by simpa using h)]
    refine ⟨_, rfl, ?_⟩
    obtain ⟨x, t, k1, k2, k3, k4⟩ := hg.draw (.uniform a b) (show (lit 0 : ℝ) < lit 1 by simp)
    refine ⟨x, t, k1, k2, k3, k4.trans ?_⟩
    congr 1
    show ProbabilityTheory.cond volume (Set.Ico (lit 0) (lit 1)) = _
    simp
  · intro h
    rw [if_pos (by simpa using h)]
    simp

theorem DrawsFrom.law_unique {d : Dist ℝ} {ν ν' : Measure ℝ} [SFinite ν] [SFinite ν'] (h : DrawsFrom g μ d ν) (h' : DrawsFrom g μ d ν') : ν = ν' := by
  obtain ⟨x, t, h1, h2, h3, h4⟩ := h
  obtain ⟨x', t', h1', h2', h3', h4'⟩ := h'
  have hx : x = x' := by
    funext s
    have := (h3 s).symm.trans (h3' s)
    simp only [Prod.mk.injEq, Res.ok.injEq] at this
    exact this.1
  have ht : t = t' := by
    funext s
    have := (h3 s).symm.trans (h3' s)
    exact (Prod.mk.inj this).2
  subst hx ht
  have := congrArg (Measure.map Prod.fst) (h4.symm.trans h4')
  rw [← Measure.fst, ← Measure.fst, Measure.fst_prod, Measure.fst_prod] at this
  exact this

/-- **C64 fails** for the uniform distribution: whatever the interval, if it is not `[0, 1)` the object does not sample
from it. -/
theorem C64_uniform_fails (hg : RandomSource g μ count) {a b : ℝ} (hab : a < b) (hne : (a, b) ≠ (0, 1)) {d : Dist ℝ} (hd : Dist.mkUniform a b = .ok d) :
    ¬ DrawsFrom g μ d (cond volume (Set.Ico a b)) := by
  intro h
  obtain ⟨d', e, h'⟩ := (C64_uniform_partial hg a b).1 hab
  rw [hd] at e
  cases e
  have h01 : (volume (Set.Ico (0 : ℝ) 1)) ≠ 0 := by simp
  have hv : volume (Set.Ico a b) ≠ 0 := by simp [hab]
  have hv' : volume (Set.Ico a b) ≠ ⊤ := by simp
  haveI : IsProbabilityMeasure (ProbabilityTheory.cond volume (Set.Ico a b)) := cond_isProbabilityMeasure_of_finite hv hv'
  haveI : IsProbabilityMeasure (ProbabilityTheory.cond volume (Set.Ico (0 : ℝ) 1)) := cond_isProbabilityMeasure_of_finite h01 (by simp)
  have e := DrawsFrom.law_unique h h'
  -- the two intervals carry all mass of both laws
  have m1 : ∀ c e : ℝ, c < e → ∀ s, ProbabilityTheory.cond volume (Set.Ico c e) s = (ENNReal.ofReal (e - c))⁻¹ * volume (Set.Ico c e ∩ s) := by
    intro c e _ s
    rw [cond_apply measurableSet_Ico, Real.volume_Ico]
  have key : ∀ p q : ℝ, Set.Ico a b ∩ Set.Ico p q = Set.Ico (max a p) (min b q) := fun p q => Set.Ico_inter_Ico
  -- mass of each interval under the other law
  have q1 := congrArg (fun ν => ν (Set.Ico a b)) e
  have q2 := congrArg (fun ν => ν (Set.Ico 0 1)) e
  simp only [m1 a b hab, m1 0 1 one_pos, Set.Ico_inter_Ico, Real.volume_Ico, max_self, min_self, sub_zero, ENNReal.ofReal_one, inv_one, one_mul] at q1 q2
  have hba : 0 < b - a := sub_pos.mpr hab
  rw [ENNReal.inv_mul_cancel (by simpa using hab) ENNReal.ofReal_ne_top] at q1
  have r1 : 1 ≤ min 1 b - max 0 a := by
    have := q1.le
    rw [ENNReal.one_le_ofReal] at this
    exact this
  have a0 : a ≤ 0 := by
    by_contra h
    push_neg at h
    have := le_max_right (0 : ℝ) a
    have := min_le_left (1 : ℝ) b
    linarith
  have b1 : 1 ≤ b := by
    by_contra h
    push_neg at h
    have := le_max_left (0 : ℝ) a
    have := min_le_right (1 : ℝ) b
    linarith
  rw [max_eq_right a0, min_eq_right b1, sub_zero, ENNReal.ofReal_one, mul_one] at q2
  have r2 : b - a = 1 := by
    have := congrArg (·⁻¹) q2
    simp only [inv_inv, inv_one] at this
    have := congrArg ENNReal.toReal this
    rwa [ENNReal.toReal_ofReal hba.le, ENNReal.toReal_one] at this
  exact hne (by rw [Prod.mk.injEq]; constructor <;> linarith)

/-- **C64**, doubles: the constructors throw exactly on arguments that compare below or equal to zero, for every
rounding. -/
theorem C64_double {R : Rounding} (mu x y : Dbl R) :
    (Res.Throws .invalidArgument (Dist.mkNormal mu x) ↔ Fl.le x (lit 0) = true) ∧
    (Res.Throws .invalidArgument (Dist.mkPoisson x) ↔ Fl.le x (lit 0) = true) ∧
    (Res.Throws .invalidArgument (Dist.mkExponential x) ↔ Fl.le x (lit 0) = true) ∧
    (Res.Throws .invalidArgument (Dist.mkGamma x y) ↔ Fl.le x (lit 0) = true ∨ Fl.le y (lit 0) = true) ∧
    (Res.Throws .invalidArgument (Dist.mkUniform x y) ↔ Fl.le y x = true) := by
  refine ⟨?_, ?_, ?_, ?_, ?_⟩
  · unfold Dist.mkNormal; split <;> simp_all
  · unfold Dist.mkPoisson; split <;> simp_all
  · unfold Dist.mkExponential; split <;> simp_all
  · unfold Dist.mkGamma; split <;> simp_all
  · unfold Dist.mkUniform; split <;> simp_all [Fl.ge]

/-- **C64 fails** for NaN: every constructor accepts it, and the `std::` distribution then has parameters that violate its
precondition (sampling from it is undefined behaviour).  The uniform distribution is not affected, as it ignores its
arguments. -/
theorem C64_nan_fails (R : Rounding) (mu x : Dbl R) (hx : Fl.le x (lit 0) = false) :
    (∃ d, Dist.mkNormal mu .nan = .ok d ∧ ¬ StdPrecondition d.law) ∧ (∃ d, Dist.mkPoisson (.nan : Dbl R) = .ok d ∧ ¬ StdPrecondition d.law) ∧
    (∃ d, Dist.mkExponential (.nan : Dbl R) = .ok d ∧ ¬ StdPrecondition d.law) ∧
    (∃ d, Dist.mkGamma .nan x = .ok d ∧ ¬ StdPrecondition d.law) ∧
    (∃ d, Dist.mkGamma x .nan = .ok d ∧ ¬ StdPrecondition d.law) := by
  refine ⟨⟨.normal mu .nan, ?_, ?_⟩, ⟨.poisson .nan, ?_, ?_⟩, ⟨.exponential .nan, ?_, ?_⟩, ⟨.gamma .nan x, ?_, ?_⟩, ⟨.gamma x .nan, ?_, ?_⟩⟩
  · unfold Dist.mkNormal; rw [if_neg (by simp)]
  · simp [StdPrecondition, Dist.law]
  · unfold Dist.mkPoisson; rw [if_neg (by simp)]
  · simp [StdPrecondition, Dist.law]
  · unfold Dist.mkExponential; rw [if_neg (by simp)]
  · simp [StdPrecondition, Dist.law]
  · unfold Dist.mkGamma; rw [if_neg (by rw [hx]; simp)]
  · simp [StdPrecondition, Dist.law]
  · unfold Dist.mkGamma; rw [if_neg (by rw [hx]; simp)]
  · simp [StdPrecondition, Dist.law]

/-- A perfect generator and the interval `[2, 5)`: accepted, but the numbers are not uniform on it. -/
example : ∃ d, Dist.mkUniform (2 : ℝ) 5 = .ok d ∧ ¬ DrawsFrom perfectGen perfectMeasure d (cond volume (Set.Ico 2 5)) := by
  obtain ⟨d, hd, -⟩ := (C64_uniform_partial randomSource_perfectGen 2 5).1 (by norm_num)
  exact ⟨d, hd, C64_uniform_fails randomSource_perfectGen (by norm_num) (by norm_num) hd⟩

/-- Gamma with shape 2 and rate 3 is accepted, rate 0 is not. -/
example : (∃ d, Dist.mkGamma (2 : ℝ) 3 = .ok d ∧ DrawsFrom perfectGen perfectMeasure d (gammaMeasure 2 3)) ∧
    Res.Throws .invalidArgument (Dist.mkGamma (2 : ℝ) 0) :=
  ⟨(C64_gamma randomSource_perfectGen 2 3).1 (by norm_num), (C64_gamma randomSource_perfectGen 2 0).2 (by norm_num)⟩

end Verif
