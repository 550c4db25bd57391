import Verif.Props.Variance

/-!
# Properties C37 and C38: which models can be simulated; the jumps of the Kou model
-/

set_option linter.unusedSectionVars false

namespace Verif
open Eff Spec

/-! ## C37 -/

section
variable {G : Type}

/-- A generator no draw of which fails, and whose Poisson draws are counts that fit an `int`. -/
structure Working (g : Gen G ℝ) : Prop where
  total : ∀ d s, ∃ z s', g.draw d s = (.ok z, s')
  counts : ∀ l s z s', g.draw (.poisson l) s = (.ok z, s') → ∃ n : ℤ, FlInt.toInt z = some n

/-- The models that a constructor can give. -/
inductive Constructed : ModelKind ℝ → Prop
  | gbm : Constructed .gbm
  | heston {kappa theta sigmaV rho v0 disc k}
      (h : ModelKind.mkHeston kappa theta sigmaV rho v0 disc = .ok k) : Constructed k
  | bates {kappa theta sigmaV rho v0 lambda muJ sigmaJ disc k}
      (h : ModelKind.mkBates kappa theta sigmaV rho v0 lambda muJ sigmaJ disc = .ok k) : Constructed k
  | kou {lambda p eta1 eta2 k} (h : ModelKind.mkKou lambda p eta1 eta2 = .ok k) : Constructed k
  | merton {lambda muJ sigmaJ k} (h : ModelKind.mkMerton lambda muJ sigmaJ = .ok k) : Constructed k
  | varianceGamma {sigma nu theta k} (h : ModelKind.mkVarianceGamma sigma nu theta = .ok k) :
      Constructed k

/-- What has to hold of intensity, down rate and maturity, beside the constructor's checks. -/
def CanSimulate (T : ℝ) : ModelKind ℝ → Prop
  | .gbm => True
  | .heston .. => True
  | .bates _ _ _ _ _ lambda _ _ _ => 0 < lambda ∧ 0 < T
  | .kou lambda _ _ eta2 _ => 0 < lambda ∧ 0 < T ∧ 0 < eta2
  | .merton lambda _ _ => 0 < lambda ∧ 0 < T
  | .varianceGamma _ _ _ => 0 < T

/-- The claim of C37. -/
def ConstructedSimulatable : Prop :=
  ∀ (G : Type) (g : Gen G ℝ) (_ : Working g) (steps : ℕ) (_ : 0 < steps) (_ : steps ≤ INT_MAX)
    (v : View ℝ) (T : ℝ) (_ : 0 ≤ T) (k : ModelKind ℝ) (_ : Constructed k) (s : G),
    ∃ ps s', Sim.prices g steps v T k s = (.ok ps, s')

theorem forN_total {σ α : Type} {body : α → Eff σ α} (h : ∀ a s, ∃ b s', body a s = (.ok b, s')) :
    ∀ n a s, ∃ b s', forN body n a s = (.ok b, s')
  | 0, a, s => ⟨a, s, rfl⟩
  | n + 1, a, s => by
    obtain ⟨b, s₁, hb⟩ := h a s
    obtain ⟨c, s₂, hc⟩ := forN_total h n b s₁
    exact ⟨c, s₂, by simp only [forN]; rw [bind_of_ok hb, hc]⟩

theorem unfoldN_total {σ α β : Type} {body : α → Eff σ (α × β)}
    (h : ∀ a s, ∃ b s', body a s = (.ok b, s')) :
    ∀ n a s, ∃ b s', unfoldN body n a s = (.ok b, s')
  | 0, a, s => ⟨[], s, rfl⟩
  | n + 1, a, s => by
    obtain ⟨b, s₁, hb⟩ := h a s
    obtain ⟨c, s₂, hc⟩ := unfoldN_total h n b.1 s₁
    exact ⟨b.2 :: c, s₂, by simp only [unfoldN]; rw [bind_of_ok hb, bind_of_ok hc]; rfl⟩

theorem unfoldInt_total {σ α β : Type} {body : α → Eff σ (α × β)}
    (h : ∀ a s, ∃ b s', body a s = (.ok b, s')) {n : ℕ} (hn : n ≤ INT_MAX) (a : α) (s : σ) :
    ∃ b s', unfoldInt body n a s = (.ok b, s') := by
  rw [unfoldInt_of_le hn]
  exact unfoldN_total h n a s

theorem Working.count {g : Gen G ℝ} (hg : Working g) (l : ℝ) (s : G) :
    ∃ n s', Sim.drawCount g (.poisson l) s = (.ok n, s') := by
  obtain ⟨z, s', hz⟩ := hg.total (.poisson l) s
  obtain ⟨n, hn⟩ := hg.counts _ _ _ _ hz
  exact ⟨n.toNat, s', Sim.drawCount_iff.mpr ⟨z, hz, n, hn, rfl⟩⟩

theorem bind_total {σ α β : Type} {x : Eff σ α} {f : α → Eff σ β} {s : σ}
    (hx : ∃ a s', x s = (.ok a, s')) (hf : ∀ a s, ∃ b s', f a s = (.ok b, s')) :
    ∃ b s', (x >>= f) s = (.ok b, s') := by
  obtain ⟨a, s', hx⟩ := hx
  rw [bind_of_ok hx]
  exact hf a s'

theorem pure_total {σ α : Type} (a : α) (s : σ) : ∃ b s', (pure a : Eff σ α) s = (.ok b, s') :=
  ⟨a, s, rfl⟩

theorem newDist_throw {g : Gen G ℝ} {d : Res (Dist ℝ)} {e : Exc} (h : d = .throw e) (s : G) :
    Sim.newDist g d s = (.throw e, s) := by
  subst h; rfl

/-- **C37, partial.** A constructed model simulates a maturity `T ≥ 0` without failing exactly when
`CanSimulate T` holds; otherwise it throws `invalid_argument`.  Missing: `CanSimulate` is more than the
constructors check (see `C37_fails`). -/
theorem C37_partial (g : Gen G ℝ) (hg : Working g) (steps : ℕ) (hs : 0 < steps)
    (hm : steps ≤ INT_MAX) (v : View ℝ) (T : ℝ) (hT : 0 ≤ T) (k : ModelKind ℝ) (hk : Constructed k)
    (s : G) :
    (CanSimulate T k → ∃ ps s', Sim.prices g steps v T k s = (.ok ps, s')) ∧
    (¬ CanSimulate T k → ∃ msg s', Sim.prices g steps v T k s = (.throw ⟨.invalidArgument, msg⟩, s')) := by
  have hdt : Sim.dt T steps = T / steps := by simp [Sim.dt]
  have hs' : (0 : ℝ) < steps := by exact_mod_cast hs
  have hnn : 0 ≤ T / steps := by positivity
  have hP : ∀ l : ℝ, 0 < l ∧ 0 < T → Dist.mkPoisson (l * (T / steps)) = .ok (.poisson (l * (T / steps))) := by
    intro l ⟨h1, h2⟩
    unfold Dist.mkPoisson
    rw [if_neg]
    simp only [Fl.le_real, Fl.lit_real]
    push_cast
    have : 0 < l * (T / steps) := by positivity
    simpa using this
  have hP' : ∀ l : ℝ, ¬ (0 < l ∧ 0 < T) → ∃ msg, Dist.mkPoisson (l * (T / steps)) = .throw ⟨.invalidArgument, msg⟩ := by
    intro l h
    unfold Dist.mkPoisson
    rw [if_pos]
    · exact ⟨_, rfl⟩
    · simp only [Fl.le_real, Fl.lit_real]
      push_cast
      rcases not_and_or.mp h with h | h
      · have : l * (T / steps) ≤ 0 := mul_nonpos_of_nonpos_of_nonneg (not_lt.mp h) hnn
        simpa using this
      · have h0 : T = 0 := le_antisymm (not_lt.mp h) hT
        simp [h0]
  have sn : ∀ (d : Dist ℝ) s, ∃ a s', Sim.newDist g (.ok d) s = (.ok a, s') := fun d s =>
    ⟨_, _, Sim.newDist_ok d s⟩
  have thr : ∀ {α : Type} {f : Dist ℝ → Eff G α} {d : Res (Dist ℝ)} {s : G},
      (∃ msg, d = .throw ⟨.invalidArgument, msg⟩) →
      ∃ msg s', (Sim.newDist g d >>= f) s = (.throw ⟨.invalidArgument, msg⟩, s') := by
    intro α f d s ⟨msg, h⟩
    exact ⟨msg, s, bind_of_throw (newDist_throw h s)⟩
  cases hk with
  | gbm =>
    refine ⟨fun _ => ?_, fun h => absurd trivial h⟩
    refine bind_total (sn _ _) fun d s => unfoldInt_total (fun S s => ?_) hm _ _
    exact bind_total (hg.total _ _) fun z s => pure_total _ _
  | heston h =>
    unfold ModelKind.mkHeston at h
    split at h
    · simp [logicErr] at h
    split at h
    · simp [logicErr] at h
    simp only [Res.ok.injEq] at h
    subst h
    refine ⟨fun _ => ?_, fun h => absurd trivial h⟩
    refine bind_total (sn _ _) fun d s => unfoldInt_total (fun S s => ?_) hm _ _
    exact bind_total (hg.total _ _) fun z s => bind_total (hg.total _ _) fun z s => pure_total _ _
  | bates h =>
    obtain ⟨hσ, rfl⟩ := mkBates_ok h
    rename_i lambda muJ sigmaJ disc
    have hN : Dist.mkNormal muJ sigmaJ = .ok (.normal muJ sigmaJ) := by simp [Dist.mkNormal, hσ]
    simp only [Sim.prices, Sim.bates, hdt]
    rw [bind_of_ok (Sim.newDist_ok _ _)]
    refine ⟨fun h => ?_, fun h => thr (hP' _ h)⟩
    rw [hP _ h, hN, bind_of_ok (Sim.newDist_ok _ _)]
    refine bind_total (sn _ _) fun d s => unfoldInt_total (fun S s => ?_) hm _ _
    refine bind_total (hg.total _ _) fun z s => bind_total (hg.total _ _) fun z s =>
      bind_total (hg.count _ _) fun n s => bind_total (forN_total (fun a s => ?_) _ _ _)
        fun n s => pure_total _ _
    exact bind_total (hg.total _ _) fun z s => pure_total _ _
  | kou h =>
    unfold ModelKind.mkKou at h
    split at h
    · simp [invalidArg] at h
    split at h
    · simp [invalidArg] at h
    split at h
    · simp [invalidArg] at h
    rename_i lambda p eta1 eta2 _ h1 h2
    simp only [Res.ok.injEq] at h
    subst h
    simp only [Fl.lt_real, Fl.lit_real] at h1 h2
    push_cast at h1 h2
    have hE : ∀ e : ℝ, 0 < e → Dist.mkExponential e = .ok (.exponential e) := by
      intro e he; simp [Dist.mkExponential, he]
    have hE' : ∀ e : ℝ, ¬ 0 < e → ∃ msg, Dist.mkExponential e = .throw ⟨.invalidArgument, msg⟩ := by
      intro e he
      unfold Dist.mkExponential
      rw [if_pos (by simpa using he)]
      exact ⟨_, rfl⟩
    have hU : Dist.mkUniform (lit 0 : ℝ) (lit 1) = .ok (.uniform (lit 0) (lit 1)) := by
      simp [Dist.mkUniform, Fl.ge]
    simp only [Sim.prices, Sim.kou, hdt]
    rw [bind_of_ok (Sim.newDist_ok _ _)]
    by_cases hl : 0 < lambda ∧ 0 < T
    · rw [hP _ hl, hU, hE eta1 (by linarith), bind_of_ok (Sim.newDist_ok _ _),
        bind_of_ok (Sim.newDist_ok _ _), bind_of_ok (Sim.newDist_ok _ _)]
      refine ⟨fun h => ?_, fun h => thr (hE' _ fun h' => h ⟨hl.1, hl.2, h'⟩)⟩
      rw [hE _ h.2.2]
      refine bind_total (sn _ _) fun d s => unfoldInt_total (fun S s => ?_) hm _ _
      refine bind_total (hg.total _ _) fun z s =>
        bind_total (hg.count _ _) fun n s => bind_total (forN_total (fun a s => ?_) _ _ _)
          fun n s => pure_total _ _
      refine bind_total (hg.total _ _) fun z s => bind_total ?_ fun a s =>
        bind_total (hg.total _ _) fun z s => pure_total _ _
      split
      · exact bind_total (hg.total _ _) fun z s => pure_total _ _
      · exact pure_total _ _
    · exact ⟨fun h => absurd ⟨h.1, h.2.1⟩ hl, fun _ => thr (hP' _ hl)⟩
  | merton h =>
    unfold ModelKind.mkMerton at h
    split at h
    · simp [invalidArg] at h
    rename_i lambda muJ sigmaJ h1
    simp only [Res.ok.injEq] at h
    subst h
    have hσ : 0 < sigmaJ := by simpa using h1
    have hN : Dist.mkNormal muJ sigmaJ = .ok (.normal muJ sigmaJ) := by simp [Dist.mkNormal, hσ]
    simp only [Sim.prices, Sim.merton, hdt]
    rw [bind_of_ok (Sim.newDist_ok _ _)]
    refine ⟨fun h => ?_, fun h => thr (hP' _ h)⟩
    rw [hP _ h, hN, bind_of_ok (Sim.newDist_ok _ _)]
    refine bind_total (sn _ _) fun d s => unfoldInt_total (fun S s => ?_) hm _ _
    refine bind_total (hg.total _ _) fun z s =>
      bind_total (hg.count _ _) fun n s => bind_total (forN_total (fun a s => ?_) _ _ _)
        fun n s => pure_total _ _
    exact bind_total (hg.total _ _) fun z s => pure_total _ _
  | varianceGamma h =>
    unfold ModelKind.mkVarianceGamma at h
    split at h
    · simp [invalidArg] at h
    rename_i sigma nu theta h1
    simp only [Res.ok.injEq] at h
    subst h
    have hν : 0 < nu := by simpa using h1
    simp only [Sim.prices, Sim.varianceGamma, hdt]
    rw [bind_of_ok (Sim.newDist_ok _ _)]
    refine ⟨fun (h : 0 < T) => ?_, fun (h : ¬ 0 < T) => thr ?_⟩
    · have hG : Dist.mkGamma (T / steps / nu) nu = .ok (.gamma (T / steps / nu) nu) := by
        unfold Dist.mkGamma
        rw [if_neg]
        have : 0 < T / steps / nu := by positivity
        simp only [Fl.le_real, Fl.lit_real]
        push_cast
        simp [this, hν]
      rw [hG]
      refine bind_total (sn _ _) fun d s => unfoldInt_total (fun S s => ?_) hm _ _
      exact bind_total (hg.total _ _) fun z s => bind_total (hg.total _ _) fun z s => pure_total _ _
    · have h0 : T = 0 := le_antisymm (not_lt.mp h) hT
      unfold Dist.mkGamma
      rw [if_pos (by simp [h0])]
      exact ⟨_, rfl⟩

theorem constGen_working {z : ℝ} (h : ∃ n : ℤ, FlInt.toInt z = some n) : Working (constGen z) where
  total _ s := ⟨z, s, rfl⟩
  counts l s x s' hx := by
    simp [constGen, pure_apply] at hx
    exact hx ▸ h

/-- **C37 fails**, in three independent ways: maturity 0 (variance gamma), a negative intensity
(Merton), and `eta2 = 0` (Kou). -/
theorem C37_fails : ¬ ConstructedSimulatable ∧
    (∃ k T, Constructed k ∧ T = 0 ∧ (∃ nu theta omega, k = .varianceGamma nu theta omega) ∧
      ∀ s, ∃ m s', Sim.prices (constGen 1) 12 ⟨100, 1 / 5, none, 0⟩ T k s = (.throw ⟨.invalidArgument, m⟩, s')) ∧
    (∃ muJ sigmaJ, Constructed (.merton (-1) muJ sigmaJ) ∧
      ∀ s, ∃ m s', Sim.prices (constGen 1) 12 ⟨100, 1 / 5, none, 0⟩ 1 (.merton (-1) muJ sigmaJ) s =
        (.throw ⟨.invalidArgument, m⟩, s')) ∧
    (∃ lambda p eta1 muJ, Constructed (.kou lambda p eta1 0 muJ) ∧ 0 < lambda ∧
      ∀ s, ∃ m s', Sim.prices (constGen 1) 12 ⟨100, 1 / 5, none, 0⟩ 1 (.kou lambda p eta1 0 muJ) s =
        (.throw ⟨.invalidArgument, m⟩, s')) := by
  have w : Working (constGen 1) := constGen_working ⟨1, toInt_one⟩
  have hi : 12 ≤ INT_MAX := by norm_num [INT_MAX]
  have k1 : Constructed (.varianceGamma (1 / 5) 0 _) :=
    .varianceGamma (sigma := 1 / 5) (nu := 1 / 5) (theta := 0) (by norm_num [ModelKind.mkVarianceGamma]; rfl)
  have k2 : Constructed (.merton (-1) 0 (1 / 10)) :=
    .merton (lambda := -1) (muJ := 0) (sigmaJ := 1 / 10) (by norm_num [ModelKind.mkMerton])
  have k3 : Constructed (.kou 1 (1 / 2) 2 0 1) :=
    .kou (lambda := 1) (p := 1 / 2) (eta1 := 2) (eta2 := 0) (by norm_num [ModelKind.mkKou, Fl.gt])
  have f1 := fun s => (C37_partial _ w 12 (by norm_num) hi ⟨100, 1 / 5, none, 0⟩ 0 le_rfl _ k1 s).2
    (by simp [CanSimulate])
  have f2 := fun s => (C37_partial _ w 12 (by norm_num) hi ⟨100, 1 / 5, none, 0⟩ 1 (by norm_num) _ k2 s).2
    (by norm_num [CanSimulate])
  have f3 := fun s => (C37_partial _ w 12 (by norm_num) hi ⟨100, 1 / 5, none, 0⟩ 1 (by norm_num) _ k3 s).2
    (by simp [CanSimulate])
  refine ⟨fun H => ?_, ⟨_, 0, k1, rfl, ⟨_, _, _, rfl⟩, f1⟩, ⟨_, _, k2, f2⟩, ⟨_, _, _, _, k3, by norm_num, f3⟩⟩
  obtain ⟨ps, s', h⟩ := H Unit _ w 12 (by norm_num) hi ⟨100, 1 / 5, none, 0⟩ 1 (by norm_num) _ k2 ()
  obtain ⟨m, s'', h'⟩ := f2 ()
  rw [h] at h'
  simp at h'

/-! ## C38 -/

/-- The claim of C38: in every simulated Kou path every jump is an up jump or a down jump. -/
def KouJumpsUpOrDown : Prop :=
  ∀ (G : Type) (g : Gen G ℝ) (steps : ℕ) (v : View ℝ) (lambda p eta1 eta2 : ℝ) (k : ModelKind ℝ)
    (_ : ModelKind.mkKou lambda p eta1 eta2 = .ok k) (T : ℝ) (s s' : G) (ps : List ℝ),
    Sim.prices g steps v T k s = (.ok ps, s') →
    ∃ s'', JumpPath g (CountedJump g (.poisson (lambda * (T / steps)))
          (KouJumps g p (.exponential eta1) (.exponential eta2)))
        (v.r - v.coupon.getD 0 - v.sigma ^ 2 / 2 -
          lambda * (p * (eta1 / (eta1 - 1)) + (1 - p) * (eta2 / (eta2 + 1)) - 1))
        v.sigma (T / steps) v.price
        (g.newDist (.exponential eta2) (g.newDist (.exponential eta1) (g.newDist (.uniform 0 1)
          (g.newDist (.poisson (lambda * (T / steps))) (g.newDist .stdNormal s))))) ps s''

/-- **C38, partial.** The prices of a Kou model are exactly those of log-normal paths with, in every
step, a Poisson number of jumps, where with a uniform draw below `p` the jump is an up jump **and** a
down jump, and otherwise a down jump.  Missing: with a uniform draw below `p` the down jump should not
be there (see `C38_fails`). -/
theorem C38_partial (g : Gen G ℝ) (steps : ℕ) (v : View ℝ)
    (lambda p eta1 eta2 : ℝ) (k : ModelKind ℝ) (hk : ModelKind.mkKou lambda p eta1 eta2 = .ok k)
    (T : ℝ) (s s' : G) (ps : List ℝ) :
    Sim.prices g steps v T k s = (.ok ps, s') ↔
    steps ≤ INT_MAX ∧ 0 < lambda * (T / steps) ∧ 0 < eta2 ∧ ps.length = steps ∧
      JumpPath g (CountedJump g (.poisson (lambda * (T / steps)))
          (KouJumpsActual g p (.exponential eta1) (.exponential eta2)))
        (v.r - v.coupon.getD 0 - v.sigma ^ 2 / 2 -
          lambda * (p * (eta1 / (eta1 - 1)) + (1 - p) * (eta2 / (eta2 + 1)) - 1))
        v.sigma (T / steps) v.price
        (g.newDist (.exponential eta2) (g.newDist (.exponential eta1) (g.newDist (.uniform 0 1)
          (g.newDist (.poisson (lambda * (T / steps))) (g.newDist .stdNormal s))))) ps s' := by
  have hdt : Sim.dt T steps = T / steps := by simp [Sim.dt]
  have hc : v.c = v.coupon.getD 0 := by simp [View.c]
  unfold ModelKind.mkKou at hk
  split at hk
  · simp [invalidArg] at hk
  split at hk
  · simp [invalidArg] at hk
  split at hk
  · simp [invalidArg] at hk
  rename_i _ h1 h2
  simp only [Res.ok.injEq] at hk
  subst hk
  simp only [Fl.lt_real, Fl.lit_real] at h1 h2
  push_cast at h1 h2
  have he1 : Dist.mkExponential eta1 = .ok (.exponential eta1) := by
    unfold Dist.mkExponential
    rw [if_neg (by simp; linarith)]
  have hU : Dist.mkUniform (lit 0 : ℝ) (lit 1) = .ok (.uniform 0 1) := by
    simp [Dist.mkUniform, Fl.ge]
  simp only [Sim.prices, Sim.kou, hdt]
  rw [bind_of_ok (Sim.newDist_ok _ _)]
  by_cases hl : 0 < lambda * (T / steps)
  · have hP : Dist.mkPoisson (lambda * (T / steps)) = .ok (.poisson (lambda * (T / steps))) := by
      unfold Dist.mkPoisson
      rw [if_neg (by simpa using hl)]
    rw [hP, hU, he1, bind_of_ok (Sim.newDist_ok _ _), bind_of_ok (Sim.newDist_ok _ _),
      bind_of_ok (Sim.newDist_ok _ _)]
    by_cases he : 0 < eta2
    · have he2 : Dist.mkExponential eta2 = .ok (.exponential eta2) := by
        unfold Dist.mkExponential
        rw [if_neg (by simpa using he)]
      rw [he2, bind_of_ok (Sim.newDist_ok _ _), unfoldInt_ok_iff, Sim.kou_unfold, hc]
      simp [hl, he]
    · have he2 : ∃ e, Dist.mkExponential eta2 = .throw e := by
        unfold Dist.mkExponential
        rw [if_pos (by simpa using he)]
        exact ⟨_, rfl⟩
      obtain ⟨e, he2⟩ := he2
      rw [he2, bind_ok_iff]
      simp only [Sim.newDist_ok_iff]
      simp [he]
  · have hP : ∃ e, Dist.mkPoisson (lambda * (T / steps)) = .throw e := by
      unfold Dist.mkPoisson
      rw [if_pos (by simpa using hl)]
      exact ⟨_, rfl⟩
    obtain ⟨e, hP⟩ := hP
    rw [hP, bind_ok_iff]
    simp only [Sim.newDist_ok_iff]
    simp [hl]

/-- **C38, partial.** With `p = 0` (uniform draws being non-negative) the jumps are as claimed. -/
theorem C38_noUp_partial (g : Gen G ℝ) (hg : ∀ s U s', g.draw (.uniform 0 1) s = (.ok U, s') → 0 ≤ U)
    (up down : Dist ℝ) (s s' : G) (js : List ℝ) :
    KouJumpsActual g 0 up down s js s' ↔ KouJumps g 0 up down s js s' := by
  constructor
  · intro h
    induction h with
    | nil s => exact .nil s
    | upDown hU h hE hE' t ih => exact absurd h (not_lt.mpr (hg _ _ _ hU))
    | down hU h hE t ih => exact .down hU h hE ih
  · intro h
    induction h with
    | nil s => exact .nil s
    | up hU h hE t ih => exact absurd h (not_lt.mpr (hg _ _ _ hU))
    | down hU h hE t ih => exact .down hU h hE ih

/-- **C38 fails.**  One step, normal draw 0, one jump, uniform draw 0, then 1 for the up jump: the price
returned also has the next draw, 2, as a down jump. -/
theorem C38_fails : ¬ KouJumpsUpOrDown := by
  intro H
  let f : ℕ → ℝ := fun i => if i = 1 then 1 else if i = 3 then 1 else if i = 4 then 2 else 0
  let g := scriptGen f
  have hk : ModelKind.mkKou (1 : ℝ) (1 / 2) 2 1 = .ok (.kou 1 (1 / 2) 2 1 (5 / 4)) := by
    norm_num [ModelKind.mkKou, Fl.gt]
  have dr : ∀ d i, g.draw d i = (.ok (f i), i + 1) := fun _ _ => rfl
  have f0 : f 0 = 0 := by norm_num [f]
  have f1 : f 1 = 1 := by norm_num [f]
  have f2 : f 2 = 0 := by norm_num [f]
  have f3 : f 3 = 1 := by norm_num [f]
  have f4 : f 4 = 2 := by norm_num [f]
  have hr := (C38_partial g 1 ⟨100, 1 / 5, none, 0⟩ 1 (1 / 2) 2 1 _ hk 1 0 5 _).mpr
    ⟨by norm_num [INT_MAX], by norm_num, by norm_num, rfl,
      .cons (dr _ _) ⟨f 1, 2, 1, [f 3 - f 4], dr _ _, ⟨1, f1 ▸ toInt_one, rfl⟩,
        .upDown (dr _ _) (show f 2 < 1 / 2 by rw [f2]; norm_num) (dr _ _) (dr _ _) (.nil _), rfl, rfl⟩ (.nil _ _)⟩
  obtain ⟨s'', h⟩ := H ℕ g 1 ⟨100, 1 / 5, none, 0⟩ 1 (1 / 2) 2 1 _ hk 1 0 5 _ hr
  obtain ⟨z, J, s₁, s₂, hz, hJ, hp, -⟩ := h.inv
  obtain ⟨x, s₃, n, js, hx, ⟨m, hm, hn⟩, hj, hl, rfl⟩ := hJ
  rw [dr] at hz
  simp only [Prod.mk.injEq, Res.ok.injEq] at hz
  obtain ⟨rfl, rfl⟩ := hz
  rw [dr] at hx
  simp only [Prod.mk.injEq, Res.ok.injEq] at hx
  obtain ⟨rfl, rfl⟩ := hx
  rw [show f (g.newDist (.exponential 1) (g.newDist (.exponential 2) (g.newDist (.uniform 0 1)
          (g.newDist (.poisson (1 * (1 / (1 : ℕ)))) (g.newDist .stdNormal 0)))) + 1) = f 1 from rfl, f1,
    toInt_one] at hm
  simp only [Option.some.injEq] at hm
  subst hm
  subst hn
  have hs : js.sum = 1 := by
    cases hj with
    | nil => simp at hl
    | up hU h hE t =>
      rw [dr] at hU
      simp only [Prod.mk.injEq, Res.ok.injEq] at hU
      obtain ⟨rfl, rfl⟩ := hU
      rw [dr] at hE
      simp only [Prod.mk.injEq, Res.ok.injEq] at hE
      obtain ⟨rfl, rfl⟩ := hE
      cases t with
      | nil => simp; exact f3
      | up => simp at hl
      | down => simp at hl
    | down hU h hE t =>
      rw [dr] at hU
      simp only [Prod.mk.injEq, Res.ok.injEq] at hU
      obtain ⟨rfl, rfl⟩ := hU
      change 1 / 2 ≤ f 2 at h
      rw [f2] at h
      norm_num at h
  rw [hs] at hp
  have := mul_left_cancel₀ (by norm_num) hp
  have := Real.exp_injective this
  simp [f3, f4] at this

/-- Both sides of C37: Merton with intensity 1 can be simulated. -/
example : ∃ ps s', Sim.prices (constGen 1) 12 ⟨100, 1 / 5, none, 1 / 20⟩ 1 (.merton 1 0 (1 / 10)) () =
    (.ok ps, s') :=
  (C37_partial _ (constGen_working ⟨1, toInt_one⟩) 12 (by norm_num) (by norm_num [INT_MAX]) _ 1
    (by norm_num) _ (.merton (lambda := 1) (muJ := 0) (sigmaJ := 1 / 10)
      (by norm_num [ModelKind.mkMerton])) ()).1 (by norm_num [CanSimulate])

/-- A Kou path with jumps in every step. -/
example : ∃ ps s', Sim.prices (constGen 1) 12 ⟨100, 1 / 5, none, 1 / 20⟩ 1
      (.kou 1 (1 / 2) 2 1 (5 / 4)) () = (.ok ps, s') ∧ ps.length = 12 ∧
    ModelKind.mkKou (1 : ℝ) (1 / 2) 2 1 = .ok (.kou 1 (1 / 2) 2 1 (5 / 4)) := by
  have hk : ModelKind.mkKou (1 : ℝ) (1 / 2) 2 1 = .ok (.kou 1 (1 / 2) 2 1 (5 / 4)) := by
    norm_num [ModelKind.mkKou, Fl.gt]
  obtain ⟨ps, s', h⟩ := (C37_partial _ (constGen_working ⟨1, toInt_one⟩) 12 (by norm_num)
    (by norm_num [INT_MAX]) ⟨100, 1 / 5, none, 1 / 20⟩ 1 (by norm_num) _ (.kou hk) ()).1
    (by norm_num [CanSimulate])
  exact ⟨ps, s', h, ((C38_partial _ _ _ _ _ _ _ _ hk _ _ _ _).mp h).2.2.2.1, hk⟩

/-- `p = 0` and uniform draws equal to 1. -/
example : KouJumps (constGen 1) 0 (.exponential 2) (.exponential 1) () [-1, -1] () :=
  (C38_noUp_partial (constGen 1) (by
      intro s U s' h
      simp [constGen, pure_apply] at h
      rw [← h]; norm_num) _ _ _ _ _).mp
    (.down (by rfl) zero_le_one (by rfl) (.down (by rfl) zero_le_one (by rfl) (.nil _)))

end
end Verif
