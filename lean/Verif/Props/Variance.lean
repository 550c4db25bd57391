import Verif.Spec.SqrtLog
import Verif.Lemmas.Paths
import Verif.Props.PathDependent

/-!
# Properties C35 and C36: the stochastic variance models
-/

set_option linter.unusedSectionVars false

namespace Verif
open Eff Spec Logged

/-! ## C35 -/

section
variable {G : Type} {R : Rounding}

/-- The arguments of all square roots in the computation of `x` are not negative (`a < 0` is false). -/
def Safe (x : Logged (Dbl R)) : Prop := x.All Dbl.NotNeg

/-- A discretisation that takes no square root of a negative number when `dt` is not negative. -/
def SafeDisc (d : CIR (Logged (Dbl R))) : Prop :=
  ∀ V dt κ θ σ z, Safe V → Safe dt → Safe κ → Safe θ → Safe σ → Safe z → dt.val.NotNeg →
    Safe (d.update V dt κ θ σ z)

theorem safeDisc_euler : SafeDisc (cirExplicitEuler : CIR (Logged (Dbl R))) := by
  intro V dt κ θ σ z hV hdt hκ hθ hσ hz hnn
  have hm : Safe (Fl.max V (lit 0)) := All.max hV (All.lit 0)
  refine All.add hV (All.add (All.mul (All.mul hκ (All.sub hθ hm)) hdt)
    (All.mul (All.mul hσ (All.sqrt (All.mul hm hdt) ?_)) hz))
  simp only [val_mul, val_max, val_lit]
  exact Dbl.notNeg_mul (Dbl.notNeg_max_zero _) hnn

theorem safeDisc_milstein : SafeDisc (cirMilstein : CIR (Logged (Dbl R))) := by
  intro V dt κ θ σ z hV hdt hκ hθ hσ hz hnn
  exact All.add (safeDisc_euler V dt κ θ σ z hV hdt hκ hθ hσ hz hnn)
    (All.mul (All.mul (All.mul (All.mul (All.lit _) hσ) hσ) hdt) (All.sub (All.mul hz hz) (All.lit _)))

/-- `1 - rho²` is not negative when `rho` passes the check of the constructors. -/
theorem oneMinusSq_notNeg {rho : Dbl R} (h : (Fl.lt rho (-(lit 1)) || Fl.gt rho (lit 1)) = false) :
    Dbl.NotNeg (lit 1 - rho * rho) := by
  cases rho with
  | nan => left; simp
  | num e =>
    simp only [Bool.or_eq_false_iff, Dbl.lit_one, Dbl.neg_num, Dbl.lt_num_false, Fl.gt] at h
    obtain ⟨h1, h2⟩ := h
    have e1 : e ≠ ⊤ := by
      rintro rfl; simp at h2; exact absurd h2 (by exact EReal.coe_ne_top 1)
    have e2 : e ≠ ⊥ := by
      rintro rfl; simp at h1; exact absurd h1 (by exact EReal.coe_ne_top 1)
    lift e to ℝ using ⟨e1, e2⟩
    have hx1 : -1 ≤ e := by
      have : ((-1 : ℝ) : EReal) ≤ e := by simpa using h1
      exact EReal.coe_le_coe_iff.mp this
    have hx2 : e ≤ 1 := by exact_mod_cast h2
    rw [Dbl.mul_num, if_neg (by simp), Dbl.lit_one, Dbl.sub_def, Dbl.neg_num, Dbl.add_num]
    have hle : R.rndE ((e : EReal) * e) ≤ 1 := by
      have : R.rndE ((e : EReal) * e) ≤ R.rndE 1 := R.rndE_mono (by
        rw [← EReal.coe_mul]
        exact_mod_cast (by nlinarith : e * e ≤ 1))
      rwa [R.rndE_one] at this
    have hge : 0 ≤ R.rndE ((e : EReal) * e) := R.rndE_nonneg (by
      rw [← EReal.coe_mul]
      exact_mod_cast mul_self_nonneg e)
    rw [if_neg]
    · right
      refine R.rndE_nonneg ?_
      have : (0 : EReal) ≤ 1 - R.rndE ((e : EReal) * e) := by
        rw [EReal.sub_nonneg (.inr ?_) (.inr ?_)]
        · exact hle
        · exact ne_of_lt (lt_of_le_of_lt hle (by exact EReal.coe_lt_top 1))
        · exact ne_of_gt (lt_of_lt_of_le (by exact EReal.bot_lt_coe 0) hge)
      simpa [sub_eq_add_neg] using this
    · rintro (⟨h, -⟩ | ⟨h, -⟩)
      · exact absurd h (by exact EReal.coe_ne_top 1)
      · exact absurd h (by exact EReal.coe_ne_bot 1)

theorem svUpdate_safe {v : View (Logged (Dbl R))} (hr : Safe v.r) (hc : Safe v.c)
    {rho dt S V z1 z2 : Logged (Dbl R)} (hrho : Safe rho) (hdt : Safe dt) (hS : Safe S) (hV : Safe V)
    (h1 : Safe z1) (h2 : Safe z2) (hnn : dt.val.NotNeg)
    (hsq : Dbl.NotNeg (lit 1 - rho.val * rho.val)) :
    Safe (Sim.svUpdate v rho dt S V z1 z2) := by
  have hm : Safe (Fl.max V (lit 0)) := All.max hV (All.lit 0)
  refine All.mul hS (All.exp (All.add ?_ (All.mul (All.sqrt (All.mul hm hdt) ?_) ?_)))
  · exact All.mul (All.sub (All.sub hr hc) (All.mul (All.lit _) hm)) hdt
  · simp only [val_mul, val_max, val_lit]
    exact Dbl.notNeg_mul (Dbl.notNeg_max_zero _) hnn
  · exact All.add (All.mul hrho h1)
      (All.mul (All.sqrt (All.sub (All.lit _) (All.mul hrho hrho)) (by simpa using hsq)) h2)

/-- All numbers read from the market carry safe logs. -/
structure SafeView (v : View (Logged (Dbl R))) : Prop where
  price : Safe v.price
  r : Safe v.r
  c : Safe v.c

/-- All draws carry safe logs. -/
def SafeGen (g : Gen G (Logged (Dbl R))) : Prop :=
  ∀ d s z s', g.draw d s = (.ok z, s') → Safe z

/-- **C35, Heston.** In every iteration, from every state and for every draws, all square roots are
applied to arguments that are not negative, in any rounding, whenever `dt` is not negative and `rho`
passed the constructor. -/
theorem C35_hestonStep {g : Gen G (Logged (Dbl R))} (hg : SafeGen g) {v : View (Logged (Dbl R))}
    (hv : SafeView v) {kappa theta sigmaV rho dt : Logged (Dbl R)} (hκ : Safe kappa) (hθ : Safe theta)
    (hσ : Safe sigmaV) (hρ : Safe rho)
    (hrho : (Fl.lt rho (-(lit 1)) || Fl.gt rho (lit 1)) = false) (hdt : Safe dt)
    (hnn : dt.val.NotNeg) {disc : CIR (Logged (Dbl R))} (hd : SafeDisc disc) (d : Dist (Logged (Dbl R)))
    (x : Logged (Dbl R) × Logged (Dbl R)) (hS : Safe x.1) (hV : Safe x.2) (s s' : G)
    (y : (Logged (Dbl R) × Logged (Dbl R)) × Logged (Dbl R))
    (h : Sim.hestonStep g v kappa theta sigmaV rho disc dt d x s = (.ok y, s')) :
    Safe y.1.1 ∧ Safe y.1.2 ∧ Safe y.2 := by
  simp only [Sim.hestonStep, bind_ok_iff, pure_ok_iff] at h
  obtain ⟨z1, s1, h1, z2, s2, h2, rfl, -⟩ := h
  have := svUpdate_safe hv.r hv.c hρ hdt hS hV (hg _ _ _ _ h1) (hg _ _ _ _ h2) hnn
    (oneMinusSq_notNeg hrho)
  exact ⟨this, hd _ _ _ _ _ _ hV hdt hκ hθ hσ (hg _ _ _ _ h1) hnn, this⟩

/-- **C35, Bates.** The same for Bates. -/
theorem C35_batesStep {g : Gen G (Logged (Dbl R))} (hg : SafeGen g) {v : View (Logged (Dbl R))}
    (hv : SafeView v) {kappa theta sigmaV rho dt : Logged (Dbl R)} (hκ : Safe kappa) (hθ : Safe theta)
    (hσ : Safe sigmaV) (hρ : Safe rho)
    (hrho : (Fl.lt rho (-(lit 1)) || Fl.gt rho (lit 1)) = false) (hdt : Safe dt)
    (hnn : dt.val.NotNeg) {disc : CIR (Logged (Dbl R))} (hd : SafeDisc disc)
    (d1 d2 d3 : Dist (Logged (Dbl R)))
    (x : Logged (Dbl R) × Logged (Dbl R)) (hS : Safe x.1) (hV : Safe x.2) (s s' : G)
    (y : (Logged (Dbl R) × Logged (Dbl R)) × Logged (Dbl R))
    (h : Sim.batesStep g v kappa theta sigmaV rho disc dt d1 d2 d3 x s = (.ok y, s')) :
    Safe y.1.1 ∧ Safe y.1.2 ∧ Safe y.2 := by
  simp only [Sim.batesStep, bind_ok_iff, pure_ok_iff] at h
  obtain ⟨z1, s1, h1, z2, s2, h2, n, s3, h3, S', s4, h4, rfl, -⟩ := h
  have h0 := svUpdate_safe hv.r hv.c hρ hdt hS hV (hg _ _ _ _ h1) (hg _ _ _ _ h2) hnn
    (oneMinusSq_notNeg hrho)
  have : Safe S' := by
    refine forN_inv (I := Safe) ?_ h0 h4
    intro a s b s' ha hb
    simp only [Sim.batesJump, bind_ok_iff, pure_ok_iff] at hb
    obtain ⟨j, _, hj, rfl, -⟩ := hb
    exact All.mul ha (All.exp (hg _ _ _ _ hj))
  exact ⟨this, hd _ _ _ _ _ _ hV hdt hκ hθ hσ (hg _ _ _ _ h1) hnn, this⟩

/-- **C35.** Whole paths of a Heston or Bates model accepted by its constructor, with either of the
discretisations of the library: no square root of a negative number, in any rounding, for every
maturity that is not negative, every number of steps and all draws. -/
theorem C35_path {g : Gen G (Logged (Dbl R))} (hg : SafeGen g) {v : View (Logged (Dbl R))}
    (hv : SafeView v) (kappa theta sigmaV rho v0 lambda muJ sigmaJ : Dbl R)
    (disc : Option (CIR (Logged (Dbl R)))) (hd : ∀ d ∈ disc, SafeDisc d)
    (k : ModelKind (Logged (Dbl R)))
    (hk : ModelKind.mkHeston (of kappa) (of theta) (of sigmaV) (of rho) (of v0) disc = .ok k ∨
      ModelKind.mkBates (of kappa) (of theta) (of sigmaV) (of rho) (of v0) (of lambda) (of muJ)
        (of sigmaJ) disc = .ok k)
    (steps : ℕ) (T : Dbl R) (hT : T.NotNeg) (s s' : G) (ps : List (Logged (Dbl R)))
    (h : Sim.prices g steps v (of T) k s = (.ok ps, s')) : ∀ p ∈ ps, Safe p := by
  have hdt : Safe (Sim.dt (of T) steps) := All.div (All.of _) (All.lit _)
  have hnn : (Sim.dt (of T) steps).val.NotNeg :=
    Dbl.notNeg_div hT (Dbl.notNeg_lit (by exact_mod_cast Nat.zero_le steps))
  rcases hk with hk | hk
  · unfold ModelKind.mkHeston at hk
    split at hk
    · simp [logicErr] at hk
    · rename_i hrho
      split at hk
      · simp [logicErr] at hk
      · simp only [Res.ok.injEq] at hk
        subst hk
        simp only [Sim.prices, Sim.heston, bind_ok_iff, unfoldInt_ok_iff] at h
        obtain ⟨d, s1, -, -, h⟩ := h
        refine (unfoldN_inv (I := fun x : Logged (Dbl R) × Logged (Dbl R) => Safe x.1 ∧ Safe x.2)
          (J := fun x : Logged (Dbl R) => Safe x) ?_
          ⟨hv.price, show Safe (of v0) from All.of _⟩ h).2
        intro a s x s' ha hx
        have := C35_hestonStep hg hv (All.of _) (All.of _) (All.of _) (All.of _)
          (Bool.not_eq_true _ ▸ hrho) hdt hnn safeDisc_euler d a ha.1 ha.2 s s' x hx
        exact ⟨⟨this.1, this.2.1⟩, this.2.2⟩
  · unfold ModelKind.mkBates at hk
    split at hk
    · simp [invalidArg] at hk
    · split at hk
      · simp [invalidArg] at hk
      · rename_i hrho
        simp only [Res.ok.injEq] at hk
        subst hk
        have hd' : SafeDisc (disc.getD cirExplicitEuler) := by
          cases disc with
          | none => exact safeDisc_euler
          | some d => exact hd d rfl
        simp only [Sim.prices, Sim.bates, bind_ok_iff, unfoldInt_ok_iff] at h
        obtain ⟨d, s1, -, d2, s2, -, d3, s3, -, -, h⟩ := h
        refine (unfoldN_inv (I := fun x : Logged (Dbl R) × Logged (Dbl R) => Safe x.1 ∧ Safe x.2)
          (J := fun x : Logged (Dbl R) => Safe x) ?_
          ⟨hv.price, show Safe (of v0) from All.of _⟩ h).2
        intro a s x s' ha hx
        have := C35_batesStep hg hv (All.of _) (All.of _) (All.of _) (All.of _)
          (Bool.not_eq_true _ ▸ hrho) hdt hnn hd' d d2 d3 a ha.1 ha.2 s s' x hx
        exact ⟨⟨this.1, this.2.1⟩, this.2.2⟩

end

section
variable {G F : Type} [Fl F] [Add F] [Sub F] [Mul F] [Div F] [Neg F] [FlInt F]

theorem newDist_stdNormal (g : Gen G F) : Sim.newDist g (.ok .stdNormal) =
    Logged.dist <$> Sim.newDist (Logged.gen g) (.ok .stdNormal) := rfl

theorem draw_gen (g : Gen G F) (d : Dist (Logged F)) :
    (Logged.gen g).draw d = of <$> g.draw (Logged.dist d) := rfl

/-- **C35.** The logged simulation is the simulation: forgetting the logs gives exactly the outcome,
prices and final generator state of the unlogged one (Heston). -/
theorem C35_sameHeston (g : Gen G F) (steps : ℕ) (v : View (Logged F))
    (kappa theta sigmaV rho v0 T : Logged F) (disc : CIR (Logged F)) (disc' : CIR F)
    (hd : SameDisc disc disc') :
    Sim.prices g steps (Logged.view v) T.val
        (.heston kappa.val theta.val sigmaV.val rho.val v0.val disc') =
      List.map Logged.val <$>
        Sim.prices (Logged.gen g) steps v T (.heston kappa theta sigmaV rho v0 disc) := by
  simp only [Sim.prices, Sim.heston, map_bind]
  rw [newDist_stdNormal, bind_map_left]
  congr 1
  funext d
  refine unfoldInt_map (f := fun x : Logged F × Logged F => (x.1.val, x.2.val)) (fun x => ?_) steps
    (v.price, v0)
  simp only [Sim.hestonStep, Sim.draw, map_bind, draw_gen, map_pure, bind_map_left]
  congr 1; funext z1
  congr 1; funext z2
  have hc : (View.c v).val = View.c (Logged.view v) := by
    simp only [View.c, Logged.view]; cases v.coupon <;> rfl
  simp only [hd _ _ _ _ _ _, Sim.svUpdate, val_mul, val_exp, val_add, val_sub, val_max, val_sqrt,
    val_lit, val_of, hc]
  simp only [Logged.view, Sim.dt, val_div, val_lit]

/-- **C35.** The same for Bates. -/
theorem C35_sameBates (g : Gen G F) (steps : ℕ) (v : View (Logged F))
    (kappa theta sigmaV rho v0 lambda muJ sigmaJ T : Logged F) (disc : CIR (Logged F)) (disc' : CIR F)
    (hd : SameDisc disc disc') :
    Sim.prices g steps (Logged.view v) T.val
        (.bates kappa.val theta.val sigmaV.val rho.val v0.val lambda.val muJ.val sigmaJ.val disc') =
      List.map Logged.val <$>
        Sim.prices (Logged.gen g) steps v T
          (.bates kappa theta sigmaV rho v0 lambda muJ sigmaJ disc) := by
  have hdt : (Sim.dt T steps).val = Sim.dt T.val steps := rfl
  have hP : Sim.newDist g (Dist.mkPoisson (lambda.val * Sim.dt T.val steps)) =
      Logged.dist <$> Sim.newDist (Logged.gen g) (Dist.mkPoisson (lambda * Sim.dt T steps)) := by
    by_cases h : Fl.le (lambda.val * Sim.dt T.val steps) (lit 0) = true
    · simp only [Dist.mkPoisson, le_iff, val_mul, val_lit, hdt, if_pos h]; rfl
    · simp only [Dist.mkPoisson, le_iff, val_mul, val_lit, hdt, if_neg h]; rfl
  have hN : Sim.newDist g (Dist.mkNormal muJ.val sigmaJ.val) =
      Logged.dist <$> Sim.newDist (Logged.gen g) (Dist.mkNormal muJ sigmaJ) := by
    by_cases h : Fl.le sigmaJ.val (lit 0) = true
    · have h' : Fl.le sigmaJ (lit 0 : Logged F) = true := h
      rw [Dist.mkNormal, Dist.mkNormal, if_pos h, if_pos h']; rfl
    · have h' : ¬ Fl.le sigmaJ (lit 0 : Logged F) = true := h
      rw [Dist.mkNormal, Dist.mkNormal, if_neg h, if_neg h']; rfl
  simp only [Sim.prices, Sim.bates, map_bind]
  rw [newDist_stdNormal, hP, hN, bind_map_left]
  simp only [bind_map_left]
  congr 1; funext d1
  congr 1; funext d2
  congr 1; funext d3
  refine unfoldInt_map (f := fun x : Logged F × Logged F => (x.1.val, x.2.val)) (fun x => ?_) steps
    (v.price, v0)
  have hc : (View.c v).val = View.c (Logged.view v) := by
    simp only [View.c, Logged.view]; cases v.coupon <;> rfl
  have hcount : Sim.drawCount (Logged.gen g) d2 = Sim.drawCount g (Logged.dist d2) := by
    simp only [Sim.drawCount, Sim.draw, draw_gen, bind_map_left]
    rfl
  have hj : ∀ S : Logged F, Sim.batesJump g (Logged.dist d3) S.val =
      Logged.val <$> Sim.batesJump (Logged.gen g) d3 S := by
    intro S
    simp only [Sim.batesJump, Sim.draw, draw_gen, bind_map_left, map_bind, map_pure]
    rfl
  simp only [Sim.batesStep, Sim.draw, map_bind, draw_gen, map_pure, bind_map_left, hcount]
  congr 1; funext z1
  congr 1; funext z2
  congr 1; funext n
  have hu : Sim.svUpdate (Logged.view v) rho.val (Sim.dt T.val steps) x.1.val x.2.val z1 z2 =
      (Sim.svUpdate v rho (Sim.dt T steps) x.1 x.2 (of z1) (of z2)).val := by
    simp only [Sim.svUpdate, val_mul, val_exp, val_add, val_sub, val_max, val_sqrt,
      val_lit, val_of, hc]
    simp only [Logged.view, Sim.dt, val_div, val_lit]
  rw [hu, forN_map hj, bind_map_left]
  congr 1; funext S
  rw [hd]
  rfl

theorem sameDisc_euler : SameDisc (cirExplicitEuler : CIR (Logged F)) cirExplicitEuler := by
  intro V dt κ θ σ z
  simp [cirExplicitEuler]

theorem sameDisc_milstein : SameDisc (cirMilstein : CIR (Logged F)) cirMilstein := by
  intro V dt κ θ σ z
  simp [cirMilstein, cirExplicitEuler]

end


/-! ## C36 -/

section
variable {G : Type}

theorem cirExplicitEuler_real (V dt kappa theta sigmaV z : ℝ) :
    (cirExplicitEuler : CIR ℝ).update V dt kappa theta sigmaV z =
      eulerVariance kappa theta sigmaV dt V z := by
  simp [cirExplicitEuler, eulerVariance]
  ring

theorem cirMilstein_real (V dt kappa theta sigmaV z : ℝ) :
    (cirMilstein : CIR ℝ).update V dt kappa theta sigmaV z =
      milsteinVariance kappa theta sigmaV dt V z := by
  simp only [cirMilstein, cirExplicitEuler_real, milsteinVariance, Fl.lit_real]
  push_cast
  ring

theorem mkBates_ok {kappa theta sigmaV rho v0 lambda muJ sigmaJ : ℝ} {disc : Option (CIR ℝ)}
    {k : ModelKind ℝ}
    (hk : ModelKind.mkBates kappa theta sigmaV rho v0 lambda muJ sigmaJ disc = .ok k) :
    0 < sigmaJ ∧ k = .bates kappa theta sigmaV rho v0 lambda muJ sigmaJ
      (disc.getD cirExplicitEuler) := by
  unfold ModelKind.mkBates at hk
  split at hk
  · simp [invalidArg] at hk
  · rename_i h
    split at hk
    · simp [invalidArg] at hk
    · simp only [Res.ok.injEq] at hk
      simp at h
      exact ⟨h.2, hk.symm⟩

theorem bates_iff (g : Gen G ℝ) (steps : ℕ) (v : View ℝ)
    {kappa theta sigmaV rho v0 lambda muJ sigmaJ : ℝ} {disc : CIR ℝ} (hσ : 0 < sigmaJ) (T : ℝ)
    (s s' : G) (ps : List ℝ) :
    Sim.prices g steps v T (.bates kappa theta sigmaV rho v0 lambda muJ sigmaJ disc) s =
      (.ok ps, s') ↔
    steps ≤ INT_MAX ∧ 0 < lambda * (T / steps) ∧ ps.length = steps ∧
      SVPath g (CompoundJump g (.poisson (lambda * (T / steps))) (.normal muJ sigmaJ))
        v.r (v.coupon.getD 0) rho (T / steps)
        (fun V z => disc.update V (T / steps) kappa theta sigmaV z) v.price v0
        (g.newDist (.normal muJ sigmaJ) (g.newDist (.poisson (lambda * (T / steps)))
          (g.newDist .stdNormal s))) ps s' := by
  have hdt : Sim.dt T steps = T / steps := by simp [Sim.dt]
  have hc : v.c = v.coupon.getD 0 := by simp [View.c]
  simp only [Sim.prices, Sim.bates]
  rw [bind_of_ok (Sim.newDist_ok _ _), hdt]
  have hN : Dist.mkNormal muJ sigmaJ = .ok (.normal muJ sigmaJ) := by
    simp [Dist.mkNormal, hσ]
  by_cases hl : 0 < lambda * (T / steps)
  · have hP : Dist.mkPoisson (lambda * (T / steps)) = .ok (.poisson (lambda * (T / steps))) := by
      unfold Dist.mkPoisson
      rw [if_neg (by simpa using hl)]
    rw [hP, hN, bind_of_ok (Sim.newDist_ok _ _), bind_of_ok (Sim.newDist_ok _ _), unfoldInt_ok_iff,
      Sim.bates_unfold, hc]
    simp [hl]
  · have hP : ∃ e, Dist.mkPoisson (lambda * (T / steps)) = .throw e := by
      unfold Dist.mkPoisson
      rw [if_pos (by simpa using hl)]
      exact ⟨_, rfl⟩
    obtain ⟨e, hP⟩ := hP
    rw [hP, bind_ok_iff]
    simp only [Sim.newDist_ok_iff]
    simp [hl]

/-- **C36, Bates.** The prices of a Bates model built with the discretisation `d` are exactly those
whose variance is advanced by `d` (and that have the two correlated normals and the compound Poisson
jump of every step), for every `d`, also one not in the library, all parameters and all draws. -/
theorem C36_bates (g : Gen G ℝ) (steps : ℕ) (v : View ℝ)
    (kappa theta sigmaV rho v0 lambda muJ sigmaJ : ℝ) (d : CIR ℝ) (k : ModelKind ℝ)
    (hk : ModelKind.mkBates kappa theta sigmaV rho v0 lambda muJ sigmaJ (some d) = .ok k) (T : ℝ)
    (s s' : G) (ps : List ℝ) :
    Sim.prices g steps v T k s = (.ok ps, s') ↔
    steps ≤ INT_MAX ∧ 0 < lambda * (T / steps) ∧ ps.length = steps ∧
      SVPath g (CompoundJump g (.poisson (lambda * (T / steps))) (.normal muJ sigmaJ))
        v.r (v.coupon.getD 0) rho (T / steps)
        (fun V z => d.update V (T / steps) kappa theta sigmaV z) v.price v0
        (g.newDist (.normal muJ sigmaJ) (g.newDist (.poisson (lambda * (T / steps)))
          (g.newDist .stdNormal s))) ps s' := by
  obtain ⟨hσ, rfl⟩ := mkBates_ok hk
  exact bates_iff g steps v hσ T s s' ps

/-- **C36, Bates.** Built without a discretisation the variance follows full truncation Euler. -/
theorem C36_batesDefault (g : Gen G ℝ) (steps : ℕ) (v : View ℝ)
    (kappa theta sigmaV rho v0 lambda muJ sigmaJ : ℝ) (k : ModelKind ℝ)
    (hk : ModelKind.mkBates kappa theta sigmaV rho v0 lambda muJ sigmaJ none = .ok k) (T : ℝ)
    (s s' : G) (ps : List ℝ) :
    Sim.prices g steps v T k s = (.ok ps, s') ↔
    steps ≤ INT_MAX ∧ 0 < lambda * (T / steps) ∧ ps.length = steps ∧
      SVPath g (CompoundJump g (.poisson (lambda * (T / steps))) (.normal muJ sigmaJ))
        v.r (v.coupon.getD 0) rho (T / steps) (eulerVariance kappa theta sigmaV (T / steps)) v.price v0
        (g.newDist (.normal muJ sigmaJ) (g.newDist (.poisson (lambda * (T / steps)))
          (g.newDist .stdNormal s))) ps s' := by
  obtain ⟨hσ, rfl⟩ := mkBates_ok hk
  rw [Option.getD_none, bates_iff g steps v hσ T s s' ps]
  simp only [cirExplicitEuler_real]

/-- The claim of C36 for Heston: the discretisation given is the one the variance is advanced with. -/
def HestonUsesGiven : Prop :=
  ∀ (G : Type) (g : Gen G ℝ) (steps : ℕ) (v : View ℝ) (kappa theta sigmaV rho v0 : ℝ) (d : CIR ℝ)
    (k : ModelKind ℝ), ModelKind.mkHeston kappa theta sigmaV rho v0 (some d) = .ok k →
  ∀ (T : ℝ) (s s' : G) (ps : List ℝ), Sim.prices g steps v T k s = (.ok ps, s') →
    SVPath g NoJump v.r (v.coupon.getD 0) rho (T / steps)
      (fun V z => d.update V (T / steps) kappa theta sigmaV z) v.price v0 (g.newDist .stdNormal s) ps s'

/-- **C36, Heston, partial.** A Heston model always follows full truncation Euler: as claimed when no
discretisation or the Euler one is given.  Missing: any other discretisation is ignored (see
`C36_heston_fails`). -/
theorem C36_heston_partial (g : Gen G ℝ) (steps : ℕ) (v : View ℝ)
    (kappa theta sigmaV rho v0 : ℝ) (disc : Option (CIR ℝ)) (k : ModelKind ℝ)
    (hk : ModelKind.mkHeston kappa theta sigmaV rho v0 disc = .ok k) (T : ℝ)
    (s s' : G) (ps : List ℝ) :
    Sim.prices g steps v T k s = (.ok ps, s') ↔
    steps ≤ INT_MAX ∧ ps.length = steps ∧
      SVPath g NoJump v.r (v.coupon.getD 0) rho (T / steps)
        (eulerVariance kappa theta sigmaV (T / steps)) v.price v0 (g.newDist .stdNormal s) ps s' := by
  unfold ModelKind.mkHeston at hk
  split at hk
  · simp [logicErr] at hk
  split at hk
  · simp [logicErr] at hk
  simp only [Res.ok.injEq] at hk
  subst hk
  have hdt : Sim.dt T steps = T / steps := by simp [Sim.dt]
  have hc : v.c = v.coupon.getD 0 := by simp [View.c]
  simp only [Sim.prices, Sim.heston]
  rw [bind_of_ok (Sim.newDist_ok _ _), hdt, unfoldInt_ok_iff, Sim.heston_unfold, hc]
  simp only [cirExplicitEuler_real]

/-- **C36 fails for Heston.** -/
theorem C36_heston_fails : ¬ HestonUsesGiven := by
  intro H
  have hk : ModelKind.mkHeston (0 : ℝ) 0 2 0 0 (some cirMilstein) =
      .ok (.heston 0 0 2 0 0 cirExplicitEuler) := by
    norm_num [ModelKind.mkHeston]
  have h0 := H Unit (constGen 3) 2 ⟨100, 0, none, 0⟩ 0 0 2 0 0 cirMilstein _ hk 2 () ()
    [100, 100] (by
      simp only [Sim.prices, Sim.heston]
      rw [bind_of_ok (Sim.newDist_ok _ _), unfoldInt_ok_iff]
      refine ⟨by norm_num [INT_MAX], ?_⟩
      simp [unfoldN, Sim.hestonStep, Sim.draw, constGen, Sim.svUpdate, cirExplicitEuler, Sim.dt,
        View.c, pure_apply, bind_apply])
  obtain ⟨z1, z2, J, s₁, s₂, s₃, h1, h2, hJ, -, t⟩ := h0.inv
  obtain ⟨y1, y2, K, s₄, s₅, s₆, h4, h5, hK, hp, -⟩ := t.inv
  have e : ∀ {x : ℝ} {s s' : Unit}, (constGen 3).draw .stdNormal s = (.ok x, s') → x = 3 := by
    intro x s s' h
    simp [constGen, pure_apply] at h
    exact h.symm
  rw [e h1, e h4, e h5, hK.1] at hp
  have hm : (cirMilstein : CIR ℝ).update 0 (2 / (2 : ℕ)) 0 0 2 3 = 8 := by
    rw [cirMilstein_real]
    norm_num [milsteinVariance, eulerVariance]
  rw [hm] at hp
  norm_num at hp
  have h8 : (2 : ℝ) ≤ Real.sqrt 8 := Real.le_sqrt_of_sq_le (by norm_num)
  linarith

/-- Milstein passed to the Bates constructor; one step; a jump of size 1 after two normal draws of 1. -/
example : ∃ k ps s', ModelKind.mkBates (2 : ℝ) (1 / 25) (1 / 2) (-7 / 10) (1 / 25) 1 0 (1 / 10)
      (some cirMilstein) = .ok k ∧
    Sim.prices (constGen 1) 1 ⟨100, 1 / 5, none, 1 / 20⟩ 1 k () = (.ok ps, s') := by
  refine ⟨_, _, (), by norm_num [ModelKind.mkBates, Fl.gt]; rfl, (C36_bates _ _ _ 2 (1 / 25) (1 / 2)
    (-7 / 10) (1 / 25) 1 0 (1 / 10) cirMilstein _ (by norm_num [ModelKind.mkBates, Fl.gt]) 1 _ _ _).mpr
    ⟨by norm_num [INT_MAX], by norm_num, rfl, .cons (by rfl) (by rfl)
      ⟨1, (), 1, [1], by rfl, ⟨1, toInt_one, rfl⟩, .cons (by rfl) (.nil _), rfl, rfl⟩ (.nil _ _ _)⟩⟩

/-- Heston without a discretisation, one step. -/
example : ∃ k ps s', ModelKind.mkHeston (2 : ℝ) (1 / 25) (1 / 2) (-7 / 10) (1 / 25) none = .ok k ∧
    Sim.prices (constGen 1) 1 ⟨100, 1 / 5, none, 1 / 20⟩ 1 k () = (.ok ps, s') := by
  refine ⟨_, _, (), by norm_num [ModelKind.mkHeston, Fl.gt]; rfl, (C36_heston_partial _ _ _ 2 (1 / 25)
    (1 / 2) (-7 / 10) (1 / 25) none _ (by norm_num [ModelKind.mkHeston, Fl.gt]) 1 _ _ _).mpr
    ⟨by norm_num [INT_MAX], rfl, .cons (by rfl) (by rfl) ⟨rfl, rfl⟩ (.nil _ _ _)⟩⟩

end
end Verif
