import Verif.Spec.BuilderSpec
import Verif.Props.American

/-!
# C28 - C31: choice of the method, the solver, the builders
-/

set_option linter.unusedSectionVars false

namespace Verif
open Spec

/-! ## Code that cannot throw a given exception -/

/-- The code never throws `e`. -/
def Avoids {σ α : Type} (e : Exc) (x : Eff σ α) : Prop := ∀ s s', x s ≠ (.throw e, s')

namespace Avoids
variable {σ α β : Type} {e : Exc}

theorem pure (a : α) : Avoids e (Pure.pure a : Eff σ α) := by
  intro s s' h; simp at h

theorem lift {r : Res α} (h : r ≠ .throw e) : Avoids e (Eff.lift r : Eff σ α) := by
  intro s s' h'
  simp only [Eff.lift_apply, Prod.mk.injEq] at h'
  exact h h'.1

theorem bind {x : Eff σ α} {f : α → Eff σ β} (hx : Avoids e x) (hf : ∀ a, Avoids e (f a)) :
    Avoids e (x >>= f) := by
  intro s s' h
  rcases hr : x s with ⟨r, s₁⟩
  cases r with
  | ok a => rw [Eff.bind_of_ok hr] at h; exact hf a s₁ s' h
  | throw e' =>
    rw [Eff.bind_of_throw hr] at h
    simp only [Prod.mk.injEq, Res.throw.injEq] at h
    exact hx s s₁ (by rw [hr, h.1])
  | ub => rw [Eff.bind_of_ub hr] at h; simp at h

theorem forN {body : α → Eff σ α} (hb : ∀ a, Avoids e (body a)) :
    ∀ n a, Avoids e (Eff.forN body n a)
  | 0, a => pure a
  | n + 1, a => (hb a).bind fun a' => forN hb n a'

theorem forInt {body : α → Eff σ α} (hb : ∀ a, Avoids e (body a)) (n : ℕ) (a : α) :
    Avoids e (Eff.forInt body n a) := by
  unfold Eff.forInt
  refine (forN hb _ a).bind fun a' => ?_
  split
  · exact pure a'
  · exact lift (by simp)

theorem unfoldN {body : α → Eff σ (α × β)} (hb : ∀ a, Avoids e (body a)) :
    ∀ n a, Avoids e (Eff.unfoldN body n a)
  | 0, _ => pure []
  | n + 1, a => (hb a).bind fun x => (unfoldN hb n x.1).bind fun _ => pure _

theorem unfoldInt {body : α → Eff σ (α × β)} (hb : ∀ a, Avoids e (body a)) (n : ℕ) (a : α) :
    Avoids e (Eff.unfoldInt body n a) := by
  unfold Eff.unfoldInt
  refine (unfoldN hb _ a).bind fun a' => ?_
  split
  · exact pure a'
  · exact lift (by simp)

theorem each {f : α → Eff σ β} (hf : ∀ a, Avoids e (f a)) : ∀ l, Avoids e (Eff.each f l)
  | [] => pure []
  | a :: l => (hf a).bind fun _ => (each hf l).bind fun _ => pure _

end Avoids

/-- The same for `Res`. -/
theorem bind_ne_throw {α β : Type} {e : Exc} {x : Res α} {f : α → Res β} (hx : x ≠ .throw e)
    (hf : ∀ a, f a ≠ .throw e) : (x >>= f) ≠ .throw e := by
  cases x with
  | ok a => exact hf a
  | throw e' =>
    intro h
    rw [Res.bind_throw, Res.throw.injEq] at h
    exact hx (by rw [h])
  | ub => simp

theorem Res.each_ne_throw {α β : Type} {e : Exc} {f : α → Res β} (hf : ∀ a, f a ≠ .throw e) :
    ∀ l, Res.each f l ≠ .throw e
  | [] => by simp [Res.each]
  | a :: l => bind_ne_throw (hf a) fun _ => bind_ne_throw (Res.each_ne_throw hf l) fun _ => by simp

theorem vget_ne_throw {α : Type} {e : Exc} (v : List α) (i : ℕ) : vget v i ≠ .throw e := by
  unfold vget; split <;> simp

section
variable {F σ : Type} [Fl F] [Add F] [Sub F] [Mul F] [Div F] [Neg F] {e : Exc}

theorem exerciseOrContinue_ne_throw {pay : F → Res F} (hp : ∀ x, pay x ≠ .throw e) (df : F)
    (bases : List (List F)) (coeffs : List F) : ∀ l idx,
    MC.exerciseOrContinue pay df bases coeffs l idx ≠ .throw e
  | [], _ => by simp [MC.exerciseOrContinue]
  | (S, itm, c) :: rest, idx => by
    unfold MC.exerciseOrContinue
    split
    · refine bind_ne_throw (hp _) fun _ => bind_ne_throw (vget_ne_throw _ _) fun _ =>
        bind_ne_throw ?_ fun _ =>
        bind_ne_throw (exerciseOrContinue_ne_throw hp df bases coeffs rest _) fun _ => by simp
      unfold MC.dot; split <;> simp
    · exact bind_ne_throw (exerciseOrContinue_ne_throw hp df bases coeffs rest _) fun _ => by simp

theorem lsmcUpdate_ne_throw {strat : Lsmc F} {pay : F → Res F} (hp : ∀ x, pay x ≠ .throw e)
    (hg : ∀ x, strat.generate x ≠ .throw e) (hs : ∀ x y, strat.solve x y ≠ .throw e) (df : F)
    (P E C : List F) : MC.lsmcUpdate strat pay df P E C ≠ .throw e := by
  unfold MC.lsmcUpdate
  dsimp only
  split
  · simp
  · exact bind_ne_throw (hg _) fun _ => bind_ne_throw (hs _ _) fun _ =>
      exerciseOrContinue_ne_throw hp df _ _ _ _

theorem standardLoop_ne_throw {strat : Lsmc F} {pay : F → Res F} (hp : ∀ x, pay x ≠ .throw e)
    (hg : ∀ x, strat.generate x ≠ .throw e) (hs : ∀ x y, strat.solve x y ≠ .throw e) (df : F)
    (paths : List (List F)) : ∀ k cash, MC.standardLoop strat pay df paths k cash ≠ .throw e
  | 0, _ => by simp [MC.standardLoop]
  | k + 1, cash => by
    unfold MC.standardLoop MC.standardStep
    exact bind_ne_throw (bind_ne_throw (Res.each_ne_throw (fun _ => vget_ne_throw _ _) _) fun _ =>
      bind_ne_throw (Res.each_ne_throw hp _) fun _ => lsmcUpdate_ne_throw hp hg hs df _ _ _)
      fun _ => standardLoop_ne_throw hp hg hs df paths k _

theorem mean_ne_throw (v : List F) : MC.mean v ≠ .throw e := by
  unfold MC.mean; split <;> simp

/-- The standard method throws nothing but what simulation, payoff and strategies throw. -/
theorem americanStandard_avoids {strat : Lsmc F} {src : PathSource σ F} {getR : Eff σ F}
    {pay : F → Res F} {T : F} (hp : ∀ x, pay x ≠ .throw e)
    (hg : ∀ x, strat.generate x ≠ .throw e) (hs : ∀ x y, strat.solve x y ≠ .throw e)
    (hR : Avoids e getR) (hsim : Avoids e (src.simulatePrices T)) (N : ℕ) :
    Avoids e (MC.americanStandard strat src getR pay T N) := by
  unfold MC.americanStandard MC.simulateN MC.simulateRow MC.standardValue
  refine hR.bind fun r => Avoids.bind ?_ fun paths => Avoids.lift ?_
  · refine Avoids.unfoldInt (fun _ => ?_) _ _
    refine Avoids.bind (hsim.bind fun ps => ?_) fun _ => Avoids.pure _
    split
    · exact Avoids.pure _
    · exact Avoids.lift (by simp)
  · refine bind_ne_throw ?_ fun _ => bind_ne_throw (Res.each_ne_throw hp _) fun _ =>
      bind_ne_throw ?_ fun _ => bind_ne_throw (mean_ne_throw _) fun _ => by simp
    · split
      · simp
      · exact Res.each_ne_throw (fun _ => vget_ne_throw _ _) _
    · split
      · simp
      · exact standardLoop_ne_throw hp hg hs _ _ _ _

theorem bridgeLoop_avoids {strat : Lsmc F} {src : PathSource σ F} {pay : F → Res F}
    (hp : ∀ x, pay x ≠ .throw e) (hg : ∀ x, strat.generate x ≠ .throw e)
    (hs : ∀ x y, strat.solve x y ≠ .throw e)
    (hback : ∀ x t t', Avoids e (src.simulatePriceBackward x t t')) (dt df : F) :
    ∀ k st, Avoids e (MC.bridgeLoop strat src pay dt df k st)
  | 0, st => Avoids.pure _
  | k + 1, st => by
    unfold MC.bridgeLoop MC.bridgeStep
    exact Avoids.bind (Avoids.bind (Avoids.each (fun x => (hback _ _ _).bind fun _ =>
      (Avoids.lift (hp _)).bind fun _ => Avoids.pure _) _) fun _ =>
      (Avoids.lift (lsmcUpdate_ne_throw hp hg hs df _ _ _)).bind fun _ => Avoids.pure _)
      fun _ => bridgeLoop_avoids hp hg hs hback dt df k _

/-- The same for the bridge method. -/
theorem americanBridge_avoids {strat : Lsmc F} {src : PathSource σ F} {getR : Eff σ F}
    {pay : F → Res F} {T : F} (hp : ∀ x, pay x ≠ .throw e)
    (hg : ∀ x, strat.generate x ≠ .throw e) (hs : ∀ x y, strat.solve x y ≠ .throw e)
    (hR : Avoids e getR) (hsim : Avoids e (src.simulatePriceAtMaturity T))
    (hback : ∀ x t t', Avoids e (src.simulatePriceBackward x t t')) (N : ℕ) :
    Avoids e (MC.americanBridge strat src getR pay T N) := by
  unfold MC.americanBridge MC.simulateN
  refine hR.bind fun r => Avoids.bind ?_ fun paths =>
    (Avoids.lift (Res.each_ne_throw hp _)).bind fun _ => Avoids.bind ?_ fun _ =>
    (Avoids.lift (mean_ne_throw _)).bind fun _ => Avoids.pure _
  · exact Avoids.unfoldInt (fun _ => hsim.bind fun _ => Avoids.pure _) _ _
  · split
    · exact Avoids.lift (by simp)
    · exact bridgeLoop_avoids hp hg hs hback _ _ _ _

end

/-! ## The simulation never throws the backward message -/

/-- "Backward simulation not supported for this model." -/
def unsupported : Exc := ⟨.logicError, "Backward simulation not supported for this model."⟩

section
variable {E Q F : Type} [Fl F] [Add F] [Sub F] [Mul F] [Div F] [Neg F]

/-- The quasi random sequences do not throw `e`. -/
def Env.Avoids (env : Env E Q F) (e : Exc) : Prop :=
  Verif.Avoids e env.sobol.generate ∧ Verif.Avoids e env.faure.generate

theorem invCdf_ne_unsupported (d : Dist F) (q : F) : d.invCdf q ≠ .throw unsupported := by
  cases d <;> simp only [Dist.invCdf, moroInvCdf, logicErr, invalidArg, unsupported]
  · split
    · simp
    · split <;> split <;> simp
  all_goals simp

theorem eval1_ne_unsupported (p : Payoff F) (x : F) : p.eval1 x ≠ .throw unsupported := by
  cases p <;> simp only [Payoff.eval1, logicErr, unsupported] <;> (try split) <;> simp

theorem quasiDraw_avoids {q : Quasi.Sequence Q F} (hq : Avoids unsupported q.generate) (d : Dist F) :
    Avoids unsupported (Quasi.draw q d) := by
  unfold Quasi.draw
  refine Avoids.bind ?_ fun _ => ?_
  · intro s s' h
    unfold Quasi.refill at h
    split at h
    · rcases hg : q.generate s.seq with ⟨r, s1⟩
      rw [hg] at h
      cases r with
      | ok p => simp at h
      | throw e' => simp at h; exact hq s.seq s1 (by rw [hg, h.1])
      | ub => simp at h
    · simp at h
  · intro s s' h
    unfold Quasi.emit at h
    split at h
    · split at h
      · simp only [Prod.mk.injEq] at h; exact invCdf_ne_unsupported _ _ h.1
      · simp at h
    · rename_i e' he'
      exact vget_ne_throw _ _ he'
    · simp at h

theorem draw_avoids {env : Env E Q F} (he : env.Avoids unsupported) (d : Dist F) :
    Avoids unsupported ((GenObj.gen env).draw d) := by
  intro s s' h
  cases s with
  | pseudo s => simp [GenObj.gen, GenObj.draw, Pseudo.draw] at h
  | sobol s =>
    simp only [GenObj.gen, GenObj.draw, Prod.mk.injEq] at h
    exact quasiDraw_avoids he.1 d s _ (Prod.ext h.1 rfl)
  | faure s =>
    simp only [GenObj.gen, GenObj.draw, Prod.mk.injEq] at h
    exact quasiDraw_avoids he.2 d s _ (Prod.ext h.1 rfl)

theorem newDist_avoids {G : Type} {g : Gen G F} {d : Res (Dist F)} (hd : d ≠ .throw unsupported) :
    Avoids unsupported (Sim.newDist g d) := by
  unfold Sim.newDist
  refine (Avoids.lift hd).bind fun d s s' h => ?_
  simp at h

theorem mkDist_ne (x y : F) : Dist.mkNormal x y ≠ .throw unsupported ∧
    Dist.mkPoisson x ≠ .throw unsupported ∧ Dist.mkUniform x y ≠ .throw unsupported ∧
    Dist.mkExponential x ≠ .throw unsupported ∧ Dist.mkGamma x y ≠ .throw unsupported := by
  refine ⟨?_, ?_, ?_, ?_, ?_⟩ <;>
    simp only [Dist.mkNormal, Dist.mkPoisson, Dist.mkUniform, Dist.mkExponential, Dist.mkGamma,
      invalidArg, unsupported] <;> split <;> simp

variable [FlInt F]

/-- Forward simulation never throws it, for every model class. -/
theorem prices_avoids {G : Type} {g : Gen G F} (hd : ∀ d, Avoids unsupported (g.draw d))
    (steps : ℕ) (v : View F) (T : F) (k : ModelKind F) :
    Avoids unsupported (Sim.prices g steps v T k) := by
  have hcount : ∀ d, Avoids unsupported (Sim.drawCount g d) := by
    intro d
    refine (hd d).bind fun x => ?_
    split
    · exact Avoids.pure _
    · exact Avoids.lift (by simp)
  cases k with
  | gbm =>
    refine (newDist_avoids (by simp)).bind fun d => Avoids.unfoldInt (fun S => ?_) _ _
    exact (hd d).bind fun _ => Avoids.pure _
  | heston kappa theta sigmaV rho v0 disc =>
    refine (newDist_avoids (by simp)).bind fun d => Avoids.unfoldInt (fun S => ?_) _ _
    exact (hd d).bind fun _ => (hd d).bind fun _ => Avoids.pure _
  | bates kappa theta sigmaV rho v0 lambda muJ sigmaJ disc =>
    refine (newDist_avoids (by simp)).bind fun d =>
      (newDist_avoids (mkDist_ne _ (lit 0)).2.1).bind fun d2 =>
      (newDist_avoids (mkDist_ne _ _).1).bind fun d3 => Avoids.unfoldInt (fun S => ?_) _ _
    exact (hd d).bind fun _ => (hd d).bind fun _ => (hcount _).bind fun n =>
      (Avoids.forN (fun a => (hd _).bind fun _ => Avoids.pure _) _ _).bind fun _ => Avoids.pure _
  | kou lambda p eta1 eta2 muJ =>
    refine (newDist_avoids (by simp)).bind fun d =>
      (newDist_avoids (mkDist_ne _ (lit 0)).2.1).bind fun d2 =>
      (newDist_avoids (mkDist_ne _ _).2.2.1).bind fun d3 =>
      (newDist_avoids (mkDist_ne _ (lit 0)).2.2.2.1).bind fun d4 =>
      (newDist_avoids (mkDist_ne _ (lit 0)).2.2.2.1).bind fun d5 =>
      Avoids.unfoldInt (fun S => ?_) _ _
    refine (hd d).bind fun _ => (hcount _).bind fun n =>
      (Avoids.forN (fun a => (hd _).bind fun u => ?_) _ _).bind fun _ => Avoids.pure _
    refine Avoids.bind ?_ fun _ => (hd _).bind fun _ => Avoids.pure _
    split
    · exact (hd _).bind fun _ => Avoids.pure _
    · exact Avoids.pure _
  | merton lambda muJ sigmaJ =>
    refine (newDist_avoids (by simp)).bind fun d =>
      (newDist_avoids (mkDist_ne _ (lit 0)).2.1).bind fun d2 =>
      (newDist_avoids (mkDist_ne _ _).1).bind fun d3 => Avoids.unfoldInt (fun S => ?_) _ _
    exact (hd d).bind fun _ => (hcount _).bind fun n =>
      (Avoids.forN (fun a => (hd _).bind fun _ => Avoids.pure _) _ _).bind fun _ => Avoids.pure _
  | varianceGamma nu theta omega =>
    refine (newDist_avoids (by simp)).bind fun d =>
      (newDist_avoids (mkDist_ne _ _).2.2.2.2).bind fun d2 => Avoids.unfoldInt (fun S => ?_) _ _
    exact (hd _).bind fun _ => (hd _).bind fun _ => Avoids.pure _

theorem onGen_avoids {α : Type} {e : Exc} {x : Eff (GenObj E Q F) α} (hx : Avoids e x) (g : ℕ) :
    Avoids e (Sys.onGen g x) := by
  intro s s' h
  unfold Sys.onGen at h
  split at h
  · rename_i o _
    simp only [Prod.mk.injEq] at h
    exact hx o _ (Prod.ext h.1 rfl)
  · simp at h

theorem view_avoids {e : Exc} (mo : ModelObj F) : Avoids e (mo.view : Eff (Sys E Q F) (View F)) := by
  unfold ModelObj.view
  refine Avoids.bind ?_ fun _ => Avoids.bind ?_ fun _ => Avoids.pure _
  · intro s s' h
    unfold Sys.onMarket Market.deref at h
    dsimp only at h
    split at h <;> simp at h
  · intro s s' h
    simp [Sys.onMarket, Market.getR] at h

theorem getR_avoids {e : Exc} (p : Pricer F) : Avoids e (p.getR : Eff (Sys E Q F) F) := by
  unfold Pricer.getR
  split
  · intro s s' h; simp [Sys.onMarket, Market.getR] at h
  · exact Avoids.lift (by simp)

variable [FlInf F]

/-- **C28.** Exactly with the GBM model and a pseudo random generator the American pricer uses the
Brownian bridge method, otherwise the standard method, which never simulates backward. -/
theorem C28_method (env : Env E Q F) (p : Pricer F) (hp : p.cls = .american) (N : ℕ)
    (s : Sys E Q F) (o : GenObj E Q F) (ho : s.gens[p.model.gen]? = some o) :
    ((∃ st, o = .pseudo st) ∧ p.model.kind = .gbm → p.calculatePrice env N s =
      MC.americanBridge p.strat (p.model.source env o.dim) p.getR p.option.payoff.eval1 p.option.T N
        s) ∧
    (¬ ((∃ st, o = .pseudo st) ∧ p.model.kind = .gbm) →
      ∀ backward, p.calculatePrice env N s =
      MC.americanStandard p.strat { p.model.source env o.dim with simulatePriceBackward := backward }
        p.getR p.option.payoff.eval1 p.option.T N s) := by
  have hsteps : (p.model.getSteps : Eff (Sys E Q F) ℕ) s = (.ok o.dim, s) := by
    unfold ModelObj.getSteps Sys.onGen
    rw [ho]
    simp only [Prod.mk.injEq, true_and]
    obtain ⟨h1, h2⟩ := List.getElem?_eq_some_iff.mp ho
    have : s.gens.set p.model.gen o = s.gens := by rw [← h2]; exact List.set_getElem_self h1
    rw [this]
  have hb : p.useBridge s = true ↔ (∃ st, o = .pseudo st) ∧ p.model.kind = .gbm := by
    unfold Pricer.useBridge
    rw [ho]
    cases o <;> cases p.model.kind <;> simp [GenObj.isPseudo]
  unfold Pricer.calculatePrice
  rw [Eff.bind_of_ok hsteps, hp]
  constructor
  · intro h
    simp only [MC.american, hb.mpr h, if_true]
  · intro h backward
    have : p.useBridge s = false := by
      rw [← Bool.not_eq_true, hb]; exact h
    simp only [MC.american, this]
    rfl

/-- **C28.** So the American pricer never fails because backward simulation is unsupported, for every
model, generator, number of paths and state, as long as the user-supplied strategies and
the external quasi random sequences do not themselves throw this very exception. -/
theorem C28_neverUnsupported (env : Env E Q F) (he : env.Avoids unsupported) (p : Pricer F)
    (hp : p.cls = .american)
    (hg : ∀ x, p.strat.generate x ≠ .throw unsupported)
    (hs : ∀ x y, p.strat.solve x y ≠ .throw unsupported) (N : ℕ) (s s' : Sys E Q F) :
    p.calculatePrice env N s ≠ (.throw unsupported, s') := by
  cases ho : s.gens[p.model.gen]? with
  | none =>
    unfold Pricer.calculatePrice
    have : (p.model.getSteps : Eff (Sys E Q F) ℕ) s = (.ub, s) := by
      unfold ModelObj.getSteps Sys.onGen
      rw [ho]
    rw [Eff.bind_of_ub this]
    simp
  | some o =>
    have hprices : ∀ T, Avoids unsupported ((p.model.source env o.dim).simulatePrices T) := fun T =>
      (view_avoids _).bind fun v => onGen_avoids (prices_avoids (draw_avoids he) _ _ _ _) _
    by_cases h : (∃ st, o = .pseudo st) ∧ p.model.kind = .gbm
    · rw [(C28_method env p hp N s o ho).1 h]
      refine americanBridge_avoids (eval1_ne_unsupported _) hg hs (getR_avoids p) ?_ ?_ N s s'
      · refine (view_avoids _).bind fun v => onGen_avoids ?_ _
        refine (prices_avoids (draw_avoids he) _ _ _ _).bind fun ps => Avoids.lift ?_
        unfold vback; split <;> simp
      · intro x t t'
        refine (view_avoids _).bind fun v => onGen_avoids ?_ _
        rw [h.2]
        exact (newDist_avoids (by simp)).bind fun d => (draw_avoids he d).bind fun _ =>
          Avoids.pure _
    · rw [(C28_method env p hp N s o ho).2 h (p.model.source env o.dim).simulatePriceBackward]
      exact americanStandard_avoids (eval1_ne_unsupported _) hg hs (getR_avoids p) (hprices _) N s s'

end

section examples
variable {F : Type} [Fl F]

/-- A small environment: all variates are 0, all quasi random points are `(1)`. -/
def toyEnv : Env Unit Unit F where
  engine := { default := (), seeded := fun _ => (), sample := fun _ _ => (lit 0, ()),
              forget := fun _ _ => () }
  sobol := { seeded := fun _ _ => .ok (), generate := fun _ => (.ok [lit 1], ()), scale := lit 2 }
  faure := { seeded := fun _ _ => .ok (), generate := fun _ => (.ok [lit 1], ()), scale := lit 2 }

/-- Two stocks X and Y, one pseudo random generator and one Sobol generator. -/
def toySys : Sys Unit Unit F where
  market := { heap := [⟨lit 1, lit 1, none⟩, ⟨lit 2, lit 1, none⟩],
              stockDataMap := [("X", 0), ("Y", 1)],
              r := lit 0, observers := [], objs := [], log := [] }
  gens := [.pseudo ⟨3, 0, ()⟩, .sobol ⟨3, 0, 0, [lit 1], ()⟩]

/-- Constant regression with value 0. -/
def toyLsmc : Lsmc F where
  generate x := .ok (x.map fun _ => [lit 1])
  solve _ _ := .ok [lit 0]

/-- An option with strike 1 on a ticker. -/
def toyOption (cls : OptClass) (ticker : String) : OptObj F :=
  { cls := cls, ticker := ticker, payoff := .vanilla .put (lit 1), T := lit 1, barrier := none }

variable [Add F] [Sub F] [Mul F] [Div F] [Neg F] [FlInt F] [FlInf F]

/-- GBM with the pseudo random generator: bridge. -/
example := (C28_method (F := F) toyEnv
  ⟨.american, toyOption .american "X", ⟨"X", 0, .gbm, 0⟩, toyLsmc, true⟩ rfl 10 toySys
  (.pseudo ⟨3, 0, ()⟩) rfl).1 ⟨⟨_, rfl⟩, rfl⟩

/-- GBM with the Sobol generator: standard method. -/
example := (C28_method (F := F) toyEnv
  ⟨.american, toyOption .american "X", ⟨"X", 0, .gbm, 1⟩, toyLsmc, true⟩ rfl 10 toySys
  (.sobol ⟨3, 0, 0, [lit 1], ()⟩) rfl).2 (by simp)

/-- Merton's model with the pseudo random generator: standard method, and no exception about backward
simulation. -/
example := (C28_method (F := F) toyEnv
  ⟨.american, toyOption .american "X", ⟨"X", 0, .merton (lit 1) (lit 0) (lit 1), 0⟩, toyLsmc, true⟩
  rfl 10 toySys (.pseudo ⟨3, 0, ()⟩) rfl).2 (by simp)

example := C28_neverUnsupported (F := F) toyEnv
  ⟨fun s s' => by simp [toyEnv], fun s s' => by simp [toyEnv]⟩
  ⟨.american, toyOption .american "X", ⟨"X", 0, .merton (lit 1) (lit 0) (lit 1), 0⟩, toyLsmc, true⟩
  rfl (by simp [toyLsmc]) (by simp [toyLsmc]) 10 toySys

end examples

/-! ## C29 -/

section
variable {P σ F : Type}

/-- One call on a solver. -/
def MCSolver.step (price : P → ℕ → Eff σ F) (st : MCSolver P × σ) :
    SolverCall P σ → MCSolver P × σ
  | .setN n => (st.1.setN n, st.2)
  | .setPricer p => (st.1.setPricer p, st.2)
  | .solve => (st.1, (st.1.solve price st.2).2)
  | .other f => (st.1, f st.2)

theorem solver_N (price : P → ℕ → Eff σ F) (h : List (SolverCall P σ)) (st : MCSolver P × σ) :
    CurrentN st.1.N h (h.foldl (MCSolver.step price) st).1.N := by
  induction h using List.reverseRecOn with
  | nil => exact .inr ⟨rfl, by simp⟩
  | append_singleton h c ih =>
    rw [List.foldl_append, List.foldl_cons, List.foldl_nil]
    by_cases hc : ∃ n, c = .setN n
    · obtain ⟨n, rfl⟩ := hc
      exact .inl ⟨h, [], rfl, by simp⟩
    · have : (MCSolver.step price (h.foldl (MCSolver.step price) st) c).1.N =
          (h.foldl (MCSolver.step price) st).1.N := by
        cases c <;> first | rfl | simp at hc
      rw [this]
      rcases ih with ⟨h₁, h₂, e, hn⟩ | ⟨e, hn⟩
      · refine .inl ⟨h₁, h₂ ++ [c], ?_, ?_⟩
        · conv_lhs => rw [e]
          simp
        · intro m hm
          rcases List.mem_append.mp hm with hm | hm
          · exact hn m hm
          · exact hc ⟨m, (List.mem_singleton.mp hm).symm⟩
      · refine .inr ⟨e, ?_⟩
        intro m hm
        rcases List.mem_append.mp hm with hm | hm
        · exact hn m hm
        · exact hc ⟨m, (List.mem_singleton.mp hm).symm⟩

theorem solver_pricer (price : P → ℕ → Eff σ F) (h : List (SolverCall P σ)) (N₀ : ℕ) (s : σ) :
    CurrentPricer h (h.foldl (MCSolver.step price) (MCSolver.construct N₀, s)).1.pricer := by
  induction h using List.reverseRecOn with
  | nil => exact .inr ⟨rfl, by simp⟩
  | append_singleton h c ih =>
    rw [List.foldl_append, List.foldl_cons, List.foldl_nil]
    by_cases hc : ∃ n, c = .setPricer n
    · obtain ⟨n, rfl⟩ := hc
      exact .inl ⟨h, [], rfl, by simp⟩
    · have : (MCSolver.step price (h.foldl (MCSolver.step price) (MCSolver.construct N₀, s)) c).1.pricer =
          (h.foldl (MCSolver.step price) (MCSolver.construct N₀, s)).1.pricer := by
        cases c <;> first | rfl | simp at hc
      rw [this]
      rcases ih with ⟨h₁, h₂, e, hn⟩ | ⟨e, hn⟩
      · refine .inl ⟨h₁, h₂ ++ [c], ?_, ?_⟩
        · conv_lhs => rw [e]
          simp
        · intro m hm
          rcases List.mem_append.mp hm with hm | hm
          · exact hn m hm
          · exact hc ⟨m, (List.mem_singleton.mp hm).symm⟩
      · refine .inr ⟨e, ?_⟩
        intro m hm
        rcases List.mem_append.mp hm with hm | hm
        · exact hn m hm
        · exact hc ⟨m, (List.mem_singleton.mp hm).symm⟩

/-- Two decompositions of a list at its last element of a kind agree. -/
theorem last_unique {α : Type} {K : α → Prop} {h₁ h₂ h₁' h₂' : List α} {a b : α}
    (e : h₁ ++ a :: h₂ = h₁' ++ b :: h₂') (ha : K a) (hb : K b) (h : ∀ x ∈ h₂, ¬ K x)
    (h' : ∀ x ∈ h₂', ¬ K x) : a = b := by
  induction h₁ generalizing h₁' with
  | nil =>
    cases h₁' with
    | nil => simp at e; exact e.1
    | cons c h₁' =>
      simp at e
      exact absurd hb (h b (by rw [e.2]; simp))
  | cons c h₁ ih =>
    cases h₁' with
    | nil =>
      simp at e
      exact absurd ha (h' a (by rw [← e.2]; simp))
    | cons d h₁' =>
      simp at e
      exact ih e.2

theorem CurrentN_unique {N₀ n n' : ℕ} {h : List (SolverCall P σ)} (a : CurrentN N₀ h n)
    (b : CurrentN N₀ h n') : n = n' := by
  rcases a with ⟨h₁, h₂, e, hn⟩ | ⟨e, hn⟩ <;> rcases b with ⟨h₁', h₂', e', hn'⟩ | ⟨e', hn'⟩
  · rw [e] at e'
    have := last_unique (K := fun c => ∃ m, c = .setN m) e' ⟨_, rfl⟩ ⟨_, rfl⟩
      (by rintro x hx ⟨m, rfl⟩; exact hn m hx) (by rintro x hx ⟨m, rfl⟩; exact hn' m hx)
    injection this
  · exact absurd (by rw [e]; simp) (hn' n)
  · exact absurd (by rw [e']; simp) (hn n')
  · rw [e, e']

theorem CurrentPricer_unique {p p' : Option P} {h : List (SolverCall P σ)} (a : CurrentPricer h p)
    (b : CurrentPricer h p') : p = p' := by
  rcases a with ⟨h₁, h₂, e, hn⟩ | ⟨e, hn⟩ <;> rcases b with ⟨h₁', h₂', e', hn'⟩ | ⟨e', hn'⟩
  · rw [e] at e'
    have := last_unique (K := fun c => ∃ m, c = .setPricer m) e' ⟨_, rfl⟩ ⟨_, rfl⟩
      (by rintro x hx ⟨m, rfl⟩; exact hn m hx) (by rintro x hx ⟨m, rfl⟩; exact hn' m hx)
    injection this
  · exact absurd (by rw [e]; simp) (hn' p)
  · exact absurd (by rw [e']; simp) (hn p')
  · rw [e, e']

/-- **C29.** After every history of calls on a new solver (with anything else happening in between)
`solve` throws `logic_error` when no pricer was set or the last one set is null, and otherwise is the
price of the last set pricer for the last set number of paths. -/
theorem C29_solve (price : P → ℕ → Eff σ F) (N₀ : ℕ) (s₀ : σ) (h : List (SolverCall P σ)) (n : ℕ)
    (p : Option P) (hn : CurrentN N₀ h n) (hp : CurrentPricer h p) (s : σ) :
    (h.foldl (MCSolver.step price) (MCSolver.construct N₀, s₀)).1.solve price s =
      match p with
      | none => (.throw ⟨.logicError, "Pricer is not set for MonteCarloSolver."⟩, s)
      | some q => price q n s := by
  have h1 := CurrentN_unique (solver_N price h (MCSolver.construct N₀, s₀)) hn
  have h2 := CurrentPricer_unique (solver_pricer price h N₀ s₀) hp
  unfold MCSolver.solve
  rw [h1, h2]
  cases p <;> rfl

/-- **C29.** The default number of paths is 100000, and every history has a current number of paths
and a current pricer. -/
theorem C29_total (h : List (SolverCall P σ)) (price : P → ℕ → Eff σ F) (s₀ : σ) :
    ((MCSolver.construct : MCSolver P).N = 100000) ∧ (∀ N₀, ∃! n, CurrentN N₀ h n) ∧
      ∃! p, CurrentPricer h p :=
  ⟨rfl, fun N₀ => ⟨_, solver_N price h (MCSolver.construct N₀, s₀),
    fun _ hy => CurrentN_unique hy (solver_N price h (MCSolver.construct N₀, s₀))⟩,
    ⟨_, solver_pricer price h 0 s₀, fun _ hy => CurrentPricer_unique hy (solver_pricer price h 0 s₀)⟩⟩

/-- setPricer(7), setN(5), solve, setPricer(8): the price of pricer 8 with 5 paths. -/
example : (([.setPricer (some 7), .setN 5, .solve, .setPricer (some 8)] :
      List (SolverCall ℕ Unit)).foldl
      (MCSolver.step fun q n => (pure (q * 1000 + n) : Eff Unit ℕ)) (MCSolver.construct, ())).1.solve
      (fun q n => (pure (q * 1000 + n) : Eff Unit ℕ)) () = (.ok 8005, ()) :=
  C29_solve (fun q n => (pure (q * 1000 + n) : Eff Unit ℕ)) 100000 ()
    [.setPricer (some 7), .setN 5, .solve, .setPricer (some 8)] 5 (some 8)
    (.inl ⟨[.setPricer (some 7)], [.solve, .setPricer (some 8)], rfl, by simp⟩)
    (.inl ⟨[.setPricer (some 7), .setN 5, .solve], [], rfl, by simp⟩) ()

/-- No pricer after `setPricer(nullptr)`. -/
example : (([.setPricer (some 7), .setPricer none] : List (SolverCall ℕ Unit)).foldl
      (MCSolver.step fun q n => (pure (q * 1000 + n) : Eff Unit ℕ)) (MCSolver.construct, ())).1.solve
      (fun q n => (pure (q * 1000 + n) : Eff Unit ℕ)) () =
      (.throw ⟨.logicError, "Pricer is not set for MonteCarloSolver."⟩, ()) :=
  C29_solve (fun q n => (pure (q * 1000 + n) : Eff Unit ℕ)) 100000 ()
    [.setPricer (some 7), .setPricer none] 100000 none
    (.inr ⟨rfl, by simp⟩) (.inl ⟨[.setPricer (some 7)], [], rfl, by simp⟩) ()

end

/-! ## C30 and C31 -/

section
variable {E Q F : Type}

theorem casts_iff (c : PricerClass) (o : OptClass) : Builder.casts c o = true ↔ o ∈ Family c := by
  cases c <;> cases o <;> simp [Builder.casts, Family]

/-- **C30.** `setOption` of every builder accepts exactly the options of its family and throws
`invalid_argument` for every other option and for a null pointer. -/
theorem C30_setOption (b : Builder F) (o : Option (OptObj F)) :
    ((Builder.setOption o b).1.IsOk ↔ ∃ x, o = some x ∧ x.cls ∈ Family b.cls) ∧
    ((Builder.setOption o b).1.Throws .invalidArgument ↔ ¬ ∃ x, o = some x ∧ x.cls ∈ Family b.cls) := by
  unfold Builder.setOption
  cases o with
  | none => simp [Option.filter]
  | some x =>
    by_cases h : x.cls ∈ Family b.cls
    · have := (casts_iff b.cls x.cls).mpr h
      simp [Option.filter, this, h]
    · have : Builder.casts b.cls x.cls = false := by
        rw [← Bool.not_eq_true, casts_iff]; exact h
      simp [Option.filter, this, h]

variable [Fl F]

/-- One call on a builder; the client catches exceptions. -/
def Builder.step (env : Env E Q F) (bs : Builder F × Sys E Q F) :
    BuilderCall F (Sys E Q F) → Builder F × Sys E Q F
  | .setOption o => ((Builder.setOption o bs.1).2, bs.2)
  | .setMarketData md => (bs.1.setMarketData md, bs.2)
  | .setStockPriceModel m => (bs.1.setStockPriceModel m, bs.2)
  | .setStrategies st => (bs.1.setStrategies st, bs.2)
  | .build rd => (Builder.build env rd bs).2
  | .other f => (bs.1, f bs.2)

/-- The state after a history of calls on a new builder. -/
def Builder.after (env : Env E Q F) (c : PricerClass) (strat : Lsmc F) (s : Sys E Q F)
    (h : List (BuilderCall F (Sys E Q F))) : Builder F × Sys E Q F :=
  h.foldl (Builder.step env) (Builder.construct c strat, s)

variable {env : Env E Q F} {c : PricerClass} {strat : Lsmc F} {s : Sys E Q F}

theorem build_state (env : Env E Q F) (rd : ℕ) (bs : Builder F × Sys E Q F) :
    (Builder.build env rd bs).2.1.cls = bs.1.cls ∧
    (Builder.build env rd bs).2.1.option = bs.1.option := by
  unfold Builder.build
  split
  · exact ⟨rfl, rfl⟩
  · split
    · exact ⟨rfl, rfl⟩
    · split <;> exact ⟨rfl, rfl⟩

theorem setOption_cls (o : Option (OptObj F)) (b : Builder F) :
    (Builder.setOption o b).2.cls = b.cls := by
  unfold Builder.setOption
  dsimp only
  split <;> rfl

theorem setOption_option (o : Option (OptObj F)) (b : Builder F) :
    (Builder.setOption o b).2.option = o.filter (fun x => Builder.casts b.cls x.cls) := by
  unfold Builder.setOption
  dsimp only
  split
  · rename_i h; rw [h]
  · rename_i h; rw [h]

theorem after_cls (h : List (BuilderCall F (Sys E Q F))) : (Builder.after env c strat s h).1.cls = c := by
  unfold Builder.after
  induction h using List.reverseRecOn with
  | nil => rfl
  | append_singleton h x ih =>
    rw [List.foldl_append, List.foldl_cons, List.foldl_nil]
    refine Eq.trans ?_ ih
    cases x with
    | setOption o => exact setOption_cls o _
    | build rd => exact (build_state env rd _).1
    | _ => rfl

/-- The builder's option is the last accepted one. -/
theorem after_option (h : List (BuilderCall F (Sys E Q F))) (o : OptObj F) :
    (Builder.after env c strat s h).1.option = some o ↔ AcceptedOption c h o := by
  induction h using List.reverseRecOn with
  | nil =>
    constructor
    · intro h; cases h
    · rintro ⟨⟨h₁, h₂, e, -⟩, -⟩; simp at e
  | append_singleton h x ih =>
    have hstep : Builder.after env c strat s (h ++ [x]) =
        Builder.step env (Builder.after env c strat s h) x := by
      unfold Builder.after
      rw [List.foldl_append, List.foldl_cons, List.foldl_nil]
    rw [hstep]
    by_cases hx : ∃ o', x = .setOption o'
    · obtain ⟨o', rfl⟩ := hx
      show (Builder.setOption o' _).2.option = some o ↔ _
      rw [setOption_option, Option.filter_eq_some_iff, after_cls, casts_iff]
      constructor
      · rintro ⟨rfl, h2⟩
        exact ⟨⟨h, [], rfl, by simp⟩, h2⟩
      · rintro ⟨⟨h₁, h₂, e, hn⟩, h2⟩
        have := last_unique (K := fun c => ∃ m, c = .setOption m) (h₁ := h) (h₂ := []) e ⟨_, rfl⟩
          ⟨_, rfl⟩ (by simp) (by rintro x hx ⟨m, rfl⟩; exact hn m hx)
        injection this with this
        exact ⟨this, h2⟩
    · have hopt : (Builder.step env (Builder.after env c strat s h) x).1.option =
          (Builder.after env c strat s h).1.option := by
        cases x with
        | setOption o => exact absurd ⟨o, rfl⟩ hx
        | build rd => exact (build_state _ _ _).2
        | _ => rfl
      rw [hopt, ih]
      constructor
      · rintro ⟨⟨h₁, h₂, rfl, hn⟩, h2⟩
        refine ⟨⟨h₁, h₂ ++ [x], by simp, ?_⟩, h2⟩
        intro m hm
        rcases List.mem_append.mp hm with hm | hm
        · exact hn m hm
        · exact hx ⟨m, (List.mem_singleton.mp hm).symm⟩
      · rintro ⟨⟨h₁, h₂, e, hn⟩, h2⟩
        refine ⟨?_, h2⟩
        cases h₂ using List.reverseRecOn with
        | nil =>
          have := (List.append_inj' (t₁ := [x]) (t₂ := [BuilderCall.setOption (some o)]) e rfl).2
          exact absurd ⟨_, (List.singleton_inj.mp this)⟩ hx
        | append_singleton h₂ y _ =>
          have e' : h ++ [x] = (h₁ ++ .setOption (some o) :: h₂) ++ [y] := by rw [e]; simp
          obtain ⟨e1, -⟩ := List.append_inj' e' rfl
          exact ⟨h₁, h₂, e1, fun m hm => hn m (List.mem_append_left _ hm)⟩

theorem defaultModel_throw {rd : ℕ} {md : Bool} {t : String} {s s' : Sys E Q F} {e : Exc}
    (h : Builder.defaultModel env rd md t s = (.throw e, s')) : e.kind = .invalidArgument := by
  unfold Builder.defaultModel at h
  rw [Eff.bind_of_ok (show Sys.newGen (.pseudo (Pseudo.constructRd env.engine 52 rd)) s =
    (.ok s.gens.length, { s with gens := s.gens ++
      [.pseudo (Pseudo.constructRd env.engine 52 rd)] }) from rfl)] at h
  cases md with
  | false => simp at h
  | true =>
    simp only [if_true] at h
    unfold ModelObj.construct at h
    rcases hg : Sys.onMarket (Market.getStockData t) { s with gens := s.gens ++
      [.pseudo (Pseudo.constructRd env.engine 52 rd)] } with ⟨r, s₁⟩
    cases r with
    | ok p =>
      rw [Eff.bind_of_ok hg] at h
      rcases hd : Sys.onMarket (Market.deref p) s₁ with ⟨r, s₂⟩
      cases r with
      | ok d => rw [Eff.bind_of_ok hd] at h; simp [Eff.bind_apply] at h
      | throw e' =>
        unfold Sys.onMarket Market.deref at hd
        dsimp only at hd
        split at hd <;> simp at hd
      | ub => rw [Eff.bind_of_ub hd] at h; simp at h
    | throw e' =>
      rw [Eff.bind_of_throw hg] at h
      simp only [Prod.mk.injEq, Res.throw.injEq] at h
      rw [← h.1]
      unfold Sys.onMarket Market.getStockData at hg
      dsimp only at hg
      split at hg
      · simp at hg
      · simp only [invalidArg, Prod.mk.injEq, Res.throw.injEq] at hg
        rw [← hg.1]
    | ub => rw [Eff.bind_of_ub hg] at h; simp at h

/-- **C30.** After every history of calls on a builder of every class, `build` throws `logic_error`
exactly when the builder has no accepted option (none was ever set, or the last one was rejected). -/
theorem C30_build (h : List (BuilderCall F (Sys E Q F))) (rd : ℕ) :
    (Builder.build env rd (Builder.after env c strat s h)).1.Throws .logicError ↔
      ¬ ∃ o, AcceptedOption c h o := by
  have hopt := after_option (env := env) (c := c) (strat := strat) (s := s) h
  generalize Builder.after env c strat s h = bs at hopt ⊢
  unfold Builder.build
  cases ho : bs.1.option with
  | none =>
    simp only [throws_logicErr, true_iff]
    rintro ⟨o, h⟩
    rw [(hopt o).mpr h] at ho
    cases ho
  | some o =>
    have : ∃ o, AcceptedOption c h o := ⟨o, (hopt o).mp ho⟩
    simp only [this, not_true, iff_false]
    split
    · simp
    · split
      · simp
      · rename_i e s' he
        rw [Res.throws_throw, defaultModel_throw he]
        simp
      · simp

/-- **C30.** A built pricer is of the builder's class and holds the last accepted option, whose class
belongs to the family. -/
theorem C30_family (h : List (BuilderCall F (Sys E Q F))) (rd : ℕ) (p : Pricer F)
    (hb : (Builder.build env rd (Builder.after env c strat s h)).1 = .ok p) :
    p.cls = c ∧ AcceptedOption c h p.option ∧ p.option.cls ∈ Family c := by
  have hopt := after_option (env := env) (c := c) (strat := strat) (s := s) h
  have hcls := after_cls (env := env) (c := c) (strat := strat) (s := s) h
  generalize Builder.after env c strat s h = bs at hopt hb hcls
  unfold Builder.build at hb
  cases ho : bs.1.option with
  | none => rw [ho] at hb; simp at hb
  | some o =>
    have ha := (hopt o).mp ho
    rw [ho] at hb
    dsimp only at hb
    split at hb
    · simp only [Res.ok.injEq] at hb; subst hb; exact ⟨hcls, ha, ha.2⟩
    · split at hb
      · simp only [Res.ok.injEq] at hb; subst hb; exact ⟨hcls, ha, ha.2⟩
      · simp at hb
      · simp at hb

/-- **C30.** In particular a rejected `setOption` makes the builder forget the option it had: the next
`build` throws `logic_error`. -/
theorem C30_rejectedForgets (h : List (BuilderCall F (Sys E Q F))) (o : Option (OptObj F)) (rd : ℕ)
    (ho : ¬ ∃ x, o = some x ∧ x.cls ∈ Family c) :
    (Builder.build env rd (Builder.after env c strat s (h ++ [.setOption o]))).1.Throws
      .logicError := by
  rw [C30_build]
  rintro ⟨x, ⟨h₁, h₂, e, hn⟩, hx⟩
  have := last_unique (K := fun c => ∃ m, c = .setOption m) (h₁ := h) (h₂ := []) e ⟨_, rfl⟩ ⟨_, rfl⟩
    (by simp) (by rintro x hx ⟨m, rfl⟩; exact hn m hx)
  injection this with this
  exact ho ⟨x, this, hx⟩

/-- What the default model is. -/
theorem defaultModel_ok {rd : ℕ} {md : Bool} {t : String} {s s' : Sys E Q F} {m : ModelObj F}
    (h : Builder.defaultModel env rd md t s = (.ok m, s')) :
    m.ticker = t ∧ m.kind = .gbm ∧ mapFind t s.market.stockDataMap = some m.handle ∧
      s'.market = s.market ∧
      s'.gens = s.gens ++ [.pseudo (Pseudo.constructRd env.engine 52 rd)] ∧ m.gen = s.gens.length := by
  unfold Builder.defaultModel at h
  rw [Eff.bind_of_ok (show Sys.newGen (.pseudo (Pseudo.constructRd env.engine 52 rd)) s =
    (.ok s.gens.length, { s with gens := s.gens ++
      [.pseudo (Pseudo.constructRd env.engine 52 rd)] }) from rfl)] at h
  cases md with
  | false => simp at h
  | true =>
    simp only [if_true] at h
    unfold ModelObj.construct at h
    cases hf : mapFind t s.market.stockDataMap with
    | none =>
      rw [Eff.bind_of_throw (e := ⟨.invalidArgument, t ++ " Stock data not found."⟩)
        (by unfold Sys.onMarket Market.getStockData; dsimp only; rw [hf]; rfl)] at h
      simp at h
    | some p =>
      rw [Eff.bind_of_ok (a := p)
        (by unfold Sys.onMarket Market.getStockData; dsimp only; rw [hf])] at h
      cases hd : s.market.heap[p]? with
      | none =>
        rw [Eff.bind_of_ub (by unfold Sys.onMarket Market.deref; dsimp only; rw [hd])] at h
        simp at h
      | some d =>
        rw [Eff.bind_of_ok (a := d) (by unfold Sys.onMarket Market.deref; dsimp only; rw [hd]),
          Eff.bind_of_ok (Eff.lift_apply _ _)] at h
        simp only [Eff.pure_apply, Prod.mk.injEq, Res.ok.injEq] at h
        obtain ⟨rfl, rfl⟩ := h
        exact ⟨rfl, rfl, rfl, rfl, rfl, rfl⟩

/-- **C31.** A builder that has no stock model (none given, none built before) builds a pricer that
simulates the ticker of its option: a geometric Brownian motion whose data are the current data of
that ticker, driven by a fresh pseudo random generator of dimension 52. -/
theorem C31_firstBuild_partial (rd : ℕ) (bs : Builder F × Sys E Q F) (p : Pricer F)
    (hm : bs.1.model = none) (hb : (Builder.build env rd bs).1 = .ok p) :
    p.model.ticker = p.option.ticker ∧ p.model.kind = .gbm ∧
      mapFind p.option.ticker bs.2.market.stockDataMap = some p.model.handle ∧
      ∃ g, (Builder.build env rd bs).2.2.gens[p.model.gen]? = some g ∧ g.dim = 52 ∧
        g.isPseudo = true := by
  unfold Builder.build at hb ⊢
  cases ho : bs.1.option with
  | none => rw [ho] at hb; simp at hb
  | some o =>
    simp only [ho, hm] at hb ⊢
    rcases hd : Builder.defaultModel env rd bs.1.md o.ticker bs.2 with ⟨r, s'⟩
    rw [hd] at hb
    cases r with
    | throw e => simp at hb
    | ub => simp at hb
    | ok m =>
      simp only [Res.ok.injEq] at hb
      subst hb
      obtain ⟨h1, h2, h3, h4, h5, h6⟩ := defaultModel_ok hd
      refine ⟨h1, h2, h3, .pseudo (Pseudo.constructRd env.engine 52 rd), ?_, rfl, rfl⟩
      dsimp only
      rw [h5, h6]
      simp

/-- **C31.** For every history of calls on a builder in which no stock model is given explicitly and
all options are on one ticker, a built pricer simulates that ticker, which is the ticker of its
option.  Missing for the full claim: builders used for several tickers, see `C31_fails`. -/
theorem C31_oneTicker_partial (h : List (BuilderCall F (Sys E Q F))) (t : String)
    (hmodel : ∀ m, .setStockPriceModel (some m) ∉ h)
    (ht : ∀ o, .setOption (some o) ∈ h → o.ticker = t) (rd : ℕ) (p : Pricer F)
    (hb : (Builder.build env rd (Builder.after env c strat s h)).1 = .ok p) :
    p.model.ticker = p.option.ticker ∧ p.option.ticker = t := by
  have hopt : ∀ h : List (BuilderCall F (Sys E Q F)),
      (∀ o, .setOption (some o) ∈ h → o.ticker = t) →
      ∀ o, (Builder.after env c strat s h).1.option = some o → o.ticker = t := by
    intro h ht o ho
    obtain ⟨⟨h₁, h₂, rfl, -⟩, -⟩ := (after_option h o).mp ho
    exact ht o (by simp)
  have hmod : ∀ m, (Builder.after env c strat s h).1.model = some m → m.ticker = t := by
    clear hb
    induction h using List.reverseRecOn with
    | nil => intro m hm; cases hm
    | append_singleton h x ih =>
      have ht' : ∀ o, .setOption (some o) ∈ h → o.ticker = t := fun o ho =>
        ht o (List.mem_append_left _ ho)
      have ih := ih (fun m hm => hmodel m (List.mem_append_left _ hm)) ht'
      have ho := hopt h ht'
      have hstep : Builder.after env c strat s (h ++ [x]) =
          Builder.step env (Builder.after env c strat s h) x := by
        unfold Builder.after
        rw [List.foldl_append, List.foldl_cons, List.foldl_nil]
      rw [hstep]
      generalize Builder.after env c strat s h = bs at ih ho
      cases x with
      | setOption o =>
        intro m hm
        apply ih
        rw [← hm]
        show bs.1.model = (Builder.setOption o bs.1).2.model
        unfold Builder.setOption
        dsimp only
        split <;> rfl
      | setStockPriceModel m' =>
        intro m hm
        have : m' = some m := hm
        subst this
        exact absurd (List.mem_append_right h (List.mem_singleton.mpr rfl)) (hmodel m)
      | build rd =>
        intro m hm
        change (Builder.build env rd bs).2.1.model = some m at hm
        unfold Builder.build at hm
        split at hm
        · exact ih m hm
        · rename_i o hoo
          split at hm
          · exact ih m hm
          · split at hm
            · rename_i m' s' hd
              simp only [Option.some.injEq] at hm
              subst hm
              rw [(defaultModel_ok hd).1]
              exact ho o hoo
            · exact ih m hm
            · exact ih m hm
      | setMarketData md => exact ih
      | setStrategies st => exact ih
      | other f => exact ih
  have ho := hopt h ht
  generalize Builder.after env c strat s h = bs at hb hmod ho
  unfold Builder.build at hb
  cases hoo : bs.1.option with
  | none => rw [hoo] at hb; simp at hb
  | some o =>
    rw [hoo] at hb
    dsimp only at hb
    have := ho o hoo
    split at hb
    · rename_i m hm
      simp only [Res.ok.injEq] at hb; subst hb
      exact ⟨(hmod m hm).trans this.symm, this⟩
    · split at hb
      · rename_i m s' hd
        simp only [Res.ok.injEq] at hb; subst hb
        exact ⟨(defaultModel_ok hd).1, this⟩
      · simp at hb
      · simp at hb

/-- **C31 fails.** A builder used for an option on X and then for an option on Y: both builds succeed,
and the second pricer, whose option is on Y, simulates X. -/
theorem C31_fails :
    let bs := Builder.after (toyEnv : Env Unit Unit F) .american toyLsmc toySys
      [.setOption (some (toyOption .american "X")), .build 0,
        .setOption (some (toyOption .american "Y"))]
    ∃ p, (Builder.build toyEnv 0 bs).1 = .ok p ∧ p.option.ticker = "Y" ∧ p.model.ticker = "X" ∧
      p.model.handle = 0 ∧ mapFind "Y" bs.2.market.stockDataMap = some 1 := by
  exact ⟨_, rfl, rfl, rfl, rfl, rfl⟩

/-- A digital option is accepted by the single path builder, not by the American one. -/
example : (Builder.setOption (some (toyOption .digital "X"))
    (Builder.construct (F := F) .singlePath toyLsmc)).1.IsOk ∧
    (Builder.setOption (some (toyOption .digital "X"))
      (Builder.construct (F := F) .american toyLsmc)).1.Throws .invalidArgument :=
  ⟨(C30_setOption _ _).1.mpr ⟨_, rfl, by simp [toyOption, Builder.construct, Family]⟩,
    (C30_setOption _ _).2.mpr (by
      rintro ⟨x, hx, h⟩
      cases hx
      simp [toyOption, Builder.construct, Family] at h)⟩

/-- A history with an accepted option, whose build succeeds. -/
example : ∃ p, (Builder.build toyEnv 0 (Builder.after (toyEnv : Env Unit Unit F) .american toyLsmc
      toySys [.setOption (some (toyOption .american "X")), .build 0])).1 = .ok p ∧ p.cls = .american ∧
      p.option.cls ∈ Family .american ∧ p.model.ticker = "X" := by
  have hf := C30_family (env := (toyEnv : Env Unit Unit F)) (c := .american)
    (strat := toyLsmc) (s := toySys) [.setOption (some (toyOption .american "X")), .build 0] 0 _ rfl
  refine ⟨_, rfl, hf.1, hf.2.2, ?_⟩
  have := C31_oneTicker_partial (env := (toyEnv : Env Unit Unit F)) (c := .american)
    (strat := toyLsmc) (s := toySys)
    [.setOption (some (toyOption .american "X")), .build 0] "X" (by simp)
    (by simp [toyOption]) 0 _ rfl
  exact this.1.trans this.2

/-- And one in which the second option is rejected. -/
example := C30_rejectedForgets (env := (toyEnv : Env Unit Unit F)) (c := .american)
  (strat := toyLsmc) (s := toySys) [.setOption (some (toyOption .american "X"))]
  (some (toyOption .european "X")) 0 (by
    rintro ⟨x, hx, h⟩
    cases hx
    simp [toyOption, Family] at h)

example := C31_firstBuild_partial (env := (toyEnv : Env Unit Unit F)) 0
  (Builder.after toyEnv .american toyLsmc toySys [.setOption (some (toyOption .american "X"))]) _ rfl
  rfl

end

end Verif
