import Verif.Lemmas.Session
import Verif.Lemmas.MonteCarlo
import Verif.Spec.LookbackSpec

/-!
# The code over the extended reals, on finite numbers
-/

namespace Verif
open Spec

/-! ## Arithmetic -/

namespace Ext
variable (a b : ℝ)

theorem add : fin a + fin b = fin (a + b) := Dbl.exact_add a b
theorem sub : fin a - fin b = fin (a - b) := Dbl.exact_sub a b
theorem neg : -fin a = fin (-a) := by
  show (Dbl.num (-(a : EReal)) : Ext) = _
  rw [← EReal.coe_neg]; rfl
theorem mul : fin a * fin b = fin (a * b) := by
  show (Dbl.num (a : EReal) * Dbl.num (b : EReal) : Ext) = _
  rw [Dbl.mul_num, if_neg (by simp), Rounding.rndE_exact, ← EReal.coe_mul]; rfl
theorem div {b : ℝ} (hb : b ≠ 0) : fin a / fin b = fin (a / b) := by
  show (Dbl.num (a : EReal) / Dbl.num (b : EReal) : Ext) = _
  rw [Dbl.div_num, if_neg (by simpa using hb), if_neg (by simp), Rounding.rndE_exact, ← EReal.coe_div]; rfl
theorem lit (q : ℚ) : (Verif.lit q : Ext) = fin (Verif.lit q : ℝ) := rfl
theorem exp : Fl.exp (fin a) = fin (Fl.exp a) := rfl
theorem sqrt {a : ℝ} (h : 0 ≤ a) : Fl.sqrt (fin a) = fin (Fl.sqrt a) := by
  show (if a < 0 then _ else _) = _
  rw [if_neg (not_lt.mpr h)]; rfl
theorem lt : Fl.lt (fin a) (fin b) = Fl.lt a b := by
  show decide ((a : EReal) < b) = decide (a < b)
  simp
theorem le : Fl.le (fin a) (fin b) = Fl.le a b := by
  show decide ((a : EReal) ≤ b) = decide (a ≤ b)
  simp
theorem ge : Fl.ge (fin a) (fin b) = Fl.ge a b := le b a
theorem max : Fl.max (fin a) (fin b) = fin (Fl.max a b) := by
  unfold Fl.max
  rw [lt]
  split <;> rfl
theorem toInt : FlInt.toInt (fin a) = FlInt.toInt a := rfl
theorem litDiv (n : ℕ) (hn : 0 < n) : fin a / Verif.lit (n : ℚ) = fin (a / Verif.lit (n : ℚ)) := by
  rw [lit, div]
  simp
  omega

end Ext

/-! ## Programs -/

/-- The outcome with the value mapped. -/
def Res.via {α β : Type} (f : α → β) : Res α → Res β
  | .ok a => .ok (f a)
  | .throw e => .throw e
  | .ub => .ub

/-- `y` does what `x` does, with results mapped by `f`. -/
def Maps {G α β : Type} (f : α → β) (y : Eff G β) (x : Eff G α) : Prop := ∀ s, y s = ((x s).1.via f, (x s).2)

namespace Maps
variable {G α β γ δ : Type} {f : α → β} {h : γ → δ}

theorem pure (a : α) {b : β} (e : b = f a) : Maps (G := G) f (Pure.pure b) (Pure.pure a) := fun _ => by rw [e]; rfl
theorem lift {r : Res β} {r' : Res α} (e : r = r'.via f) : Maps (G := G) f (Eff.lift r) (Eff.lift r') := fun _ => by rw [e]; rfl

theorem bind' {y : Eff G β} {x : Eff G α} {k' : β → Eff G δ} {k : α → Eff G γ} (hx : Maps f y x)
    (hk : ∀ s a s', x s = (.ok a, s') → k' (f a) s' = ((k a s').1.via h, (k a s').2)) : Maps h (y >>= k') (x >>= k) := by
  intro s
  have := hx s
  rcases hy : x s with ⟨r, t'⟩
  rw [hy] at this
  cases r with
  | ok a => rw [Eff.bind_of_ok this, Eff.bind_of_ok hy, hk s a t' hy]
  | throw e => rw [Eff.bind_of_throw this, Eff.bind_of_throw hy]; rfl
  | ub => rw [Eff.bind_of_ub this, Eff.bind_of_ub hy]; rfl

theorem bind {y : Eff G β} {x : Eff G α} {k' : β → Eff G δ} {k : α → Eff G γ} (hx : Maps f y x) (hk : ∀ a, Maps h (k' (f a)) (k a)) :
    Maps h (y >>= k') (x >>= k) := hx.bind' fun _ a s' _ => hk a s'

theorem forN {b' : β → Eff G β} {b : α → Eff G α} (hb : ∀ a, Maps f (b' (f a)) (b a)) : ∀ n a, Maps f (Eff.forN b' n (f a)) (Eff.forN b n a)
  | 0, a => pure a rfl
  | n + 1, a => (hb a).bind fun a' => forN hb n a'

theorem unfoldN {b' : β → Eff G (β × δ)} {b : α → Eff G (α × γ)} (hb : ∀ a, Maps (Prod.map f h) (b' (f a)) (b a)) :
    ∀ n a, Maps (List.map h) (Eff.unfoldN b' n (f a)) (Eff.unfoldN b n a)
  | 0, _ => pure _ rfl
  | n + 1, a => (hb a).bind fun x => (unfoldN hb n x.1).bind fun _ => pure _ rfl

theorem unfoldInt {b' : β → Eff G (β × δ)} {b : α → Eff G (α × γ)} (hb : ∀ a, Maps (Prod.map f h) (b' (f a)) (b a)) (n : ℕ) (a : α) :
    Maps (List.map h) (Eff.unfoldInt b' n (f a)) (Eff.unfoldInt b n a) := by
  refine (unfoldN hb _ a).bind fun l => ?_
  split
  · exact pure _ rfl
  · exact lift rfl

theorem forInt {b' : β → Eff G β} {b : α → Eff G α} (hb : ∀ a, Maps f (b' (f a)) (b a)) (n : ℕ) (a : α) :
    Maps f (Eff.forInt b' n (f a)) (Eff.forInt b n a) := by
  refine (forN hb _ a).bind fun l => ?_
  split
  · exact pure _ rfl
  · exact lift rfl

theorem sameRun {y : Eff G Ext} {x : Eff G ℝ} (hm : Maps fin y x) : SameRun y x := by
  intro s a s' e
  rw [hm s, e]; rfl

end Maps

/-! ## Distributions and generators -/

/-- The distribution object with the same, finite, parameters. -/
noncomputable def finDist : Dist ℝ → Dist Ext
  | .stdNormal => .stdNormal
  | .normal mu sigma => .normal (fin mu) (fin sigma)
  | .poisson lambda => .poisson (fin lambda)
  | .uniform a b => .uniform (fin a) (fin b)
  | .exponential lambda => .exponential (fin lambda)
  | .gamma alpha beta => .gamma (fin alpha) (fin beta)

/-- The rate of a gamma distribution is positive. -/
def Regular : Dist ℝ → Prop
  | .gamma _ beta => 0 < beta
  | _ => True

theorem finDist_law {d : Dist ℝ} (h : Regular d) : (finDist d).law = finLaw d.law := by
  cases d with
  | gamma a b =>
    show Dist.StdLaw.gamma (fin a) (lit 1 / fin b) = Dist.StdLaw.gamma (fin a) (fin (lit 1 / b))
    rw [Ext.lit, Ext.div _ h.ne']
  | _ => rfl

/-- The generators draw the same numbers. -/
structure SameGen {G : Type} (g' : Gen G Ext) (g : Gen G ℝ) : Prop where
  draw : ∀ d, Regular d → Maps fin (g'.draw (finDist d)) (g.draw d)
  newDist : ∀ d, Regular d → ∀ s, g'.newDist (finDist d) s = g.newDist d s

theorem SameEngine.gen {E : Type} {e' : Engine E Ext} {e : Engine E ℝ} (h : SameEngine e' e) : SameGen e'.gen e.gen where
  draw d hd s := by
    show (_, _) = _
    rw [finDist_law hd, h.sample]; rfl
  newDist d hd s := by
    show e'.forget (finDist d).law s = _
    rw [finDist_law hd, h.forget]; rfl

/-! ## Simulation -/

namespace Sim
variable {G : Type} {g' : Gen G Ext} {g : Gen G ℝ}

/-- What the simulation reads, as extended reals. -/
noncomputable def finView (v : View ℝ) : View Ext := ⟨fin v.price, fin v.sigma, v.coupon.map fin, fin v.r⟩

theorem finView_c (v : View ℝ) : (finView v).c = fin v.c := by
  unfold View.c finView
  cases v.coupon <;> rfl

theorem maps_newDist (hg : SameGen g' g) {r' : Res (Dist Ext)} {r : Res (Dist ℝ)} (e : r' = r.via finDist)
    (hr : ∀ d, r = .ok d → Regular d) : Maps finDist (newDist g' r') (newDist g r) := by
  unfold newDist
  refine (Maps.lift e).bind' fun s a s' ha => ?_
  cases r with
  | ok d =>
    cases ha
    show (Res.ok (finDist a), g'.newDist (finDist a) s) = _
    rw [hg.newDist a (hr a rfl)]; rfl
  | throw e => cases ha
  | ub => cases ha

theorem maps_mkPoisson (a : ℝ) : Dist.mkPoisson (fin a) = (Dist.mkPoisson a).via finDist := by
  unfold Dist.mkPoisson
  rw [Ext.lit, Ext.le]
  split <;> rfl
theorem maps_mkNormal (m a : ℝ) : Dist.mkNormal (fin m) (fin a) = (Dist.mkNormal m a).via finDist := by
  unfold Dist.mkNormal
  rw [Ext.lit, Ext.le]
  split <;> rfl
theorem maps_mkUniform (a b : ℚ) : Dist.mkUniform (lit a) (lit b) = (Dist.mkUniform (lit a : ℝ) (lit b)).via finDist := by
  unfold Dist.mkUniform
  rw [Ext.lit, Ext.lit, Ext.ge]
  split <;> rfl
theorem maps_mkExponential (a : ℝ) : Dist.mkExponential (fin a) = (Dist.mkExponential a).via finDist := by
  unfold Dist.mkExponential
  rw [Ext.lit, Ext.le]
  split <;> rfl
theorem maps_mkGamma (a b : ℝ) : Dist.mkGamma (fin a) (fin b) = (Dist.mkGamma a b).via finDist := by
  unfold Dist.mkGamma
  rw [Ext.lit, Ext.le, Ext.le]
  split <;> rfl

theorem maps_gbmUpdate (v : View ℝ) {dt : ℝ} (h : 0 ≤ dt) (S z : ℝ) :
    gbmUpdate (finView v) (fin dt) (fin S) (fin z) = fin (gbmUpdate v dt S z) := by
  unfold gbmUpdate
  rw [finView_c]
  simp only [finView, Ext.lit, Ext.add, Ext.sub, Ext.mul, Ext.sqrt h, Ext.exp]

theorem maps_svUpdate (v : View ℝ) {rho dt : ℝ} (hr : |rho| ≤ 1) (h : 0 ≤ dt) (S V z1 z2 : ℝ) :
    svUpdate (finView v) (fin rho) (fin dt) (fin S) (fin V) (fin z1) (fin z2) = fin (svUpdate v rho dt S V z1 z2) := by
  have h1 : 0 ≤ (lit 1 : ℝ) - rho * rho := by
    have := abs_le.mp hr
    simp only [Fl.lit_real, Rat.cast_one]; nlinarith
  have h2 : 0 ≤ Fl.max V (lit 0) * dt := by
    refine mul_nonneg ?_ h
    simp
  unfold svUpdate
  rw [finView_c]
  simp only [finView, Ext.lit, Ext.add, Ext.sub, Ext.mul, Ext.max, Ext.sqrt h1, Ext.sqrt h2, Ext.exp]

theorem maps_kouUpdate (v : View ℝ) {dt : ℝ} (h : 0 ≤ dt) (a b S z j : ℝ) :
    kouUpdate (finView v) (fin a) (fin b) (fin dt) (fin S) (fin z) (fin j) = fin (kouUpdate v a b dt S z j) := by
  unfold kouUpdate
  rw [finView_c]
  simp only [finView, Ext.lit, Ext.add, Ext.sub, Ext.mul, Ext.sqrt h, Ext.exp]

theorem maps_mertonUpdate (v : View ℝ) {dt : ℝ} (h : 0 ≤ dt) (S z j : ℝ) :
    mertonUpdate (finView v) (fin dt) (fin S) (fin z) (fin j) = fin (mertonUpdate v dt S z j) := by
  unfold mertonUpdate
  rw [finView_c]
  simp only [finView, Ext.lit, Ext.add, Ext.sub, Ext.mul, Ext.sqrt h, Ext.exp]

theorem maps_vgUpdate (v : View ℝ) {gam : ℝ} (h : 0 ≤ gam) (a b dt S z : ℝ) :
    vgUpdate (finView v) (fin a) (fin b) (fin dt) (fin S) (fin gam) (fin z) = fin (vgUpdate v a b dt S gam z) := by
  unfold vgUpdate
  rw [finView_c]
  simp only [finView, Ext.add, Ext.sub, Ext.mul, Ext.sqrt h, Ext.exp]

theorem maps_drawCount (hg : SameGen g' g) {d : Dist ℝ} (hd : Regular d) : Maps id (drawCount g' (finDist d)) (drawCount g d) := by
  refine (hg.draw d hd).bind fun x => ?_
  rw [Ext.toInt]
  cases FlInt.toInt x with
  | some n => exact Maps.pure _ rfl
  | none => exact Maps.lift rfl

theorem maps_gbmStep (hg : SameGen g' g) (v : View ℝ) {dt : ℝ} (h : 0 ≤ dt) (S : ℝ) :
    Maps (Prod.map fin fin) (gbmStep g' (finView v) (fin dt) .stdNormal (fin S)) (gbmStep g v dt .stdNormal S) :=
  (hg.draw .stdNormal trivial).bind fun z => Maps.pure _ (by rw [maps_gbmUpdate v h]; rfl)

theorem maps_hestonStep (hg : SameGen g' g) (v : View ℝ) {dt rho : ℝ} (h : 0 ≤ dt) (hr : |rho| ≤ 1) {d' : CIR Ext} {d : CIR ℝ} (hd : SameStep d' d)
    (a b c : ℝ) (x : ℝ × ℝ) : Maps (Prod.map (Prod.map fin fin) fin)
      (hestonStep g' (finView v) (fin a) (fin b) (fin c) (fin rho) d' (fin dt) .stdNormal (Prod.map fin fin x))
      (hestonStep g v a b c rho d dt .stdNormal x) :=
  (hg.draw .stdNormal trivial).bind fun z1 => (hg.draw .stdNormal trivial).bind fun z2 => Maps.pure _ (by
    simp only [Prod.map_fst, Prod.map_snd, maps_svUpdate v hr h, hd _ _ _ _ _ _ h]; rfl)

theorem maps_batesStep (hg : SameGen g' g) (v : View ℝ) {dt rho : ℝ} (h : 0 ≤ dt) (hr : |rho| ≤ 1) {d' : CIR Ext} {d : CIR ℝ} (hd : SameStep d' d)
    (a b c : ℝ) {dp dj : Dist ℝ} (hp : Regular dp) (hj : Regular dj) (x : ℝ × ℝ) : Maps (Prod.map (Prod.map fin fin) fin)
      (batesStep g' (finView v) (fin a) (fin b) (fin c) (fin rho) d' (fin dt) .stdNormal (finDist dp) (finDist dj) (Prod.map fin fin x))
      (batesStep g v a b c rho d dt .stdNormal dp dj x) := by
  refine (hg.draw .stdNormal trivial).bind fun z1 => (hg.draw .stdNormal trivial).bind fun z2 => (maps_drawCount hg hp).bind fun n => ?_
  simp only [Prod.map_fst, Prod.map_snd, maps_svUpdate v hr h, hd _ _ _ _ _ _ h]
  refine (Maps.forN (f := fin) (fun S => ?_) n _).bind fun S => Maps.pure _ rfl
  unfold batesJump
  refine (hg.draw dj hj).bind fun y => Maps.pure _ ?_
  rw [Ext.exp, Ext.mul]

theorem maps_kouJump (hg : SameGen g' g) (p : ℝ) {d₁ d₂ d₃ : Dist ℝ} (h1 : Regular d₁) (h2 : Regular d₂) (h3 : Regular d₃) (j : ℝ) :
    Maps fin (kouJump g' (fin p) (finDist d₁) (finDist d₂) (finDist d₃) (fin j)) (kouJump g p d₁ d₂ d₃ j) := by
  refine (hg.draw d₁ h1).bind fun u => Maps.bind (f := fin) ?_ fun acc => (hg.draw d₃ h3).bind fun y => Maps.pure _ (by rw [Ext.neg, Ext.add])
  rw [Ext.lt]
  split
  · exact (hg.draw d₂ h2).bind fun y => Maps.pure _ (by rw [Ext.add])
  · exact Maps.pure _ rfl

theorem maps_kouStep (hg : SameGen g' g) (v : View ℝ) {dt : ℝ} (h : 0 ≤ dt) (a p m : ℝ) {d₁ d₂ d₃ d₄ : Dist ℝ} (h1 : Regular d₁) (h2 : Regular d₂)
    (h3 : Regular d₃) (h4 : Regular d₄) (S : ℝ) : Maps (Prod.map fin fin)
      (kouStep g' (finView v) (fin a) (fin p) (fin m) (fin dt) .stdNormal (finDist d₁) (finDist d₂) (finDist d₃) (finDist d₄) (fin S))
      (kouStep g v a p m dt .stdNormal d₁ d₂ d₃ d₄ S) :=
  (hg.draw .stdNormal trivial).bind fun z => (maps_drawCount hg h1).bind fun n =>
    (Maps.forN (f := fin) (fun j => maps_kouJump hg p h2 h3 h4 j) n _).bind fun j => Maps.pure _ (by rw [maps_kouUpdate v h]; rfl)

theorem maps_mertonStep (hg : SameGen g' g) (v : View ℝ) {dt : ℝ} (h : 0 ≤ dt) {d₁ d₂ : Dist ℝ} (h1 : Regular d₁) (h2 : Regular d₂) (S : ℝ) :
    Maps (Prod.map fin fin) (mertonStep g' (finView v) (fin dt) .stdNormal (finDist d₁) (finDist d₂) (fin S)) (mertonStep g v dt .stdNormal d₁ d₂ S) := by
  refine (hg.draw .stdNormal trivial).bind fun z => (maps_drawCount hg h1).bind fun n =>
    (Maps.forN (f := fin) (fun j => ?_) n _).bind fun j => Maps.pure _ (by rw [maps_mertonUpdate v h]; rfl)
  unfold mertonJump
  refine (hg.draw d₂ h2).bind fun y => Maps.pure _ ?_
  rw [Ext.add]

theorem maps_vgStep (hg : SameGen g' g) (v : View ℝ) (a b dt : ℝ) {al be : ℝ} (h2 : 0 < be)
    (h0 : ∀ s x s', g.draw (.gamma al be) s = (.ok x, s') → 0 ≤ x) (S : ℝ) :
    Maps (Prod.map fin fin) (vgStep g' (finView v) (fin a) (fin b) (fin dt) (finDist (.gamma al be)) .stdNormal (fin S))
      (vgStep g v a b dt (.gamma al be) .stdNormal S) := by
  refine (hg.draw (.gamma al be) h2).bind' fun s gam s' hs => ?_
  have h0 := h0 _ _ _ hs
  exact ((hg.draw .stdNormal trivial).bind fun z => Maps.pure _ (by rw [maps_vgUpdate v h0]; rfl) : Maps (Prod.map fin fin) _ _) s'

theorem newDist_eq_ok {r : Res (Dist ℝ)} {s s' : G} {d : Dist ℝ} (h : newDist g r s = (.ok d, s')) : r = .ok d := by
  cases r <;> cases h
  rfl

theorem regular_poisson {a : ℝ} {d : Dist ℝ} (h : Dist.mkPoisson a = .ok d) : Regular d := by
  unfold Dist.mkPoisson at h
  split at h <;> cases h
  trivial
theorem regular_normal {m a : ℝ} {d : Dist ℝ} (h : Dist.mkNormal m a = .ok d) : Regular d := by
  unfold Dist.mkNormal at h
  split at h <;> cases h
  trivial
theorem regular_uniform {m a : ℝ} {d : Dist ℝ} (h : Dist.mkUniform m a = .ok d) : Regular d := by
  unfold Dist.mkUniform at h
  split at h <;> cases h
  trivial
theorem regular_exponential {a : ℝ} {d : Dist ℝ} (h : Dist.mkExponential a = .ok d) : Regular d := by
  unfold Dist.mkExponential at h
  split at h <;> cases h
  trivial
theorem gamma_of {a b : ℝ} {d : Dist ℝ} (h : Dist.mkGamma a b = .ok d) : d = .gamma a b ∧ 0 < a ∧ 0 < b := by
  unfold Dist.mkGamma at h
  split at h
  · cases h
  · rename_i hc
    cases h
    simpa using hc

theorem maps_dt (T : ℝ) {steps : ℕ} (h : 0 < steps) : dt (fin T) steps = fin (dt T steps) := Ext.litDiv T steps h

/-- For finite data, all models simulate over the extended reals what they simulate over the reals. -/
theorem maps_prices (hg : SameGen g' g) {k' : ModelKind Ext} {k : ModelKind ℝ} (hk : SameModel k' k) (hnu : ∀ nu a b, k = .varianceGamma nu a b → nu ≠ 0)
    (hG : ∀ nu a b, k = .varianceGamma nu a b → ∀ a b s x s', 0 < a → 0 < b → g.draw (.gamma a b) s = (.ok x, s') → 0 ≤ x)
    (v : View ℝ) {T : ℝ} (hT : 0 ≤ T) {steps : ℕ} (hs : 0 < steps) :
    Maps (List.map fin) (prices g' steps (finView v) (fin T) k') (prices g steps v T k) := by
  have hdt : 0 ≤ dt T steps := by
    unfold dt
    simp only [Fl.lit_real, Rat.cast_natCast]
    positivity
  have hsn : Maps finDist (newDist g' (.ok .stdNormal)) (newDist g (.ok .stdNormal)) := maps_newDist hg rfl fun d h => by cases h; trivial
  cases hk with
  | gbm =>
    refine hsn.bind' fun s d s' hd => ?_
    cases newDist_eq_ok hd
    rw [maps_dt T hs]
    exact Maps.unfoldInt (f := fin) (maps_gbmStep hg v hdt) steps v.price s'
  | @heston kappa theta sigmaV rho v0 _ _ h hr =>
    refine hsn.bind' fun s d s' hd => ?_
    cases newDist_eq_ok hd
    rw [maps_dt T hs]
    exact Maps.unfoldInt (f := Prod.map fin fin) (maps_hestonStep hg v hdt hr h _ _ _) steps (v.price, v0) s'
  | @bates kappa theta sigmaV rho v0 lambda muJ sigmaJ _ _ h hr =>
    refine hsn.bind' fun s d s' hd => ?_
    cases newDist_eq_ok hd
    rw [maps_dt T hs]
    refine (maps_newDist hg (by rw [Ext.mul, maps_mkPoisson]) fun d h => regular_poisson h).bind' (f := finDist) (fun s d₁ s' h1 => ?_) s'
    refine (maps_newDist hg (by rw [maps_mkNormal]) fun d h => regular_normal h).bind' (f := finDist) (fun s d₂ s' h2 => ?_) s'
    exact Maps.unfoldInt (f := Prod.map fin fin) (maps_batesStep hg v hdt hr h _ _ _ (regular_poisson (newDist_eq_ok h1)) (regular_normal (newDist_eq_ok h2)))
      steps (v.price, v0) s'
  | kou =>
    refine hsn.bind' fun s d s' hd => ?_
    cases newDist_eq_ok hd
    rw [maps_dt T hs]
    refine (maps_newDist hg (by rw [Ext.mul, maps_mkPoisson]) fun d h => regular_poisson h).bind' (f := finDist) (fun s d₁ s' h1 => ?_) s'
    refine (maps_newDist hg (maps_mkUniform 0 1) fun d h => regular_uniform h).bind' (f := finDist) (fun s d₂ s' h2 => ?_) s'
    refine (maps_newDist hg (maps_mkExponential _) fun d h => regular_exponential h).bind' (f := finDist) (fun s d₃ s' h3 => ?_) s'
    refine (maps_newDist hg (maps_mkExponential _) fun d h => regular_exponential h).bind' (f := finDist) (fun s d₄ s' h4 => ?_) s'
    exact Maps.unfoldInt (f := fin) (maps_kouStep hg v hdt _ _ _ (regular_poisson (newDist_eq_ok h1)) (regular_uniform (newDist_eq_ok h2))
      (regular_exponential (newDist_eq_ok h3)) (regular_exponential (newDist_eq_ok h4))) steps v.price s'
  | merton =>
    refine hsn.bind' fun s d s' hd => ?_
    cases newDist_eq_ok hd
    rw [maps_dt T hs]
    refine (maps_newDist hg (by rw [Ext.mul, maps_mkPoisson]) fun d h => regular_poisson h).bind' (f := finDist) (fun s d₁ s' h1 => ?_) s'
    refine (maps_newDist hg (by rw [maps_mkNormal]) fun d h => regular_normal h).bind' (f := finDist) (fun s d₂ s' h2 => ?_) s'
    exact Maps.unfoldInt (f := fin) (maps_mertonStep hg v hdt (regular_poisson (newDist_eq_ok h1)) (regular_normal (newDist_eq_ok h2))) steps v.price s'
  | @varianceGamma nu theta omega =>
    refine hsn.bind' fun s d s' hd => ?_
    cases newDist_eq_ok hd
    rw [maps_dt T hs]
    refine (maps_newDist hg (by rw [Ext.div _ (hnu _ _ _ rfl), maps_mkGamma]) fun d h => ?_).bind' (f := finDist) (fun s d₁ s' h1 => ?_) s'
    · rw [(gamma_of h).1]
      exact (gamma_of h).2.2
    · obtain ⟨rfl, ha, hb⟩ := gamma_of (newDist_eq_ok h1)
      exact Maps.unfoldInt (f := fin) (maps_vgStep hg v _ _ _ hb fun s x s' => hG _ _ _ rfl _ _ s x s' ha hb) steps v.price s'

end Sim

/-! ## Averages -/

theorem MC.maps_longPricer {G α β : Type} {f : α → β} {sim' : Eff G β} {sim : Eff G α} (hs : Maps f sim' sim) {pp' : β → Res Ext} {pp : α → Res ℝ}
    (hp : ∀ s a s', sim s = (.ok a, s') → pp' (f a) = (pp a).via fin) (r T : ℝ) {N : ℕ} (hN : 0 < N) :
    Maps fin (MC.longPricer sim' (Eff.lift (.ok (fin r))) pp' (fin T) N) (MC.longPricer sim (Eff.lift (.ok r)) pp T N) := by
  have hb : ∀ acc : ℝ, Maps fin (MC.payBody sim' pp' (fin acc)) (MC.payBody sim pp acc) := by
    intro acc
    unfold MC.payBody
    refine hs.bind' fun s a s' h => ?_
    have key : Maps fin (Eff.lift (pp' (f a)) >>= fun p => (pure (fin acc + p) : Eff G Ext)) (Eff.lift (pp a) >>= fun p => (pure (acc + p) : Eff G ℝ)) := by
      refine (Maps.lift (hp s a s' h)).bind fun y => Maps.pure _ ?_
      rw [Ext.add]
    exact key s'
  unfold MC.longPricer
  refine Maps.bind (f := fin) (Maps.lift rfl) fun r => Maps.bind (f := fin) (Maps.forN hb N (lit 0)) fun x => Maps.pure (MC.finish x N (MC.discount r T)) ?_
  unfold MC.finish MC.discount
  rw [Ext.litDiv _ N hN, Ext.neg, Ext.mul, Ext.exp, Ext.mul]

end Verif
