import Verif.Model.Random
import Verif.Model.StockData

/-!
# Stock models (`/repo/src/model`)

The functions are written over an arbitrary generator `Gen G F`; the random draws are the outcomes
of `draw`.  A step of the simulation loop consists of the draws (effectful) and an arithmetic update
(a pure function of the draws), in the order of the C++ code.
-/

namespace Verif

/-- A `CIRDiscretization` object: `update(V, dt, kappa, theta, sigma_v, z)` returns the new `V`
(include/model/discretization/base_cir_discretization.h); arbitrary, since users may derive
from the class. -/
structure CIR (F : Type) where
  update : F → F → F → F → F → F → F

/-- What a simulation reads from the stock data object and the market data at its start. -/
structure View (F : Type) where
  price : F
  sigma : F
  coupon : Option F
  r : F

/-- A stock model's class and its own data members (include/model/*.h). -/
inductive ModelKind (F : Type)
  | gbm
  | heston (kappa theta sigmaV rho v0 : F) (disc : CIR F)
  | bates (kappa theta sigmaV rho v0 lambda muJ sigmaJ : F) (disc : CIR F)
  | kou (lambda p eta1 eta2 muJ : F)
  | merton (lambda muJ sigmaJ : F)
  | varianceGamma (nu theta omega : F)

section
variable {F : Type} [Fl F]

/-- `stockData_->getCoupon().value_or(0.0)` -/
def View.c (v : View F) : F := v.coupon.getD (lit 0)

variable [Add F] [Sub F] [Mul F] [Div F] [Neg F]

/-- `CIRExplicitEulerDiscretization::update` (explicit_euler_cir_discretization.cpp:5-11). -/
def cirExplicitEuler : CIR F where
  update V dt kappa theta sigmaV z :=
    let vMax := Fl.max V (lit 0)
    V + (kappa * (theta - vMax) * dt + sigmaV * Fl.sqrt (vMax * dt) * z)

/-- `CIRMilsteinDiscretization::update` (milstein_cir_discretization.cpp:4-12). -/
def cirMilstein : CIR F where
  update V dt kappa theta sigmaV z :=
    let V' := cirExplicitEuler.update V dt kappa theta sigmaV z
    V' + lit (1 / 4) * sigmaV * sigmaV * dt * (z * z - lit 1)

namespace ModelKind

/-- `HestonModel::HestonModel` (heston_model.cpp:7-33), after the base class constructor.  The test
in line 30 is on the constructor parameter, which has been moved from and is null, so the default
discretisation always replaces the given one. -/
def mkHeston (kappa theta sigmaV rho v0 : F) (_disc : Option (CIR F)) : Res (ModelKind F) :=
  if Fl.lt rho (-(lit 1)) || Fl.gt rho (lit 1) then
    logicErr "Correlation rho must be between [-1,1]"
  else if Fl.lt v0 (lit 0) || Fl.lt sigmaV (lit 0) then
    logicErr "Initial volatility v0 and vol of vol sigma_v must be non-negative"
  else .ok (heston kappa theta sigmaV rho v0 cirExplicitEuler)

/-- `BatesModel::BatesModel` (bates_model.cpp:9-27), after the base class constructor. -/
def mkBates (kappa theta sigmaV rho v0 lambda muJ sigmaJ : F) (disc : Option (CIR F)) :
    Res (ModelKind F) :=
  if Fl.le v0 (lit 0) || Fl.le kappa (lit 0) || Fl.le sigmaV (lit 0) || Fl.le sigmaJ (lit 0) then
    invalidArg "v0, kappa, sigma_v, and sigmaJ must be positive"
  else if Fl.lt rho (-(lit 1)) || Fl.gt rho (lit 1) then
    invalidArg "rho must be between -1 and 1"
  else .ok (bates kappa theta sigmaV rho v0 lambda muJ sigmaJ (disc.getD cirExplicitEuler))

/-- `KouModel::KouModel` (kou_model.cpp:9-23), after the base class constructor. -/
def mkKou (lambda p eta1 eta2 : F) : Res (ModelKind F) :=
  if Fl.lt p (lit 0) || Fl.gt p (lit 1) then invalidArg "p must be between [0,1]."
  else if Fl.lt eta1 (lit 1) then invalidArg "eta1 must be between larger than 1."
  else if Fl.lt eta2 (lit 0) then invalidArg "eta2 must be between larger than 0."
  else .ok (kou lambda p eta1 eta2
    (p * (eta1 / (eta1 - lit 1)) + (lit 1 - p) * (eta2 / (eta2 + lit 1))))

/-- `MertonJumpDiffusionModel::MertonJumpDiffusionModel` (merton_jump_diffusion_model.cpp:10-18),
after the base class constructor. -/
def mkMerton (lambda muJ sigmaJ : F) : Res (ModelKind F) :=
  if Fl.le sigmaJ (lit 0) then invalidArg "sigmaJ must be positive"
  else .ok (merton lambda muJ sigmaJ)

/-- `VarianceGammaModel::VarianceGammaModel` (variance_gamma_model.cpp:10-23), after the base class
constructor; `sigma` is the volatility of the stock at construction. -/
def mkVarianceGamma (sigma nu theta : F) : Res (ModelKind F) :=
  if Fl.le nu (lit 0) then invalidArg "nu must be positive"
  else .ok (varianceGamma nu theta
    (lit 1 / nu * Fl.log (lit 1 - theta * nu - lit (1 / 2) * sigma * sigma * nu)))

end ModelKind

/-! ## Simulation -/

namespace Sim
variable {G : Type}

/-- Draw from a distribution. -/
def draw (g : Gen G F) (d : Dist F) : Eff G F := g.draw d

/-- Construct a local distribution object. -/
def newDist (g : Gen G F) (d : Res (Dist F)) : Eff G (Dist F) := do
  let d ← Eff.lift d
  fun s => (.ok d, g.newDist d s)

/-- `const double dt = T / static_cast<double>(steps)` -/
def dt (T : F) (steps : Nat) : F := T / lit (steps : ℚ)

/-- The price update of one GBM step (gbm_model.cpp:25-28). -/
def gbmUpdate (v : View F) (dt S z : F) : F :=
  let drift := (v.r - v.c - lit (1 / 2) * v.sigma * v.sigma) * dt
  let diffusion := v.sigma * Fl.sqrt dt * z
  S * Fl.exp (drift + diffusion)

/-- One iteration of the GBM loop (gbm_model.cpp:23-30). -/
def gbmStep (g : Gen G F) (v : View F) (dt : F) (d : Dist F) (S : F) : Eff G (F × F) := do
  let z ← draw g d
  let S' := gbmUpdate v dt S z
  return (S', S')

/-- `GeometricBrownianMotionModel::simulatePrices` (gbm_model.cpp:13-33). -/
def gbm (g : Gen G F) (steps : Nat) (v : View F) (T : F) : Eff G (List F) := do
  let snd ← newDist g (.ok .stdNormal)
  Eff.unfoldInt (gbmStep g v (dt T steps) snd) steps v.price

/-- The price update of one Heston or Bates step, without jumps (heston_model.cpp:56-64,
bates_model.cpp:53-60). -/
def svUpdate (v : View F) (rho dt S V z1 z2 : F) : F :=
  let zS := rho * z1 + Fl.sqrt (lit 1 - rho * rho) * z2
  let VMax := Fl.max V (lit 0)
  let drift := (v.r - v.c - lit (1 / 2) * VMax) * dt
  let diffusion := Fl.sqrt (VMax * dt) * zS
  S * Fl.exp (drift + diffusion)

/-- One iteration of the Heston loop (heston_model.cpp:51-69); state `(S, V)`. -/
def hestonStep (g : Gen G F) (v : View F) (kappa theta sigmaV rho : F) (disc : CIR F) (dt : F)
    (d : Dist F) (x : F × F) : Eff G ((F × F) × F) := do
  let z1 ← draw g d
  let z2 ← draw g d
  let S' := svUpdate v rho dt x.1 x.2 z1 z2
  let V' := disc.update x.2 dt kappa theta sigmaV z1
  return ((S', V'), S')

/-- `HestonModel::simulatePrices` (heston_model.cpp:41-72). -/
def heston (g : Gen G F) (steps : Nat) (v : View F) (kappa theta sigmaV rho v0 : F) (disc : CIR F)
    (T : F) : Eff G (List F) := do
  let snd ← newDist g (.ok .stdNormal)
  Eff.unfoldInt (hestonStep g v kappa theta sigmaV rho disc (dt T steps) snd) steps (v.price, v0)

variable [FlInt F]

/-- `static_cast<int>(draw)` and the number of iterations of `for (int j = 0; j < count; ++j)`. -/
def drawCount (g : Gen G F) (d : Dist F) : Eff G Nat := do
  let x ← draw g d
  match FlInt.toInt x with
  | some n => return n.toNat
  | none => Eff.lift .ub

/-- One iteration of the jump loop of Bates (bates_model.cpp:64-67). -/
def batesJump (g : Gen G F) (d : Dist F) (S : F) : Eff G F := do
  let jumpSize ← draw g d
  return S * Fl.exp jumpSize

/-- One iteration of the Bates loop (bates_model.cpp:48-73); state `(S, V)`. -/
def batesStep (g : Gen G F) (v : View F) (kappa theta sigmaV rho : F) (disc : CIR F) (dt : F)
    (snd poissonDist jumpDist : Dist F) (x : F × F) : Eff G ((F × F) × F) := do
  let z1 ← draw g snd
  let z2 ← draw g snd
  let S1 := svUpdate v rho dt x.1 x.2 z1 z2
  let n ← drawCount g poissonDist
  let S' ← Eff.forN (batesJump g jumpDist) n S1
  let V' := disc.update x.2 dt kappa theta sigmaV z1
  return ((S', V'), S')

/-- `BatesModel::simulatePrices` (bates_model.cpp:35-76). -/
def bates (g : Gen G F) (steps : Nat) (v : View F)
    (kappa theta sigmaV rho v0 lambda muJ sigmaJ : F) (disc : CIR F) (T : F) : Eff G (List F) := do
  let snd ← newDist g (.ok .stdNormal)
  let poissonDist ← newDist g (Dist.mkPoisson (lambda * dt T steps))
  let jumpDist ← newDist g (Dist.mkNormal muJ sigmaJ)
  Eff.unfoldInt (batesStep g v kappa theta sigmaV rho disc (dt T steps) snd poissonDist jumpDist)
    steps (v.price, v0)

/-- One iteration of the jump loop of Kou (kou_model.cpp:57-65): the up jump is added when `U < p`,
the down jump is always added. -/
def kouJump (g : Gen G F) (p : F) (uniformDist upDist downDist : Dist F) (jumpSize : F) :
    Eff G F := do
  let U ← draw g uniformDist
  let acc ← (if Fl.lt U p then do
      let up ← draw g upDist
      return jumpSize + up
    else return jumpSize)
  let down ← draw g downDist
  return acc + -down

/-- The price update of one Kou step (kou_model.cpp:48, 52, 68). -/
def kouUpdate (v : View F) (lambda muJ dt S z jumpSize : F) : F :=
  let drift := (v.r - v.c - lit (1 / 2) * v.sigma * v.sigma - lambda * (muJ - lit 1)) * dt
  let diffusion := v.sigma * Fl.sqrt dt * z
  S * Fl.exp (drift + diffusion + jumpSize)

/-- One iteration of the Kou loop (kou_model.cpp:46-70). -/
def kouStep (g : Gen G F) (v : View F) (lambda p muJ dt : F)
    (snDist poissonDist uniformDist upDist downDist : Dist F) (S : F) : Eff G (F × F) := do
  let z ← draw g snDist
  let n ← drawCount g poissonDist
  let jumpSize ← Eff.forN (kouJump g p uniformDist upDist downDist) n (lit 0)
  let S' := kouUpdate v lambda muJ dt S z jumpSize
  return (S', S')

/-- `KouModel::simulatePrices` (kou_model.cpp:31-73). -/
def kou (g : Gen G F) (steps : Nat) (v : View F) (lambda p eta1 eta2 muJ : F) (T : F) :
    Eff G (List F) := do
  let snDist ← newDist g (.ok .stdNormal)
  let poissonDist ← newDist g (Dist.mkPoisson (lambda * dt T steps))
  let uniformDist ← newDist g (Dist.mkUniform (lit 0) (lit 1))
  let upDist ← newDist g (Dist.mkExponential eta1)
  let downDist ← newDist g (Dist.mkExponential eta2)
  Eff.unfoldInt (kouStep g v lambda p muJ (dt T steps) snDist poissonDist uniformDist upDist
    downDist) steps v.price

/-- One iteration of the jump loop of Merton (merton_jump_diffusion_model.cpp:50-52). -/
def mertonJump (g : Gen G F) (d : Dist F) (jumpSize : F) : Eff G F := do
  let x ← draw g d
  return jumpSize + x

/-- The price update of one Merton step (merton_jump_diffusion_model.cpp:41, 45, 55). -/
def mertonUpdate (v : View F) (dt S z jumpSize : F) : F :=
  let drift := (v.r - v.c - lit (1 / 2) * v.sigma * v.sigma) * dt
  let diffusion := v.sigma * Fl.sqrt dt * z
  S * Fl.exp (drift + diffusion + jumpSize)

/-- One iteration of the Merton loop (merton_jump_diffusion_model.cpp:39-57). -/
def mertonStep (g : Gen G F) (v : View F) (dt : F) (snDist poissonDist jumpDist : Dist F) (S : F) :
    Eff G (F × F) := do
  let z ← draw g snDist
  let n ← drawCount g poissonDist
  let jumpSize ← Eff.forN (mertonJump g jumpDist) n (lit 0)
  let S' := mertonUpdate v dt S z jumpSize
  return (S', S')

/-- `MertonJumpDiffusionModel::simulatePrices` (merton_jump_diffusion_model.cpp:26-60). -/
def merton (g : Gen G F) (steps : Nat) (v : View F) (lambda muJ sigmaJ : F) (T : F) :
    Eff G (List F) := do
  let snDist ← newDist g (.ok .stdNormal)
  let poissonDist ← newDist g (Dist.mkPoisson (lambda * dt T steps))
  let jumpDist ← newDist g (Dist.mkNormal muJ sigmaJ)
  Eff.unfoldInt (mertonStep g v (dt T steps) snDist poissonDist jumpDist) steps v.price

/-- The price update of one variance gamma step (variance_gamma_model.cpp:47-50). -/
def vgUpdate (v : View F) (theta omega dt S gam z : F) : F :=
  let drift := (v.r - v.c + omega) * dt
  let VG := theta * gam + v.sigma * Fl.sqrt gam * z
  S * Fl.exp (drift + VG)

/-- One iteration of the variance gamma loop (variance_gamma_model.cpp:43-52). -/
def vgStep (g : Gen G F) (v : View F) (theta omega dt : F) (gammaDist snDist : Dist F) (S : F) :
    Eff G (F × F) := do
  let gam ← draw g gammaDist
  let z ← draw g snDist
  let S' := vgUpdate v theta omega dt S gam z
  return (S', S')

/-- `VarianceGammaModel::simulatePrices` (variance_gamma_model.cpp:31-55). -/
def varianceGamma (g : Gen G F) (steps : Nat) (v : View F) (nu theta omega : F) (T : F) :
    Eff G (List F) := do
  let snDist ← newDist g (.ok .stdNormal)
  let gammaDist ← newDist g (Dist.mkGamma (dt T steps / nu) nu)
  Eff.unfoldInt (vgStep g v theta omega (dt T steps) gammaDist snDist) steps v.price

/-- `simulatePrices`, dispatched on the model class. -/
def prices (g : Gen G F) (steps : Nat) (v : View F) (T : F) : ModelKind F → Eff G (List F)
  | .gbm => gbm g steps v T
  | .heston kappa theta sigmaV rho v0 disc => heston g steps v kappa theta sigmaV rho v0 disc T
  | .bates kappa theta sigmaV rho v0 lambda muJ sigmaJ disc =>
      bates g steps v kappa theta sigmaV rho v0 lambda muJ sigmaJ disc T
  | .kou lambda p eta1 eta2 muJ => kou g steps v lambda p eta1 eta2 muJ T
  | .merton lambda muJ sigmaJ => merton g steps v lambda muJ sigmaJ T
  | .varianceGamma nu theta omega => varianceGamma g steps v nu theta omega T

/-- `simulatePriceAtMaturity` (gbm_model.cpp:9-11, heston_model.cpp:37-39, bates_model.cpp:31-33,
kou_model.cpp:27-29, merton_jump_diffusion_model.cpp:22-24, variance_gamma_model.cpp:27-29):
`simulatePrices(T).back()`. -/
def maturity (g : Gen G F) (steps : Nat) (v : View F) (T : F) (k : ModelKind F) : Eff G F := do
  let ps ← prices g steps v T k
  Eff.lift (vback ps)

/-- The Brownian bridge formula (gbm_model.cpp:37-48). -/
def bridgeUpdate (v : View F) (Snext tj tjp1 z : F) : F :=
  let Xnext := Fl.log (Snext / v.price)
  let Xcurr := tj / tjp1 * Xnext + Fl.sqrt (tj * (tjp1 - tj) / tjp1) * v.sigma * z
  v.price * Fl.exp Xcurr

/-- `simulatePriceBackward`: GBM (gbm_model.cpp:35-49), all others the throwing default
(base_model.cpp:21-25). -/
def backward (g : Gen G F) (v : View F) (Snext tj tjp1 : F) : ModelKind F → Eff G F
  | .gbm => do
    let snd ← newDist g (.ok .stdNormal)
    let z ← draw g snd
    return bridgeUpdate v Snext tj tjp1 z
  | _ => Eff.lift (logicErr "Backward simulation not supported for this model.")

end Sim
end
end Verif
