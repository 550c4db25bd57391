import Verif.Model.Random
import Verif.Spec.MonteCarloSpec

/-!
# What simulated paths should be

Relations between the draws of a generator and the simulated prices, in exact arithmetic, independent
of the model of the simulation code.  `g.draw d s = (.ok z, s')`: in state `s` a draw from `d` gives
`z` and leaves the generator in state `s'`.
-/

namespace Verif.Spec
variable {G : Type}

/-- The number of iterations of a loop up to `static_cast<int>(x)` (which has to fit). -/
def Count (x : ℝ) (n : ℕ) : Prop := ∃ k : ℤ, FlInt.toInt x = some k ∧ n = k.toNat

/-- No jump: nothing is drawn. -/
def NoJump : G → ℝ → G → Prop := fun s J s' => J = 0 ∧ s' = s

/-- A count of jumps from `poisson`, then that many jumps as `rel` allows, added up. -/
def CountedJump (g : Gen G ℝ) (poisson : Dist ℝ) (rel : G → List ℝ → G → Prop) :
    G → ℝ → G → Prop := fun s J s' =>
  ∃ x s₁ n js, g.draw poisson s = (.ok x, s₁) ∧ Count x n ∧ rel s₁ js s' ∧ js.length = n ∧ J = js.sum

/-- A compound Poisson jump: a count from `poisson`, then that many sizes from `size`, added up. -/
def CompoundJump (g : Gen G ℝ) (poisson size : Dist ℝ) : G → ℝ → G → Prop :=
  CountedJump g poisson (Draws (g.draw size))

/-- A stochastic variance path (Heston without, Bates with jumps): from price `S` and variance `V` in
generator state `s` the prices `ps` arise, with two normal draws per step and, after them, the jump.
`u V z` is the next variance. -/
inductive SVPath (g : Gen G ℝ) (jump : G → ℝ → G → Prop) (r c rho dt : ℝ) (u : ℝ → ℝ → ℝ) :
    ℝ → ℝ → G → List ℝ → G → Prop
  | nil (S V : ℝ) (s : G) : SVPath g jump r c rho dt u S V s [] s
  | cons {S V z1 z2 J : ℝ} {s s₁ s₂ s₃ s' : G} {ps : List ℝ}
      (h1 : g.draw .stdNormal s = (.ok z1, s₁)) (h2 : g.draw .stdNormal s₁ = (.ok z2, s₂))
      (hJ : jump s₂ J s₃)
      (t : SVPath g jump r c rho dt u
        (S * Real.exp ((r - c - max V 0 / 2) * dt +
          Real.sqrt (max V 0 * dt) * (rho * z1 + Real.sqrt (1 - rho ^ 2) * z2) + J)) (u V z1) s₃ ps s') :
      SVPath g jump r c rho dt u S V s
        (S * Real.exp ((r - c - max V 0 / 2) * dt +
          Real.sqrt (max V 0 * dt) * (rho * z1 + Real.sqrt (1 - rho ^ 2) * z2) + J) :: ps) s'

theorem SVPath.inv {g : Gen G ℝ} {jump : G → ℝ → G → Prop} {r c rho dt : ℝ} {u : ℝ → ℝ → ℝ}
    {S V p : ℝ} {s s' : G} {ps : List ℝ} (h : SVPath g jump r c rho dt u S V s (p :: ps) s') :
    ∃ z1 z2 J s₁ s₂ s₃, g.draw .stdNormal s = (.ok z1, s₁) ∧ g.draw .stdNormal s₁ = (.ok z2, s₂) ∧
      jump s₂ J s₃ ∧ p = S * Real.exp ((r - c - max V 0 / 2) * dt +
          Real.sqrt (max V 0 * dt) * (rho * z1 + Real.sqrt (1 - rho ^ 2) * z2) + J) ∧
      SVPath g jump r c rho dt u p (u V z1) s₃ ps s' := by
  cases h with
  | cons h1 h2 hJ t => exact ⟨_, _, _, _, _, _, h1, h2, hJ, rfl, t⟩

/-- The full truncation Euler step of the variance. -/
noncomputable def eulerVariance (kappa theta sigmaV dt V z : ℝ) : ℝ :=
  V + kappa * (theta - max V 0) * dt + sigmaV * Real.sqrt (max V 0 * dt) * z

/-- The Milstein step of the variance. -/
noncomputable def milsteinVariance (kappa theta sigmaV dt V z : ℝ) : ℝ :=
  eulerVariance kappa theta sigmaV dt V z + sigmaV ^ 2 / 4 * dt * (z ^ 2 - 1)

/-- A log-normal path with jumps (Merton, Kou): one normal draw, then the jump, per step. -/
inductive JumpPath (g : Gen G ℝ) (jump : G → ℝ → G → Prop) (mu sigma dt : ℝ) :
    ℝ → G → List ℝ → G → Prop
  | nil (S : ℝ) (s : G) : JumpPath g jump mu sigma dt S s [] s
  | cons {S z J : ℝ} {s s₁ s₂ s' : G} {ps : List ℝ}
      (h1 : g.draw .stdNormal s = (.ok z, s₁)) (hJ : jump s₁ J s₂)
      (t : JumpPath g jump mu sigma dt
        (S * Real.exp (mu * dt + sigma * Real.sqrt dt * z + J)) s₂ ps s') :
      JumpPath g jump mu sigma dt S s
        (S * Real.exp (mu * dt + sigma * Real.sqrt dt * z + J) :: ps) s'

theorem JumpPath.inv {g : Gen G ℝ} {jump : G → ℝ → G → Prop} {mu sigma dt : ℝ}
    {S p : ℝ} {s s' : G} {ps : List ℝ} (h : JumpPath g jump mu sigma dt S s (p :: ps) s') :
    ∃ z J s₁ s₂, g.draw .stdNormal s = (.ok z, s₁) ∧ jump s₁ J s₂ ∧
      p = S * Real.exp (mu * dt + sigma * Real.sqrt dt * z + J) ∧
      JumpPath g jump mu sigma dt p s₂ ps s' := by
  cases h with
  | cons h1 hJ t => exact ⟨_, _, _, _, h1, hJ, rfl, t⟩

/-- The jumps of the Kou model as claimed: with probability `p` (that is, when a uniform draw is less
than `p`) an upward jump drawn from `up`, otherwise a downward jump drawn from `down`. -/
inductive KouJumps (g : Gen G ℝ) (p : ℝ) (up down : Dist ℝ) : G → List ℝ → G → Prop
  | nil (s : G) : KouJumps g p up down s [] s
  | up {s s₁ s₂ s' : G} {U E : ℝ} {js : List ℝ} (hU : g.draw (.uniform 0 1) s = (.ok U, s₁))
      (h : U < p) (hE : g.draw up s₁ = (.ok E, s₂)) (t : KouJumps g p up down s₂ js s') :
      KouJumps g p up down s (E :: js) s'
  | down {s s₁ s₂ s' : G} {U E : ℝ} {js : List ℝ} (hU : g.draw (.uniform 0 1) s = (.ok U, s₁))
      (h : p ≤ U) (hE : g.draw down s₁ = (.ok E, s₂)) (t : KouJumps g p up down s₂ js s') :
      KouJumps g p up down s (-E :: js) s'

/-- The jumps of the Kou model as they are in the code: an upward jump, when there is one, is followed
by a downward jump. -/
inductive KouJumpsActual (g : Gen G ℝ) (p : ℝ) (up down : Dist ℝ) : G → List ℝ → G → Prop
  | nil (s : G) : KouJumpsActual g p up down s [] s
  | upDown {s s₁ s₂ s₃ s' : G} {U E E' : ℝ} {js : List ℝ}
      (hU : g.draw (.uniform 0 1) s = (.ok U, s₁))
      (h : U < p) (hE : g.draw up s₁ = (.ok E, s₂)) (hE' : g.draw down s₂ = (.ok E', s₃))
      (t : KouJumpsActual g p up down s₃ js s') :
      KouJumpsActual g p up down s ((E - E') :: js) s'
  | down {s s₁ s₂ s' : G} {U E : ℝ} {js : List ℝ} (hU : g.draw (.uniform 0 1) s = (.ok U, s₁))
      (h : p ≤ U) (hE : g.draw down s₁ = (.ok E, s₂)) (t : KouJumpsActual g p up down s₂ js s') :
      KouJumpsActual g p up down s (-E :: js) s'

/-- A variance gamma path: a gamma draw, then a normal draw, per step. -/
inductive VGPath (g : Gen G ℝ) (gam : Dist ℝ) (mu theta sigma dt : ℝ) : ℝ → G → List ℝ → G → Prop
  | nil (S : ℝ) (s : G) : VGPath g gam mu theta sigma dt S s [] s
  | cons {S x z : ℝ} {s s₁ s₂ s' : G} {ps : List ℝ}
      (hx : g.draw gam s = (.ok x, s₁)) (hz : g.draw .stdNormal s₁ = (.ok z, s₂))
      (t : VGPath g gam mu theta sigma dt
        (S * Real.exp (mu * dt + (theta * x + sigma * Real.sqrt x * z))) s₂ ps s') :
      VGPath g gam mu theta sigma dt S s
        (S * Real.exp (mu * dt + (theta * x + sigma * Real.sqrt x * z)) :: ps) s'

end Verif.Spec
