import Verif.Spec.PathDependentErrorSpec
import Verif.Spec.JumpErrorSpec

/-!
# Accuracy of session prices on models with jumps in floating point
-/

namespace Verif.Spec

/-- One path after the other: `P s a s₁` says that the path which starts in the generator state `s` consumes the numbers `a` and leaves `s₁`. -/
inductive PathsDrawn {G α : Type} (P : G → α → G → Prop) : G → List α → G → Prop
  | nil (s : G) : PathsDrawn P s [] s
  | cons {s s₁ s₂ : G} {a : α} {l : List α} (h : P s a s₁) (t : PathsDrawn P s₁ l s₂) : PathsDrawn P s (a :: l) s₂

/-- The market data, the maturity and the numbers of dates and paths of a session. -/
structure MarketRun (i : Session (Dbl .binary64)) (S sigma r : ℝ) (q : Option ℝ) (T : ℝ) (N : ℕ) : Prop where
  price : i.S = .num S
  vol : i.sigma = .num sigma
  coupon : i.coupon = q.map fun x : ℝ => .num x
  rate : i.r = .num r
  maturity : lastSet i.params "T" = some (.dbl (.num T))
  dim : 0 < i.dim ∧ i.dim ≤ INT_MAX
  small : |r * T| ≤ 1
  paths : 0 < N ∧ N ≤ INT_MAX

/-- The options a session can price by averaging over paths, with their terms. -/
inductive Instrument
  | european (K : ℝ)
  | digital (K : ℝ)
  | doubleDigital (L U : ℝ)
  | fixedLookback (K : ℝ)
  | floatingLookback
  | arithmeticAsian (K : ℝ)
  | geometricAsian (K : ℝ)
  | knockIn (K B : ℝ) (d : BarrierDirection)
  | knockOut (K B : ℝ) (d : BarrierDirection)

/-- The session asks for this option. -/
def Instrument.Asked (i : Session (Dbl .binary64)) : Instrument → Prop
  | european K => i.factory = .european ∧ lastSet i.params "K" = some (.dbl (.num K)) ∧ |K| ≤ 2 ^ (500 : ℤ)
  | digital K => i.factory = .digital ∧ lastSet i.params "K" = some (.dbl (.num K))
  | doubleDigital L U => i.factory = .doubleDigital ∧ lastSet i.params "K1" = some (.dbl (.num L)) ∧ lastSet i.params "K2" = some (.dbl (.num U))
  | fixedLookback K => i.factory = .fixedLookback ∧ lastSet i.params "K" = some (.dbl (.num K)) ∧ |K| ≤ 2 ^ (500 : ℤ)
  | floatingLookback => i.factory = .floatingLookback
  | arithmeticAsian K => i.factory = .arithmeticAsian ∧ lastSet i.params "K" = some (.dbl (.num K)) ∧ |K| ≤ 2 ^ (500 : ℤ)
  | geometricAsian K => i.factory = .geometricAsian ∧ lastSet i.params "K" = some (.dbl (.num K)) ∧ |K| ≤ 2 ^ (500 : ℤ)
  | knockIn K B d => i.factory = .knockIn ∧ lastSet i.params "K" = some (.dbl (.num K)) ∧ |K| ≤ 2 ^ (500 : ℤ) ∧
      lastSet i.params "B" = some (.dbl (.num B)) ∧ lastSet i.params "direction" = some (.dir d)
  | knockOut K B d => i.factory = .knockOut ∧ lastSet i.params "K" = some (.dbl (.num K)) ∧ |K| ≤ 2 ^ (500 : ℤ) ∧
      lastSet i.params "B" = some (.dbl (.num B)) ∧ lastSet i.params "direction" = some (.dir d)

/-- What it pays on the path `x 0, ..., x (n - 1)`. -/
noncomputable def Instrument.value (call : Prop) [Decidable call] (n : ℕ) (x : ℕ → ℝ) : Instrument → ℝ
  | european K => vanillaValue call K (x (n - 1))
  | digital K => digitalValue call K (x (n - 1))
  | doubleDigital L U => doubleDigitalValue L U (x (n - 1))
  | fixedLookback K => Spec.fixedLookback call K n x
  | floatingLookback => Spec.floatingLookback call n x
  | arithmeticAsian K => vanillaValue call K (meanOf n x)
  | geometricAsian K => vanillaValue call K (geomMeanOf n x)
  | knockIn K B d => knockInValue call K B d n x
  | knockOut K B d => knockOutValue call K B d n x

/-- By how much rounding can change this when the prices have relative errors of `w · 2⁻⁴⁹`. -/
noncomputable def Instrument.error (call : Prop) [Decidable call] (w : ℝ) (n : ℕ) (x : ℕ → ℝ) : Instrument → ℝ
  | european K => valueError (2 ^ (-49 : ℤ) * w) K (x (n - 1))
  | digital _ => 0
  | doubleDigital _ _ => 0
  | fixedLookback K => valueError (2 ^ (-49 : ℤ) * w) K (if call then highest n x else lowest n x)
  | floatingLookback => (2 ^ (-49 : ℤ) * w + 2 ^ (-51 : ℤ)) * (x (n - 1) + if call then lowest n x else highest n x)
  | arithmeticAsian K => valueError (2 ^ (-48 : ℤ) * w) K (meanOf n x)
  | geometricAsian K => valueError (2 ^ (-40 : ℤ) * w) K (geomMeanOf n x)
  | knockIn K _ _ => valueError (2 ^ (-49 : ℤ) * w) K (x (n - 1))
  | knockOut K _ _ => valueError (2 ^ (-49 : ℤ) * w) K (x (n - 1))

/-- No price that decides whether the option pays is within rounding distance of the strike or barrier. -/
def Instrument.Clear (w : ℝ) (n : ℕ) (x : ℕ → ℝ) : Instrument → Prop
  | digital K => 2 ^ (-49 : ℤ) * w * x (n - 1) < |x (n - 1) - K|
  | doubleDigital L U => 2 ^ (-49 : ℤ) * w * x (n - 1) < |x (n - 1) - L| ∧ 2 ^ (-49 : ℤ) * w * x (n - 1) < |x (n - 1) - U|
  | knockIn _ B _ => ClearOf B (2 ^ (-49 : ℤ) * w) n x
  | knockOut _ B _ => ClearOf B (2 ^ (-49 : ℤ) * w) n x
  | _ => True

/-- The numbers of one path of Merton's model, for new distribution objects. -/
def MertonPath {G : Type} (g : Gen G (Dbl .binary64)) (n : ℕ) (dP dJ : Dist (Dbl .binary64)) (s : G) (l : List (ℝ × List ℝ)) (s' : G) : Prop :=
  l.length = n ∧ MertonDraws g dP dJ (g.newDist dJ (g.newDist dP (g.newDist .stdNormal s))) l s'

/-- The same for Kou's model. -/
def KouPath {G : Type} (g : Gen G (Dbl .binary64)) (n : ℕ) (p : ℝ) (dP dU dUp dDown : Dist (Dbl .binary64)) (s : G) (l : List (ℝ × List ℝ)) (s' : G) : Prop :=
  l.length = n ∧ KouDraws g p dP dU dUp dDown (g.newDist dDown (g.newDist dUp (g.newDist dU (g.newDist dP (g.newDist .stdNormal s))))) l s'

/-- The same for the variance gamma model. -/
def GammaPath {G : Type} (g : Gen G (Dbl .binary64)) (n : ℕ) (dG : Dist (Dbl .binary64)) (s : G) (l : List (ℝ × ℝ)) (s' : G) : Prop :=
  l.length = n ∧ GammaDraws g dG (g.newDist dG (g.newDist .stdNormal s)) l s'

end Verif.Spec
