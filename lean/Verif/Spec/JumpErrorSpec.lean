import Verif.Spec.PathErrorSpec

/-!
# Accuracy of simulated paths with jumps in floating point
-/

namespace Verif.Spec

/-- The exact price after the steps with the given exponents. -/
noncomputable def expPath (S : ℝ) (xs : List ℝ) (j : ℕ) : ℝ := S * Real.exp (xs.take (j + 1)).sum

/-- How much can be lost up to date `j`: the number of steps and the sum of the sizes of the exponents. -/
noncomputable def expWork (ms : List ℝ) (j : ℕ) : ℝ := ((ms.map (1 + ·)).take (j + 1)).sum

/-- Neither the exact prices nor the sizes of the exponents are near the limits of the format. -/
structure ModeratePath (S : ℝ) (xs ms : List ℝ) : Prop where
  start : Real.exp (-300) ≤ S ∧ S ≤ Real.exp 300
  prices : ∀ j < xs.length, Real.exp (-300) ≤ expPath S xs j ∧ expPath S xs j ≤ Real.exp 300
  work : expWork ms (ms.length - 1) ≤ 2 ^ 40

/-- Market data and time step of moderate size. -/
structure ModerateMarket (sigma r q h : ℝ) : Prop where
  vol : |sigma| ≤ 2 ^ 100
  rate : |r| ≤ 2 ^ 100
  coupon : |q| ≤ 2 ^ 100
  step : 2 ^ (-200 : ℤ) ≤ h ∧ h ≤ 2 ^ 100

/-- Sum of the absolute values. -/
noncomputable def absSum (ds : List ℝ) : ℝ := (ds.map fun d => |d|).sum

/-! ## Merton -/

/-- The random numbers of a path in Merton's model: for each step a normal number, the number of jumps and the jumps. -/
inductive MertonDraws {G : Type} {R : Rounding} (g : Gen G (Dbl R)) (dP dJ : Dist (Dbl R)) : G → List (ℝ × List ℝ) → G → Prop
  | nil (s : G) : MertonDraws g dP dJ s [] s
  | cons {s s₁ s₂ s₃ s₄ : G} {z : ℝ} {js : List ℝ} {l : List (ℝ × List ℝ)} (hz : g.draw .stdNormal s = (.ok (.num z), s₁))
      (hn : js.length ≤ INT_MAX) (hc : g.draw dP s₁ = (.ok (.num (js.length : ℝ)), s₂)) (hj : Draws (g.draw dJ) s₂ (js.map fun x : ℝ => .num x) s₃)
      (t : MertonDraws g dP dJ s₃ l s₄) : MertonDraws g dP dJ s ((z, js) :: l) s₄

/-- The exponent of one step of length `h`. -/
noncomputable def mertonExponent (sigma r q h : ℝ) (x : ℝ × List ℝ) : ℝ := (r - q - sigma ^ 2 / 2) * h + sigma * Real.sqrt h * x.1 + x.2.sum

/-- Twice the size of drift and diffusion, and the sizes of the jumps times their number. -/
noncomputable def mertonSize (sigma r q h : ℝ) (x : ℝ × List ℝ) : ℝ :=
  2 * ((|r| + |q| + sigma ^ 2 / 2) * h + |sigma| * Real.sqrt h * |x.1|) + (x.2.length + 2) * absSum x.2 + 1

/-! ## Kou -/

/-- The random numbers of the jumps of one step in Kou's model, as the list of the amounts added: for each jump a uniform number; an up jump if it is below `p`;
a down jump. -/
inductive KouTerms {G : Type} {R : Rounding} (g : Gen G (Dbl R)) (p : ℝ) (dU dUp dDown : Dist (Dbl R)) : ℕ → G → List ℝ → G → Prop
  | nil (s : G) : KouTerms g p dU dUp dDown 0 s [] s
  | up {s s₁ s₂ s₃ s₄ : G} {u a b : ℝ} {n : ℕ} {l : List ℝ} (hu : g.draw dU s = (.ok (.num u), s₁)) (hp : u < p) (ha : g.draw dUp s₁ = (.ok (.num a), s₂))
      (hb : g.draw dDown s₂ = (.ok (.num b), s₃)) (t : KouTerms g p dU dUp dDown n s₃ l s₄) : KouTerms g p dU dUp dDown (n + 1) s (a :: -b :: l) s₄
  | down {s s₁ s₃ s₄ : G} {u b : ℝ} {n : ℕ} {l : List ℝ} (hu : g.draw dU s = (.ok (.num u), s₁)) (hp : ¬ u < p)
      (hb : g.draw dDown s₁ = (.ok (.num b), s₃)) (t : KouTerms g p dU dUp dDown n s₃ l s₄) : KouTerms g p dU dUp dDown (n + 1) s (-b :: l) s₄

/-- The random numbers of a path in Kou's model. -/
inductive KouDraws {G : Type} {R : Rounding} (g : Gen G (Dbl R)) (p : ℝ) (dP dU dUp dDown : Dist (Dbl R)) : G → List (ℝ × List ℝ) → G → Prop
  | nil (s : G) : KouDraws g p dP dU dUp dDown s [] s
  | cons {s s₁ s₂ s₃ s₄ : G} {z : ℝ} {n : ℕ} {ds : List ℝ} {l : List (ℝ × List ℝ)} (hz : g.draw .stdNormal s = (.ok (.num z), s₁))
      (hn : n ≤ INT_MAX) (hc : g.draw dP s₁ = (.ok (.num (n : ℝ)), s₂)) (hj : KouTerms g p dU dUp dDown n s₂ ds s₃)
      (t : KouDraws g p dP dU dUp dDown s₃ l s₄) : KouDraws g p dP dU dUp dDown s ((z, ds) :: l) s₄

/-- The exponent of one step of length `h`; `lambda` and `muJ` are the intensity and the mean jump factor stored in the model. -/
noncomputable def kouExponent (sigma r q lambda muJ h : ℝ) (x : ℝ × List ℝ) : ℝ :=
  (r - q - sigma ^ 2 / 2 - lambda * (muJ - 1)) * h + sigma * Real.sqrt h * x.1 + x.2.sum

/-- Twice the size of drift and diffusion, and the sizes of the jumps times their number. -/
noncomputable def kouSize (sigma r q lambda muJ h : ℝ) (x : ℝ × List ℝ) : ℝ :=
  2 * ((|r| + |q| + sigma ^ 2 / 2 + |lambda| * (|muJ| + 1)) * h + |sigma| * Real.sqrt h * |x.1|) + (x.2.length + 2) * absSum x.2 + 1

/-! ## Variance gamma -/

/-- The random numbers of a path in the variance gamma model: for each step the advance of the clock and a normal number. -/
inductive GammaDraws {G : Type} {R : Rounding} (g : Gen G (Dbl R)) (dG : Dist (Dbl R)) : G → List (ℝ × ℝ) → G → Prop
  | nil (s : G) : GammaDraws g dG s [] s
  | cons {s s₁ s₂ s₃ : G} {a z : ℝ} {l : List (ℝ × ℝ)} (ha : g.draw dG s = (.ok (.num a), s₁)) (hz : g.draw .stdNormal s₁ = (.ok (.num z), s₂))
      (t : GammaDraws g dG s₂ l s₃) : GammaDraws g dG s ((a, z) :: l) s₃

/-- The exponent of one step of length `h`; `theta` and `omega` are stored in the model. -/
noncomputable def vgExponent (sigma r q theta omega h : ℝ) (x : ℝ × ℝ) : ℝ := (r - q + omega) * h + (theta * x.1 + sigma * Real.sqrt x.1 * x.2)

/-- The size of the exponent. -/
noncomputable def vgSize (sigma r q theta omega h : ℝ) (x : ℝ × ℝ) : ℝ :=
  (|r| + |q| + |omega|) * h + (|theta| * x.1 + |sigma| * Real.sqrt x.1 * |x.2|)

end Verif.Spec
