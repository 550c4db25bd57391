import Verif.Num.Res
import Verif.Num.Dbl
import Verif.Model.Payoff
import Verif.Model.Market
import Mathlib.Analysis.SpecialFunctions.Pow.Real

/-!
# What the Monte Carlo pricers should compute

Independent of the model of the pricers.
-/

namespace Verif.Spec

/-- `Draws sim s as s'`: running `sim` again and again from state `s` succeeds and yields the list
`as`, in order, and ends in state `s'`. -/
inductive Draws {σ α : Type} (sim : Eff σ α) : σ → List α → σ → Prop
  | nil (s : σ) : Draws sim s [] s
  | cons {s s₁ s₂ : σ} {a : α} {as : List α} (h : sim s = (.ok a, s₁)) (t : Draws sim s₁ as s₂) :
      Draws sim s (a :: as) s₂

/-- Each path pays the corresponding value. -/
def Pays {α β : Type} (pay : α → Res β) (paths : List α) (vals : List β) : Prop :=
  List.Forall₂ (fun p v => pay p = .ok v) paths vals

/-- `exp(-r T)` times the arithmetic mean. -/
noncomputable def discountedMean (r T : ℝ) (vals : List ℝ) : ℝ :=
  Real.exp (-(r * T)) * (vals.sum / vals.length)

/-- The arithmetic mean of a path. -/
noncomputable def arithMean (S : List ℝ) : ℝ := S.sum / S.length

/-- The geometric mean of a path: the `n`-th root of the product. -/
noncomputable def geomMean (S : List ℝ) : ℝ := S.prod ^ ((1 : ℝ) / S.length)

/-- Some monitored price is at or beyond the barrier. -/
def Touched {F : Type} [Fl F] (B : F) (d : BarrierDirection) (S : List F) : Prop :=
  ∃ x ∈ S, match d with
    | .up => Fl.ge x B = true
    | .down => Fl.le x B = true

/-- `m` is the smallest element of `S`. -/
def IsMin (S : List ℝ) (m : ℝ) : Prop := m ∈ S ∧ ∀ x ∈ S, m ≤ x

/-- `M` is the largest element of `S`. -/
def IsMax (S : List ℝ) (M : ℝ) : Prop := M ∈ S ∧ ∀ x ∈ S, x ≤ M

/-- What a knock-in option is worth on a path: the payoff of the last price if the barrier was
touched, else 0. -/
def KnockInValue {F : Type} [Fl F] (pay : F → Res F) (B : F) (d : BarrierDirection) (S : List F)
    (v : F) : Prop :=
  ∃ h : S ≠ [], (Touched B d S → pay (S.getLast h) = .ok v) ∧ (¬ Touched B d S → v = lit 0)

/-- What a knock-out option is worth on a path: the payoff of the last price if the barrier was not
touched, else 0. -/
def KnockOutValue {F : Type} [Fl F] (pay : F → Res F) (B : F) (d : BarrierDirection) (S : List F)
    (v : F) : Prop :=
  ∃ h : S ≠ [], (¬ Touched B d S → pay (S.getLast h) = .ok v) ∧ (Touched B d S → v = lit 0)

/-- What a fixed-strike lookback option (`call` or put) is worth on a path of finite prices:
`max(max_t S_t - K, 0)` resp. `max(K - min_t S_t, 0)`. -/
def FixedLookbackValue {R : Rounding} (call : Prop) [Decidable call] (K : Dbl R) (S : List ℝ)
    (v : Dbl R) : Prop :=
  ∃ m M, IsMin S m ∧ IsMax S M ∧
    v = if call then Fl.max (.ofReal R M - K) (lit 0) else Fl.max (K - .ofReal R m) (lit 0)

/-- What a floating-strike lookback option (`call` or put) is worth on a path of finite prices:
`S_T - min_t S_t` resp. `max_t S_t - S_T`. -/
def FloatingLookbackValue {R : Rounding} (call : Prop) [Decidable call] (S : List ℝ)
    (v : Dbl R) : Prop :=
  ∃ m M, IsMin S m ∧ IsMax S M ∧ ∃ h : S ≠ [],
    v = if call then .ofReal R (S.getLast h) - .ofReal R m else .ofReal R M - .ofReal R (S.getLast h)

end Verif.Spec
