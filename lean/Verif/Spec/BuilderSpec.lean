import Verif.Model.Pricer

/-!
# Call histories on a solver and on a builder

What the last call of a kind in a history is, and which options belong to which builder; no function
of the model is used, only its types.
-/

namespace Verif.Spec

/-- The calls on an `MCSolver`; `other f` is anything else that happens in the program and changes the
state outside the solver. -/
inductive SolverCall (P σ : Type)
  | setN (N : ℕ)
  | setPricer (p : Option P)
  | solve
  | other (f : σ → σ)

/-- `n` is the argument of the last `setN` call of the history, or `N₀` if there was none. -/
def CurrentN {P σ : Type} (N₀ : ℕ) (h : List (SolverCall P σ)) (n : ℕ) : Prop :=
  (∃ h₁ h₂, h = h₁ ++ .setN n :: h₂ ∧ ∀ m, .setN m ∉ h₂) ∨ (n = N₀ ∧ ∀ m, .setN m ∉ h)

/-- `p` is the argument of the last `setPricer` call of the history, or null if there was none. -/
def CurrentPricer {P σ : Type} (h : List (SolverCall P σ)) (p : Option P) : Prop :=
  (∃ h₁ h₂, h = h₁ ++ .setPricer p :: h₂ ∧ ∀ q, .setPricer q ∉ h₂) ∨
    (p = none ∧ ∀ q, .setPricer q ∉ h)

/-- The option classes that each builder is for. -/
def Family : PricerClass → List OptClass
  | .singlePath => [.european, .digital, .doubleDigital]
  | .american => [.american]
  | .arithmeticAsian => [.arithmeticAsian]
  | .geometricAsian => [.geometricAsian]
  | .knockIn => [.knockIn]
  | .knockOut => [.knockOut]
  | .floatingLookback => [.floatingLookback]
  | .fixedLookback => [.fixedLookback]

/-- The calls on a builder; `other f` is anything else that happens in the program. -/
inductive BuilderCall (F σ : Type)
  | setOption (o : Option (OptObj F))
  | setMarketData (set : Bool)
  | setStockPriceModel (m : Option (ModelObj F))
  | setStrategies (s : Lsmc F)
  | build (randomDevice : ℕ)
  | other (f : σ → σ)

/-- The last `setOption` call of the history was with `o` (null if the pointer was null). -/
def LastOption {F σ : Type} (h : List (BuilderCall F σ)) (o : Option (OptObj F)) : Prop :=
  ∃ h₁ h₂, h = h₁ ++ .setOption o :: h₂ ∧ ∀ o', .setOption o' ∉ h₂

/-- The builder has an accepted option, namely `o`. -/
def AcceptedOption {F σ : Type} (c : PricerClass) (h : List (BuilderCall F σ)) (o : OptObj F) : Prop :=
  LastOption h (some o) ∧ o.cls ∈ Family c

end Verif.Spec
