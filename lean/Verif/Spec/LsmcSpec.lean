import Verif.Model.American
import Verif.Spec.MonteCarloSpec
import Mathlib.Data.Finset.Card

/-!
# What the American pricer should compute

Paths are numbered `0 .. N-1`, exercise dates `1 .. m` (maturity is `m`); `S i j` is the price of
path `i` at date `j`.  From the model only the types `Res`, `Fl` and the two strategies
(`Lsmc`: basis functions and regression) are used.
-/

namespace Verif.Spec

/-- `k` is the date at which a holder who follows the rule `D` ("exercise at date `l`") from date `j`
on is paid: the first date from `j` on at which `D` says exercise, else maturity `m`. -/
def Stops (m : ℕ) (D : ℕ → Prop) (j k : ℕ) : Prop :=
  j ≤ k ∧ k ≤ m ∧ (∀ l, j ≤ l → l < k → ¬ D l) ∧ (k < m → D k)

variable {F : Type} [Fl F] [Add F] [Mul F]

/-- The path is in the money at this price: its exercise value is positive. -/
def InTheMoney (pay : F → Res F) (price : F) : Prop :=
  ∃ e, pay price = .ok e ∧ Fl.gt e (lit 0) = true

/-- `fit` is the fitted value: the inner product of a row of the design matrix and the
coefficients. -/
def Fitted (row coeffs : List F) (fit : F) : Prop :=
  row.length = coeffs.length ∧ fit = (List.zipWith (· * ·) row coeffs).foldl (· + ·) (lit 0)

/-- The exercise decisions `X` of one date are those of least squares Monte Carlo: with `I` the list
of in-the-money paths in path order, the regression is run on exactly the prices of `I`, against the
values `later` of `I`; path `I[k]` is exercised iff its exercise value exceeds the fitted value of
row `k`; no path outside `I` is exercised.  Without in-the-money paths there is no regression. -/
def DateRule (strat : Lsmc F) (pay : F → Res F) (N : ℕ) (price later : ℕ → F) (X : ℕ → Prop) :
    Prop :=
  ∃ I : List ℕ, I.Pairwise (· < ·) ∧ (∀ i, i ∈ I ↔ i < N ∧ InTheMoney pay (price i)) ∧
    (∀ i, X i → i ∈ I) ∧
    (I ≠ [] → ∃ bases coeffs, strat.generate (I.map price) = .ok bases ∧
      strat.solve bases (I.map later) = .ok coeffs ∧
      ∀ k i : ℕ, I[k]? = some i → ∃ e row fit, pay (price i) = .ok e ∧ bases[k]? = some row ∧
        Fitted row coeffs fit ∧ (X i ↔ Fl.gt e fit = true))

/-- A run of least squares Monte Carlo from date `j₀` on.  `D j i`: path `i` exercises at date `j`.
`value j i`: the realised cash flow of path `i` under these decisions from date `j` on, valued at
date `j`, that is multiplied by the one-period discount factor `df` as often as `periods j k` says,
where `k` is the date of the cash flow.  (Correct discounting is `periods j k = k - j`.)  The
regression targets at date `j` are the values at `j + 1`, discounted once. -/
structure LsmcRun (strat : Lsmc F) (pay : F → Res F) (N m : ℕ) (df : F) (periods : ℕ → ℕ → ℕ)
    (S : ℕ → ℕ → F) (j₀ : ℕ) (D : ℕ → ℕ → Prop) (value : ℕ → ℕ → F) : Prop where
  dates : ∀ j, j₀ ≤ j → j < m →
    DateRule strat pay N (fun i => S i j) (fun i => value (j + 1) i * df) (D j)
  values : ∀ j, j₀ ≤ j → j ≤ m → ∀ i, i < N → ∃ k e, Stops m (fun l => D l i) j k ∧
    pay (S i k) = .ok e ∧ value j i = (fun x => x * df)^[periods j k] e

/-- Some path is in the money at date `l`. -/
def Active (pay : F → Res F) (N : ℕ) (S : ℕ → ℕ → F) (l : ℕ) : Prop :=
  ∃ i, i < N ∧ InTheMoney pay (S i l)

open Classical in
/-- The number of dates in `j, ..., k-1` at which some path is in the money. -/
noncomputable def activeDates (pay : F → Res F) (N : ℕ) (S : ℕ → ℕ → F) (j k : ℕ) : ℕ :=
  ((Finset.Ico j k).filter (Active pay N S)).card

/-- `Chained f s xs ys s'`: calling `f x` for the elements of `xs` in order, from state `s`, succeeds,
yields `ys` and ends in state `s'`. -/
inductive Chained {σ α β : Type} (f : α → Eff σ β) : σ → List α → List β → σ → Prop
  | nil (s : σ) : Chained f s [] [] s
  | cons {s s₁ s₂ : σ} {x : α} {y : β} {xs : List α} {ys : List β} (h : f x s = (.ok y, s₁))
      (t : Chained f s₁ xs ys s₂) : Chained f s (x :: xs) (y :: ys) s₂

/-- Price of path `i` at date `j`, where `paths` is the list of simulated paths (date `1` is the
first price of a path). -/
def priceAt (paths : List (List F)) (i j : ℕ) : F := (paths.getD i []).getD (j - 1) (lit 0)

/-- The strategies return for all inputs and agree on sizes: one row of the design matrix for each
price, and as many coefficients as columns. -/
def Fits (strat : Lsmc F) : Prop :=
  ∀ xs ys : List F, xs.length = ys.length → ∃ bases coeffs, strat.generate xs = .ok bases ∧
    strat.solve bases ys = .ok coeffs ∧ bases.length = xs.length ∧
    ∀ row ∈ bases, row.length = coeffs.length

/-- `S` are the prices of `N` paths simulated forward, one path after the other. -/
def SimulatedForward {σ : Type} (src : PathSource σ F) (T : F) (N : ℕ) (S : ℕ → ℕ → F)
    (s s' : σ) : Prop :=
  ∃ paths, Draws (src.simulatePrices T) s paths s' ∧ paths.length = N ∧
    (∀ p ∈ paths, p.length = src.steps) ∧ S = priceAt paths

/-- `S` are the prices of `N` paths simulated backward: first all prices at maturity `m * dt`, then
all prices at `(m-1) * dt`, each from the price of its path one date later, and so on. -/
def SimulatedBackward {σ : Type} [Div F] (src : PathSource σ F) (T : F) (N : ℕ) (S : ℕ → ℕ → F)
    (s s' : σ) : Prop :=
  ∃ st : ℕ → σ,
    Draws (src.simulatePriceAtMaturity T) s ((List.range N).map (fun i => S i src.steps))
      (st src.steps) ∧ st 1 = s' ∧
    ∀ j, 1 ≤ j → j < src.steps → Chained
      (fun x => src.simulatePriceBackward x (lit (j : ℚ) * (T / lit (src.steps : ℚ)))
        (lit ((j + 1 : ℕ) : ℚ) * (T / lit (src.steps : ℚ))))
      (st (j + 1)) ((List.range N).map (fun i => S i (j + 1)))
      ((List.range N).map (fun i => S i j)) (st j)

/-- The prices simulated by the Brownian bridge resp. the standard method. -/
def Simulated {σ : Type} [Div F] (bridge : Bool) (src : PathSource σ F) (T : F) (N : ℕ)
    (S : ℕ → ℕ → F) (s s' : σ) : Prop :=
  if bridge then SimulatedBackward src T N S s s' else SimulatedForward src T N S s s'

end Verif.Spec
