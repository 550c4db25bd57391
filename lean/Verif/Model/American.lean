import Verif.Model.MonteCarlo

/-!
# The American pricer (`/repo/src/solver/monte_carlo/mc_american.cpp`)

Least squares Monte Carlo.  Eigen matrices are lists of rows, Eigen vectors are lists; products of
mismatched sizes and rows out of range (Eigen assertions, undefined behaviour when assertions are
off) are `ub`.  Eigen's summation order in products and `mean()` is simplified to left to right.
-/

namespace Verif

/-- Evaluate a function on each element, from left to right; stop at the first failure. -/
def Res.each {α β : Type} (f : α → Res β) : List α → Res (List β)
  | [] => .ok []
  | a :: as => do
    let b ← f a
    let bs ← Res.each f as
    return b :: bs

/-- The same for effectful code. -/
def Eff.each {σ α β : Type} (f : α → Eff σ β) : List α → Eff σ (List β)
  | [] => pure []
  | a :: as => do
    let b ← f a
    let bs ← Eff.each f as
    return b :: bs

/-- `static_cast<int>(n)` of an `unsigned int`: modulo `2^32` (C++20). -/
def toInt32 (n : Nat) : Int := if n ≤ INT_MAX then n else (n : Int) - UINT_MOD

/-- The strategies of the pricer: `BasisFunction::generate` (prices to design matrix, a list of
rows) and `Regression::solve` (design matrix, targets to coefficients); arbitrary here. -/
structure Lsmc (F : Type) where
  generate : List F → Res (List (List F))
  solve : List (List F) → List F → Res (List F)

namespace MC
variable {F σ : Type} [Fl F] [Add F] [Sub F] [Mul F] [Div F] [Neg F]

/-- Product of a row and a column vector of the same size. -/
def dot (a b : List F) : Res F :=
  if a.length = b.length then .ok ((List.zipWith (· * ·) a b).foldl (· + ·) (lit 0)) else .ub

/-- The collecting loop (mc_american.cpp:51-62, 124-138).  Each entry is price, exercise value and
`americanPrices(i)`; the result is `inTheMoneyPaths`, `discountedCashFlows`, `isInTheMoney`. -/
def collect (df : F) : List (F × F × F) → List F × List F × List Bool
  | [] => ([], [], [])
  | (S, e, c) :: rest =>
    let r := collect df rest
    if Fl.gt e (lit 0) then (S :: r.1, c * df :: r.2.1, true :: r.2.2)
    else (r.1, r.2.1, false :: r.2.2)

/-- Step 5 (mc_american.cpp:75-89, 151-165).  Each entry is price, `isInTheMoney[i]` and
`americanPrices(i)`; `idx` is `idxITM`. -/
def exerciseOrContinue (pay : F → Res F) (df : F) (bases : List (List F)) (coeffs : List F) :
    List (F × Bool × F) → Nat → Res (List F)
  | [], _ => .ok []
  | (S, itm, c) :: rest, idx =>
    if itm then do
      let e ← pay S
      let row ← vget bases idx
      let cont ← dot row coeffs
      let tail ← exerciseOrContinue pay df bases coeffs rest (idx + 1)
      return (if Fl.gt e cont then e else c * df) :: tail
    else do
      let tail ← exerciseOrContinue pay df bases coeffs rest idx
      return c * df :: tail

/-- One date of the backward induction, after the exercise values of the date are known
(mc_american.cpp:48-90, 120-166): collect, regress, decide.  When no path is in the money nothing is
done, not even discounting. -/
def lsmcUpdate (strat : Lsmc F) (pay : F → Res F) (df : F) (prices exercise cash : List F) :
    Res (List F) :=
  let col := collect df (prices.zip (exercise.zip cash))
  if col.1.isEmpty then .ok cash
  else do
    let bases ← strat.generate col.1
    let coeffs ← strat.solve bases col.2.1
    exerciseOrContinue pay df bases coeffs (prices.zip (col.2.2.zip cash)) 0

/-- One column of the path matrix (mc_american.cpp:48-90). -/
def standardStep (strat : Lsmc F) (pay : F → Res F) (df : F) (paths : List (List F)) (j : Nat)
    (cash : List F) : Res (List F) := do
  let column ← Res.each (fun row => vget row j) paths
  let exercise ← Res.each pay column
  lsmcUpdate strat pay df column exercise cash

/-- `for (int j = k - 1; j >= 0; --j)` (mc_american.cpp:47-91). -/
def standardLoop (strat : Lsmc F) (pay : F → Res F) (df : F) (paths : List (List F)) :
    Nat → List F → Res (List F)
  | 0, cash => .ok cash
  | k + 1, cash => do
    let cash' ← standardStep strat pay df paths k cash
    standardLoop strat pay df paths k cash'

/-- `americanPrices.mean()`; Eigen has no mean of an empty vector. -/
def mean (v : List F) : Res F :=
  if v.isEmpty then .ub else .ok (v.foldl (· + ·) (lit 0) / lit (v.length : ℚ))

/-- `paths.row(i) = Map(prices)` needs as many prices as columns. -/
def simulateRow (src : PathSource σ F) (T : F) : Eff σ (List F) := do
  let prices ← src.simulatePrices T
  if prices.length = src.steps then return prices else Eff.lift .ub

/-- A loop `for (int i = 0; i < N; ++i)` that stores one simulated value per iteration. -/
def simulateN {α : Type} (sim : Eff σ α) (N : Nat) : Eff σ (List α) :=
  Eff.unfoldInt (fun (_ : Unit) => do let x ← sim; return ((), x)) N ()

/-- The part of `standardPrice` after the simulation (mc_american.cpp:41-94). -/
def standardValue (strat : Lsmc F) (pay : F → Res F) (steps : Nat) (df : F)
    (paths : List (List F)) : Res F := do
  let lastCol ← (if steps = 0 then .ub else Res.each (fun row => vget row (steps - 1)) paths)
  let cash ← Res.each pay lastCol
  let cash' ← (if toInt32 steps - 2 < -2147483648 then .ub
    else standardLoop strat pay df paths (toInt32 steps - 1).toNat cash)
  let m ← mean cash'
  return m * df

/-- `AmericanMCPricer::standardPrice` (mc_american.cpp:26-95). -/
def americanStandard (strat : Lsmc F) (src : PathSource σ F) (getR : Eff σ F) (pay : F → Res F)
    (T : F) (N : Nat) : Eff σ F := do
  let dt := T / lit (src.steps : ℚ)
  let r ← getR
  let df := Fl.exp (-r * dt)
  let paths ← simulateN (simulateRow src T) N
  Eff.lift (standardValue strat pay src.steps df paths)

/-- One date `j` of the Brownian bridge induction (mc_american.cpp:120-166); the state is `paths` and
`americanPrices`. -/
def bridgeStep (strat : Lsmc F) (src : PathSource σ F) (pay : F → Res F) (dt df : F) (j : Nat)
    (st : List F × List F) : Eff σ (List F × List F) := do
  let rows ← Eff.each (fun S => do
    let S' ← src.simulatePriceBackward S (lit (j : ℚ) * dt) (lit ((j + 1 : ℕ) : ℚ) * dt)
    let e ← Eff.lift (pay S')
    return (S', e)) st.1
  let prices := rows.map (·.1)
  let cash' ← Eff.lift (lsmcUpdate strat pay df prices (rows.map (·.2)) st.2)
  return (prices, cash')

/-- `for (int j = k; j > 0; --j)` (mc_american.cpp:119-167). -/
def bridgeLoop (strat : Lsmc F) (src : PathSource σ F) (pay : F → Res F) (dt df : F) :
    Nat → List F × List F → Eff σ (List F × List F)
  | 0, st => pure st
  | k + 1, st => do
    let st' ← bridgeStep strat src pay dt df (k + 1) st
    bridgeLoop strat src pay dt df k st'

/-- `AmericanMCPricer::brownianBridgePrice` (mc_american.cpp:97-171). -/
def americanBridge (strat : Lsmc F) (src : PathSource σ F) (getR : Eff σ F) (pay : F → Res F)
    (T : F) (N : Nat) : Eff σ F := do
  let dt := T / lit (src.steps : ℚ)
  let r ← getR
  let df := Fl.exp (-r * dt)
  let paths ← simulateN (src.simulatePriceAtMaturity T) N
  let cash ← Eff.lift (Res.each pay paths)
  let st ← (if toInt32 src.steps - 1 < -2147483648 then Eff.lift .ub
    else bridgeLoop strat src pay dt df (toInt32 src.steps - 1).toNat (paths, cash))
  let m ← Eff.lift (mean st.2)
  return m * df

/-- `AmericanMCPricer::calculatePrice` (mc_american.cpp:17-24): `bridge` is the outcome of the two
`dynamic_pointer_cast`s (pseudo random generator and geometric Brownian motion). -/
def american (bridge : Bool) (strat : Lsmc F) (src : PathSource σ F) (getR : Eff σ F)
    (pay : F → Res F) (T : F) (N : Nat) : Eff σ F :=
  if bridge then americanBridge strat src getR pay T N
  else americanStandard strat src getR pay T N

end MC
end Verif
