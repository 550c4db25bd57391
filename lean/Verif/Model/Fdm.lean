import Verif.Model.American
import Verif.Model.Interpolation
import Verif.Model.LinearAlgebra
import Verif.Model.Market

/-!
# Finite differences (`/repo/src/solver/finite_difference_method`, one factor)

The multi-factor files of /repo are empty.  Of the warning written to `std::cerr` only the condition
is modelled.
-/

namespace Verif

/-- `n - 1` for `unsigned long` (64 bit): wraps at 0. -/
def ulpred (n : Nat) : Nat := if n = 0 then 2 ^ 64 - 1 else n - 1

namespace Eff
variable {σ α : Type}

/-- Compute an outcome from the current state. -/
def read (f : σ → Res α) : Eff σ α := fun s => (f s, s)
/-- Continue with an effect that depends on the current state. -/
def withState (e : σ → Eff σ α) : Eff σ α := fun s => e s s
/-- Change the state. -/
def modify (f : σ → σ) : Eff σ Unit := fun s => (.ok (), f s)

@[simp] theorem read_apply (f : σ → Res α) (s : σ) : read f s = (f s, s) := rfl
@[simp] theorem withState_apply (e : σ → Eff σ α) (s : σ) : withState e s = e s s := rfl
@[simp] theorem modify_apply (f : σ → σ) (s : σ) : modify f s = (.ok (), f s) := rfl

end Eff

/-- A `ConvectionDiffusionPDE` object (base_convection_diffusion_pde.h:6-17): its virtual functions, for
the market data as they are during a call of the solver.  All of them are `const`. -/
structure Pde (F : Type) where
  diffusion : F → F → Res F
  convection : F → F → Res F
  reaction : F → F → Res F
  rightHandSide : F → F → Res F
  boundaryLeft : F → F → Res F
  boundaryRight : F → F → Res F
  initialCondition : F → Res F

namespace BlackScholes
variable {F : Type} [Fl F]

/-- `marketData_->getStockData(option_->getID())` and reading the object. -/
def stock (o : OptObj F) (m : Market F) : Res (StockData F) :=
  (((Market.getStockData o.ticker : Eff (Market F) Nat) >>= Market.deref) m).1

/-- `dynamic_pointer_cast<PayoffSingleStrike>` of a clone of the payoff (black_scholes_pde.cpp:32-36,
45-49); the result is `getK()`. -/
def strike (o : OptObj F) : Res F :=
  match o.payoff.clone with
  | .vanilla _ K => .ok K
  | .digital _ K => .ok K
  | _ => invalidArg "Option payoff is not present"

variable [Add F] [Sub F] [Mul F] [Neg F]

/-- `BlackScholesPDE::diffusion` (black_scholes_pde.cpp:11-14). -/
def diffusion (o : OptObj F) (m : Market F) (x : F) : Res F := do
  let d ← stock o m
  return lit (1 / 2) * d.sigma * d.sigma * x * x

/-- `BlackScholesPDE::convection` (black_scholes_pde.cpp:16-20). -/
def convection (o : OptObj F) (m : Market F) (x : F) : Res F := do
  let d ← stock o m
  return (m.r - d.coupon.getD (lit 0)) * x

/-- `BlackScholesPDE::boundaryLeft` (black_scholes_pde.cpp:31-42). -/
def boundaryLeft (o : OptObj F) : Res F := do
  let K ← strike o
  if o.payoff.payoffType = .call then return lit 0 else return K

/-- `BlackScholesPDE::boundaryRight` (black_scholes_pde.cpp:44-58). -/
def boundaryRight (o : OptObj F) (m : Market F) (t x : F) : Res F := do
  let K ← strike o
  if o.payoff.payoffType = .call then return x - K * Fl.exp (-m.r * (o.T - t)) else return lit 0

/-- A `BlackScholesPDE` object for the option `o`, with the market data `m`; also `reaction`
(black_scholes_pde.cpp:22-25), `rightHandSide` (27-29) and `initialCondition` (60-62). -/
def pde (o : OptObj F) (m : Market F) : Pde F where
  diffusion _ x := diffusion o m x
  convection _ x := convection o m x
  reaction _ _ := .ok (-m.r)
  rightHandSide _ _ := .ok (lit 0)
  boundaryLeft _ _ := boundaryLeft o
  boundaryRight t x := boundaryRight o m t x
  initialCondition x := o.payoff.eval1 x

end BlackScholes

/-- The data members of an `FDMSolver` (base_fdm_solver.h:32-50) and, for the implicit solvers, the
member `b`.  The members `alpha`, `beta`, `gamma`, `A` are always written before they are read and
are local here. -/
structure Fdm (F : Type) where
  xDom : F
  J : Nat
  dx : F
  dx2 : F
  xValues : List F
  tDom : F
  N : Nat
  dt : F
  tPrev : F
  tCurr : F
  newPrices : List F
  oldPrices : List F
  solved : Bool
  b : List F

/-- The concrete solvers: explicit Euler; implicit Euler and Crank-Nicolson with their
`matrixSolver_`. -/
inductive Scheme (F : Type)
  | explicit
  | implicit (solver : MatrixSolver F)
  | crankNicolson (solver : MatrixSolver F)

namespace Fdm
variable {F : Type} [Fl F] [Add F] [Sub F] [Mul F] [Div F] [Neg F]

/-- The constructor `FDMSolver::FDMSolver` (base_fdm_solver.cpp:7-46): step sizes, grid and initial
condition.  A null `pde` is not modelled.  `junk` is what the memory of `b` contains. -/
def constructBase (xDom : F) (J : Nat) (tDom : F) (N : Nat) (p : Pde F) (junk : List F) : Res (Fdm F) := do
  let dx := xDom / lit (ulpred J : ℚ)
  let dt := tDom / lit (ulpred N : ℚ)
  let xs := (List.range J).map fun j : Nat => lit (j : ℚ) * dx
  let old ← Res.each p.initialCondition xs
  return { xDom := xDom, J := J, dx := dx, dx2 := dx * dx, xValues := xs, tDom := tDom, N := N, dt := dt,
           tPrev := lit 0, tCurr := lit 0, newPrices := List.replicate J (lit 0), oldPrices := old,
           solved := false, b := junk }

/-- The condition under which the constructor writes "CFL condition not satisfied!" to `std::cerr`
(base_fdm_solver.cpp:19-20).  Nothing else depends on it. -/
def warns (s : Fdm F) : Bool := Fl.ge (s.dt / (s.dx * s.dx)) (lit (1 / 2))

/-- The constructors of the concrete solvers (euler_explicit_fdm_solver.cpp:5-11,
euler_implicit_fdm_solver.cpp:7-22, crank_nicolson_fdm_solver.cpp:7-22).  `b.resize(J_-2)` leaves the
memory uninitialised: `junk` is arbitrary, cut or filled to the size.  A size below 0 or above `int`
(the index type of the sparse matrix) is undefined behaviour. -/
def construct (sc : Scheme F) (xDom : F) (J : Nat) (tDom : F) (N : Nat) (p : Pde F) (junk : Nat → F) :
    Res (Fdm F) := do
  let s ← constructBase xDom J tDom N p ((List.range (J - 2)).map junk)
  match sc with
  | .explicit => return s
  | _ => if J < 2 ∨ INT_MAX < J - 2 then .ub else return s

/-- `v[i] = x`: out of range is undefined behaviour. -/
def vset {α : Type} (v : List α) (i : Nat) (x : α) : Res (List α) :=
  if i < v.length then .ok (v.set i x) else .ub

/-- Compute a value from the current members and store it in `newPrices[i]`. -/
def storePrice (i : Nat) (val : Fdm F → Res F) : Eff (Fdm F) Unit := fun s =>
  match (do let x ← val s; vset s.newPrices i x) with
  | .ok v => (.ok (), { s with newPrices := v })
  | .throw e => (.throw e, s)
  | .ub => (.ub, s)

/-- `calculateBoundaryConditions` (euler_explicit_fdm_solver.cpp:15-18 with `time = tPrev`,
euler_implicit_fdm_solver.cpp:26-29 and crank_nicolson_fdm_solver.cpp:26-29 with `time = tCurr`). -/
def boundary (p : Pde F) (time : Fdm F → F) : Eff (Fdm F) Unit := do
  storePrice 0 fun s => do let x ← vfront s.xValues; p.boundaryLeft (time s) x
  Eff.withState fun s =>
    storePrice (s.newPrices.length - 1) fun s => do let x ← vback s.xValues; p.boundaryRight (time s) x

/-- `for (unsigned long j = lo; ...; ++j) body(j)`, `n` iterations. -/
def forJ {σ : Type} (body : Nat → Eff σ Unit) : Nat → Nat → Eff σ Unit
  | 0, _ => pure ()
  | n + 1, j => do body j; forJ body n (j + 1)

/-- `dtSig` and `dtSig2` at a time and node (euler_explicit_fdm_solver.cpp:23-24,
euler_implicit_fdm_solver.cpp:36-37, crank_nicolson_fdm_solver.cpp:41-42 and 76-77). -/
def sigs (p : Pde F) (s : Fdm F) (t : F) (j : Nat) : Res (F × F) := do
  let x ← vget s.xValues j
  let d ← p.diffusion t x
  let c ← p.convection t x
  return (s.dt * d, lit (1 / 2) * s.dt * s.dx * c)

/-- One iteration of explicit Euler (euler_explicit_fdm_solver.cpp:22-33). -/
def explicitValue (p : Pde F) (j : Nat) (s : Fdm F) : Res F := do
  let (dtSig, dtSig2) ← sigs p s s.tPrev j
  let x ← vget s.xValues j
  let r ← p.reaction s.tPrev x
  let alpha := dtSig - dtSig2
  let beta := s.dx2 - lit 2 * dtSig + s.dt * s.dx2 * r
  let gamma := dtSig + dtSig2
  let o0 ← vget s.oldPrices (j - 1)
  let o1 ← vget s.oldPrices j
  let o2 ← vget s.oldPrices (j + 1)
  let f ← p.rightHandSide s.tPrev x
  return (alpha * o0 + beta * o1 + gamma * o2) / s.dx2 - s.dt * f

/-- `EulerExplicitFDM::calculateInnerDomain` (euler_explicit_fdm_solver.cpp:20-35). -/
def innerExplicit (p : Pde F) : Eff (Fdm F) Unit := Eff.withState fun s =>
  forJ (fun j => storePrice j (explicitValue p j)) (ulpred s.J - 1) 1

/-- The triplets of row `j-1` (euler_implicit_fdm_solver.cpp:51-57,
crank_nicolson_fdm_solver.cpp:56-62). -/
def triplets (J j : Nat) (alpha beta gamma : F) : List (Nat × Nat × F) :=
  (if j > 1 then [(j - 1, j - 2, alpha)] else []) ++ [(j - 1, j - 1, beta)] ++
    (if j < J - 2 then [(j - 1, j, gamma)] else [])

/-- One iteration of implicit Euler (euler_implicit_fdm_solver.cpp:36-64): the triplets and `b[j-1]`.  (`b`
is rewritten completely in each time step, so it is local.) -/
def implicitRow (p : Pde F) (s : Fdm F) (j : Nat) : Res (List (Nat × Nat × F) × F) := do
  let (dtSig, dtSig2) ← sigs p s s.tCurr j
  let x ← vget s.xValues j
  let r ← p.reaction s.tCurr x
  let alpha := dtSig - dtSig2
  let beta := -s.dx2 - lit 2 * dtSig + s.dt * s.dx2 * r
  let gamma := dtSig + dtSig2
  let f ← p.rightHandSide s.tCurr x
  let o ← vget s.oldPrices j
  let n0 ← vget s.newPrices 0
  let nJ ← vget s.newPrices (s.J - 1)
  let b0 := s.dx2 * (s.dt * f - o)
  let b1 := if j = 1 then b0 - alpha * n0 else b0
  let b2 := if j = s.J - 2 then b1 - gamma * nJ else b1
  return (triplets s.J j alpha beta gamma, b2)

/-- `for (j = 1; j < J_-1; ++j) newPrices[j] = solution[j-1]` (euler_implicit_fdm_solver.cpp:72-74,
crank_nicolson_fdm_solver.cpp:100-102). -/
def copySolution (sol : List F) : Eff (Fdm F) Unit := Eff.withState fun s =>
  forJ (fun j => storePrice j fun _ => vget sol (j - 1)) (ulpred s.J - 1) 1

/-- The linear system of implicit Euler and its solution (euler_implicit_fdm_solver.cpp:35-69). -/
def implicitSystem (solver : MatrixSolver F) (p : Pde F) (s : Fdm F) : Res (List F) := do
  let rows ← Res.each (implicitRow p s) ((List.range (ulpred s.J - 1)).map (· + 1))
  let A ← Mat.ofTriplets (s.J - 2) (s.J - 2) (rows.map (·.1)).flatten
  solver A (rows.map (·.2))

/-- `EulerImplicitFDM::calculateInnerDomain` (euler_implicit_fdm_solver.cpp:31-75). -/
def innerImplicit (solver : MatrixSolver F) (p : Pde F) : Eff (Fdm F) Unit := do
  let sol ← Eff.read (implicitSystem solver p)
  copySolution sol

/-- One iteration of Crank-Nicolson up to line 91 (crank_nicolson_fdm_solver.cpp:40-91): the triplets and
`b[j-1]`, which is assigned first and then only incremented. -/
def cnRow (p : Pde F) (s : Fdm F) (j : Nat) : Res (List (Nat × Nat × F) × F) := do
  let (dtSig, dtSig2) ← sigs p s s.tCurr j
  let x ← vget s.xValues j
  let r ← p.reaction s.tCurr x
  let reaction := lit (1 / 2) * s.dt * s.dx2 * r
  let alpha := lit (1 / 2) * (dtSig - dtSig2)
  let beta := -s.dx2 - dtSig + reaction
  let gamma := lit (1 / 2) * (dtSig + dtSig2)
  let f1 ← p.rightHandSide s.tCurr x
  let f0 ← p.rightHandSide s.tPrev x
  let n0 ← vget s.newPrices 0
  let nJ ← vget s.newPrices (s.J - 1)
  let b0 := lit (1 / 2) * s.dx2 * s.dt * (f1 + f0)
  let b1 := if j = 1 then b0 - alpha * n0 else b0
  let b2 := if j = s.J - 2 then b1 - gamma * nJ else b1
  let (dtSig', dtSig2') ← sigs p s s.tPrev j
  let r' ← p.reaction s.tPrev x
  let reaction' := lit (1 / 2) * s.dt * s.dx2 * r'
  let alpha' := -lit (1 / 2) * (dtSig' - dtSig2')
  let beta' := -s.dx2 + dtSig' - reaction'
  let gamma' := -lit (1 / 2) * (dtSig' + dtSig2')
  let o1 ← vget s.oldPrices j
  let o0 ← vget s.oldPrices (j - 1)
  let o2 ← vget s.oldPrices (j + 1)
  let b3 := b2 + beta' * o1
  let b4 := if j > 1 then b3 + alpha' * o0 else b3
  let b5 := if j < s.J - 2 then b4 + gamma' * o2 else b4
  return (triplets s.J j alpha beta gamma, b5)

/-- `b[i] = x`. -/
def storeB (i : Nat) (x : F) : Eff (Fdm F) Unit := fun s =>
  match vset s.b i x with
  | .ok b => (.ok (), { s with b := b })
  | .throw e => (.throw e, s)
  | .ub => (.ub, s)

/-- `A.setFromTriplets(...)` and `matrixSolver_->solve(A, b)` (crank_nicolson_fdm_solver.cpp:94-97). -/
def cnSystem (solver : MatrixSolver F) (ts : List (Nat × Nat × F)) (s : Fdm F) : Res (List F) := do
  let A ← Mat.ofTriplets (s.J - 2) (s.J - 2) ts
  solver A s.b

/-- One iteration of the loop of Crank-Nicolson (crank_nicolson_fdm_solver.cpp:38-103): the system is
solved and the solution copied inside the loop.  `ts` is `tripletListA`. -/
def cnIteration (solver : MatrixSolver F) (p : Pde F) (j : Nat) (ts : List (Nat × Nat × F)) :
    Eff (Fdm F) (List (Nat × Nat × F)) := do
  let row ← Eff.read fun s => cnRow p s j
  storeB (j - 1) row.2
  let sol ← Eff.read (cnSystem solver (ts ++ row.1))
  copySolution sol
  return ts ++ row.1

/-- The loop of Crank-Nicolson, `n` iterations from `j` on. -/
def cnLoop (solver : MatrixSolver F) (p : Pde F) : Nat → Nat → List (Nat × Nat × F) → Eff (Fdm F) Unit
  | 0, _, _ => pure ()
  | n + 1, j, ts => do
    let ts' ← cnIteration solver p j ts
    cnLoop solver p n (j + 1) ts'

/-- `CrankNicolsonFDMSolver::calculateInnerDomain` (crank_nicolson_fdm_solver.cpp:31-104). -/
def innerCN (solver : MatrixSolver F) (p : Pde F) : Eff (Fdm F) Unit := Eff.withState fun s =>
  cnLoop solver p (ulpred s.J - 1) 1 []

/-- `calculateBoundaryConditions(); calculateInnerDomain();` of the concrete solver. -/
def march (sc : Scheme F) (p : Pde F) : Eff (Fdm F) Unit :=
  match sc with
  | .explicit => do boundary p (·.tPrev); innerExplicit p
  | .implicit solver => do boundary p (·.tCurr); innerImplicit solver p
  | .crankNicolson solver => do boundary p (·.tCurr); innerCN solver p

/-- One iteration of the time loop (base_fdm_solver.cpp:50-54). -/
def step (sc : Scheme F) (p : Pde F) : Eff (Fdm F) Unit := do
  Eff.modify fun s => { s with tCurr := s.tPrev + s.dt }
  march sc p
  Eff.modify fun s => { s with oldPrices := s.newPrices, tPrev := s.tCurr }

/-- The time loop (base_fdm_solver.cpp:49-55).  `fuel` bounds the number of iterations; the loop may
run for ever (for instance if `dt` is 0 or NaN), so running out of fuel is `ub`, and theorems speak
about sufficiently large `fuel`. -/
def timeLoop (sc : Scheme F) (p : Pde F) : Nat → Eff (Fdm F) Unit
  | 0 => Eff.lift .ub
  | fuel + 1 => Eff.withState fun s =>
    if Fl.lt s.tCurr s.tDom then do step sc p; timeLoop sc p fuel else pure ()

/-- `FDMSolver::solve` (base_fdm_solver.cpp:48-58). -/
def solve (sc : Scheme F) (p : Pde F) (fuel : Nat) : Eff (Fdm F) (List F) := do
  timeLoop sc p fuel
  Eff.modify fun s => { s with solved := true }
  Eff.read fun s => .ok s.newPrices

/-- `FDMSolver::calculatePrice` (base_fdm_solver.cpp:60-64); `S` is the outcome of reading the current
price from the market data. -/
def calculatePrice (sc : Scheme F) (k : Interp.Kind) (p : Pde F) (S : Res F) (fuel : Nat) : Eff (Fdm F) F := do
  Eff.withState fun s => if s.solved then pure () else do let _ ← solve sc p fuel; return ()
  Eff.read fun s => do let x ← S; Interp.interpolate k s.xValues s.newPrices x

end Fdm
end Verif
