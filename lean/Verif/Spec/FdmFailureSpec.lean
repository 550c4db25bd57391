import Verif.Model.FdmWorld

/-!
# When the functions of a PDE fail

Nothing here refers to how a solver works.
-/

namespace Verif.Spec

variable {F : Type}

/-- The coefficients of the equation can be evaluated at `(t, x)`. -/
def CoefficientsOk (p : Pde F) (t x : F) : Prop :=
  (p.diffusion t x).IsOk ∧ (p.convection t x).IsOk ∧ (p.reaction t x).IsOk ∧ (p.rightHandSide t x).IsOk

/-- One of the functions of the equation throws the exception `e` at `(t, x)`. -/
def PdeThrows (p : Pde F) (t x : F) (e : Exc) : Prop :=
  p.diffusion t x = .throw e ∨ p.convection t x = .throw e ∨ p.reaction t x = .throw e ∨ p.rightHandSide t x = .throw e ∨
    p.boundaryLeft t x = .throw e ∨ p.boundaryRight t x = .throw e

/-- The matrix solver of the scheme throws `e` for some system. -/
def SolverThrows (sc : Scheme F) (e : Exc) : Prop :=
  match sc with
  | .explicit => False
  | .implicit solver => ∃ A b, solver A b = .throw e
  | .crankNicolson solver => ∃ A b, solver A b = .throw e

/-- The time levels at which a scheme needs the coefficients for the step from `t` to `t'`. -/
def CoefficientTime (sc : Scheme F) (t t' τ : F) : Prop :=
  match sc with
  | .explicit => τ = t
  | .implicit _ => τ = t'
  | .crankNicolson _ => τ = t ∨ τ = t'

/-- The time level at which a scheme needs the boundary values for the step from `t` to `t'`. -/
def boundaryTime (sc : Scheme F) (t t' : F) : F :=
  match sc with
  | .explicit => t
  | .implicit _ => t'
  | .crankNicolson _ => t'

/-- The equation does not depend on the time, or only through values that can always be computed: the coefficients are the same at all
times, and what can be evaluated at one time can be at another. -/
structure Steady (p : Pde F) : Prop where
  diffusion : ∀ t t' x, p.diffusion t x = p.diffusion t' x
  convection : ∀ t t' x, p.convection t x = p.convection t' x
  reaction : ∀ t t' x, p.reaction t x = p.reaction t' x
  rightHandSide : ∀ t t' x, (p.rightHandSide t x).IsOk → (p.rightHandSide t' x).IsOk
  left : ∀ t t' x, (p.boundaryLeft t x).IsOk → (p.boundaryLeft t' x).IsOk
  right : ∀ t t' x, (p.boundaryRight t x).IsOk → (p.boundaryRight t' x).IsOk

/-- Whether the solver finds a solution depends on the matrix and the size of the right hand side only (true of every direct method). -/
def FailsByMatrix (solver : MatrixSolver F) : Prop :=
  ∀ A b b' x, b'.length = b.length → solver A b = .ok x → ∃ x', solver A b' = .ok x' ∧ x'.length = x.length

/-- The matrix solver of a scheme, if it has one, is such a solver. -/
def SolverFailsByMatrix (sc : Scheme F) : Prop :=
  match sc with
  | .explicit => True
  | .implicit solver => FailsByMatrix solver
  | .crankNicolson solver => FailsByMatrix solver

/-- The market calls of a history, in order. -/
def fdmMarketCalls (h : List (FdmCall F)) : List (Call F) :=
  h.filterMap fun c => match c with
    | .market c => some c
    | _ => none

/-- Every call of the solver in the history fails with an exception of `solve()`; the market data may change in between. -/
def AllFail [Fl F] [Add F] [Sub F] [Mul F] [Div F] [Neg F] (sc : Scheme F) (k : Interp.Kind) (o : OptObj F) (fuel : ℕ) :
    Market F × Fdm F → List (FdmCall F) → Prop
  | _, [] => True
  | w, .market c :: h => AllFail sc k o fuel (FdmWorld.step sc k o fuel w (.market c)) h
  | w, .solve :: h => (∃ e, (Fdm.solve sc (BlackScholes.pde o w.1) fuel w.2).1 = .throw e) ∧ AllFail sc k o fuel (FdmWorld.step sc k o fuel w .solve) h
  | w, .calculatePrice :: h => (∃ e, (Fdm.solve sc (BlackScholes.pde o w.1) fuel w.2).1 = .throw e) ∧
      AllFail sc k o fuel (FdmWorld.step sc k o fuel w .calculatePrice) h

end Verif.Spec
