import Verif.Model.Export

/-!
# Specification of the exported file
-/

namespace Verif.Spec
open Verif.Export

/-- From the state `q0` a sequence delivers the points `p 0, p 1, ...` of `s` coordinates each. -/
def Delivers {Q F : Type} (q : Quasi.Sequence Q F) (q0 : Q) (s : ℕ) (p : ℕ → ℕ → F) : Prop :=
  ∃ t : ℕ → Q, t 0 = q0 ∧ ∀ k, q.generate (t k) = (.ok ((List.range s).map (p k)), t (k + 1))

/-- The engine produces the numbers `u 0, u 1, ...`. -/
def Produces {E F : Type} (next : E → F × E) (e0 : E) (u : ℕ → F) : Prop :=
  ∃ t : ℕ → E, t 0 = e0 ∧ ∀ k, next (t k) = (u k, t (k + 1))

/-- The file with `N` samples in `s` dimensions: a header, then one row for every sample and dimension, sample by sample. -/
def exported {F : Type} [Div F] (N s : ℕ) (sobol faure : ℕ → ℕ → F) (maxS maxF : F) (u : ℕ → F) : List (Line F) :=
  .header :: (List.range N).flatMap fun i => (List.range s).map fun d =>
    .row (i + 1) (d + 1) (sobol i d / maxS) (faure i d / maxF) (u (i * s + d))

/-- The program ends in `c`. -/
def EndsIn {E S P F : Type} [Fl F] [Div F] (w : World E S P F) (tokens : List Token) (c : Conf E S P F) : Prop :=
  c.final ∧ ∃ n, run w tokens n = c

/-- The program never ends. -/
def RunsForever {E S P F : Type} [Fl F] [Div F] (w : World E S P F) (tokens : List Token) : Prop :=
  ∀ n, ¬ (run w tokens n).final

end Verif.Spec
