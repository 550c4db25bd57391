import Verif.Num.Res

/-!
# Sequences of calls whose exceptions are caught
-/

namespace Verif.Spec

/-- The outcomes of the calls `f d` for the elements of a list, in order; exceptions are caught and the
next call is made in the state left behind. -/
def outcomes {σ δ α : Type} (f : δ → Eff σ α) : List δ → σ → List (Res α)
  | [], _ => []
  | d :: ds, s => (f d s).1 :: outcomes f ds (f d s).2

end Verif.Spec
