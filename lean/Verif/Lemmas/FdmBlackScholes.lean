import Verif.Lemmas.FdmSchemes

/-!
# The problem described by a `BlackScholesPDE` object
-/

namespace Verif
open Spec

/-- The values of the functions of `BlackScholesPDE` for a call. -/
noncomputable def callProblem (σ r c K T : ℝ) : Problem where
  D _ x := 1 / 2 * σ ^ 2 * x ^ 2
  C _ x := (r - c) * x
  R _ _ := -r
  f _ _ := 0
  left _ _ := 0
  right t x := x - K * Real.exp (-r * (T - t))
  initial x := max (x - K) 0

/-- The values of the functions of `BlackScholesPDE` for a put. -/
noncomputable def putProblem (σ r c K : ℝ) : Problem where
  D _ x := 1 / 2 * σ ^ 2 * x ^ 2
  C _ x := (r - c) * x
  R _ _ := -r
  f _ _ := 0
  left _ _ := K
  right _ _ := 0
  initial x := max (K - x) 0

theorem call_describes {o : OptObj ℝ} {m : Market ℝ} {d : StockData ℝ} {K : ℝ} (hd : BlackScholes.stock o m = .ok d)
    (ho : o.payoff = .vanilla .call K) :
    Describes (BlackScholes.pde o m) (callProblem d.sigma m.r (d.coupon.getD 0) K o.T) := by
  constructor <;> intros <;>
    simp [BlackScholes.pde, BlackScholes.diffusion, BlackScholes.convection, BlackScholes.boundaryLeft, BlackScholes.boundaryRight,
      BlackScholes.strike, hd, ho, callProblem, Payoff.clone, Payoff.payoffType, Payoff.eval1]
  ring

theorem put_describes {o : OptObj ℝ} {m : Market ℝ} {d : StockData ℝ} {K : ℝ} (hd : BlackScholes.stock o m = .ok d)
    (ho : o.payoff = .vanilla .put K) :
    Describes (BlackScholes.pde o m) (putProblem d.sigma m.r (d.coupon.getD 0) K) := by
  constructor <;> intros <;>
    simp [BlackScholes.pde, BlackScholes.diffusion, BlackScholes.convection, BlackScholes.boundaryLeft, BlackScholes.boundaryRight,
      BlackScholes.strike, hd, ho, putProblem, Payoff.clone, Payoff.payoffType, Payoff.eval1]
  ring

/-- If `σ² ≥ |r - c|` and `r ≥ 0` the diffusion dominates on every grid. -/
theorem call_dominates {σ r c K T : ℝ} (hσ : |r - c| ≤ σ ^ 2) (hr : 0 ≤ r) (J : ℕ) {h : ℝ} (hh : 0 ≤ h) :
    DiffusionDominates (callProblem σ r c K T) J h := by
  intro t j h1 _
  refine ⟨?_, neg_nonpos.mpr hr⟩
  change h * |(r - c) * (j * h)| ≤ 2 * (1 / 2 * σ ^ 2 * (j * h) ^ 2)
  have hj : (1 : ℝ) ≤ j := by exact_mod_cast h1
  rw [abs_mul, abs_of_nonneg (by positivity : (0 : ℝ) ≤ j * h)]
  have : |r - c| * 1 ≤ σ ^ 2 * j := mul_le_mul hσ hj (by norm_num) (by positivity)
  nlinarith [mul_nonneg (mul_nonneg (by positivity : (0 : ℝ) ≤ j) (mul_nonneg hh hh)) (sub_nonneg.mpr this)]

theorem put_dominates {σ r c K : ℝ} (hσ : |r - c| ≤ σ ^ 2) (hr : 0 ≤ r) (J : ℕ) {h : ℝ} (hh : 0 ≤ h) :
    DiffusionDominates (putProblem σ r c K) J h := call_dominates (K := K) (T := 0) hσ hr J hh

/-- Market data for the examples: one stock, `S = 1`, `sigma = 1`, `r = 1`, no dividends. -/
def exampleMarket : Market ℝ := ⟨[⟨1, 1, none⟩], [("A", 0)], 1, [], [], []⟩

/-- Options for the examples. -/
def exampleOption (ty : PayoffType) : OptObj ℝ := ⟨.european, "A", .vanilla ty 1, 1, none⟩

theorem example_stock (ty : PayoffType) : BlackScholes.stock (exampleOption ty) exampleMarket = .ok ⟨1, 1, none⟩ := by
  rfl

theorem example_call : Describes (BlackScholes.pde (exampleOption .call) exampleMarket) (callProblem 1 1 0 1 1) :=
  call_describes (example_stock _) rfl

theorem example_put : Describes (BlackScholes.pde (exampleOption .put) exampleMarket) (putProblem 1 1 0 1) :=
  put_describes (example_stock _) rfl

end Verif
