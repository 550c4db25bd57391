import Verif.Model.FdmWorld
import Verif.Props.FdmSchemes
import Verif.Props.Interpolation

/-!
# Property C61: repeated calls of the finite difference solver
-/

namespace Verif
open Spec Fdm

section
variable {F : Type} [Fl F] [Add F] [Sub F] [Mul F] [Div F] [Neg F]

namespace Fdm

theorem timeLoop_end {sc : Scheme F} {p : Pde F} : ∀ {fuel : ℕ} {s s' : Fdm F}, timeLoop sc p fuel s = (.ok (), s') →
    Fl.lt s'.tCurr s'.tDom = false := by
  intro fuel
  induction fuel with
  | zero => intro s s' h; cases h
  | succ n ih =>
    intro s s' h
    rw [timeLoop, Eff.withState_apply] at h
    by_cases hlt : Fl.lt s.tCurr s.tDom = true
    · rw [if_pos hlt] at h
      rcases hs : step sc p s with ⟨r, s1⟩
      cases r with
      | ok a => rw [Eff.bind_of_ok hs] at h; exact ih h
      | throw e => rw [Eff.bind_of_throw hs] at h; cases h
      | ub => rw [Eff.bind_of_ub hs] at h; cases h
    · rw [if_neg hlt] at h
      cases h
      simpa using hlt

/-- What a returning `solve()` leaves. -/
theorem solve_ok {sc : Scheme F} {p : Pde F} {fuel : ℕ} {s s' : Fdm F} {v : List F} (h : solve sc p fuel s = (.ok v, s')) :
    v = s'.newPrices ∧ s'.solved = true ∧ Fl.lt s'.tCurr s'.tDom = false := by
  unfold solve at h
  rcases hs : timeLoop sc p fuel s with ⟨r, s1⟩
  cases r with
  | ok a =>
    rw [Eff.bind_of_ok hs, Eff.bind_of_ok (Eff.modify_apply _ _), Eff.read_apply] at h
    have := timeLoop_end hs
    cases h
    exact ⟨rfl, rfl, this⟩
  | throw e => rw [Eff.bind_of_throw hs] at h; cases h
  | ub => rw [Eff.bind_of_ub hs] at h; cases h

theorem solve_done (sc : Scheme F) (p : Pde F) {fuel : ℕ} (hf : 1 ≤ fuel) {s : Fdm F} (h1 : s.solved = true)
    (h2 : Fl.lt s.tCurr s.tDom = false) : solve sc p fuel s = (.ok s.newPrices, s) := by
  obtain ⟨f, rfl⟩ : ∃ f, fuel = f + 1 := ⟨fuel - 1, by omega⟩
  have hloop : timeLoop sc p (f + 1) s = (.ok (), s) := by
    rw [timeLoop, Eff.withState_apply, if_neg (by simp [h2])]
    rfl
  unfold solve
  rw [Eff.bind_of_ok hloop, Eff.bind_of_ok (Eff.modify_apply _ _), Eff.read_apply]
  cases s
  dsimp only at h1
  subst h1
  rfl

theorem calculatePrice_done (sc : Scheme F) (k : Interp.Kind) (p : Pde F) (S : Res F) (fuel : ℕ) {s : Fdm F} (h1 : s.solved = true) :
    calculatePrice sc k p S fuel s = (S >>= Interp.interpolate k s.xValues s.newPrices, s) := by
  unfold calculatePrice
  have : (Eff.withState fun s : Fdm F => if s.solved then pure () else do let _ ← solve sc p fuel; return ()) s = (.ok (), s) := by
    rw [Eff.withState_apply, if_pos h1]
    rfl
  rw [Eff.bind_of_ok this, Eff.read_apply]

theorem calculatePrice_fresh (sc : Scheme F) (k : Interp.Kind) (p : Pde F) (S : Res F) {fuel : ℕ} {s s' : Fdm F} {v : List F}
    (h0 : s.solved = false) (h : solve sc p fuel s = (.ok v, s')) :
    calculatePrice sc k p S fuel s = (S >>= Interp.interpolate k s'.xValues s'.newPrices, s') := by
  unfold calculatePrice
  have : (Eff.withState fun s : Fdm F => if s.solved then pure () else do let _ ← solve sc p fuel; return ()) s = (.ok (), s') := by
    rw [Eff.withState_apply, if_neg (by simp [h0]), Eff.bind_of_ok h]
    rfl
  rw [Eff.bind_of_ok this, Eff.read_apply]

end Fdm

/-- **C61.** In any arithmetic, for every scheme and PDE: once `solve()` has returned, calling it again, under any
market data, returns the same vector and changes nothing. -/
theorem C61_idempotent (sc : Scheme F) (p p' : Pde F) (fuel fuel' : ℕ) (hf : 1 ≤ fuel') (s s' : Fdm F) (v : List F)
    (h : solve sc p fuel s = (.ok v, s')) : solve sc p' fuel' s' = (.ok v, s') := by
  obtain ⟨rfl, h1, h2⟩ := solve_ok h
  exact solve_done sc p' hf h1 h2

/-- The coefficients of the equation that come from the market data. -/
def coefficients (o : OptObj F) (m : Market F) : Res (F × Option F × F) := do
  let d ← BlackScholes.stock o m
  return (d.sigma, d.coupon, m.r)

omit [Div F] in
theorem pde_congr {o : OptObj F} {m m' : Market F} {c : F × Option F × F} (h : coefficients o m = .ok c) (h' : coefficients o m' = .ok c) :
    BlackScholes.pde o m = BlackScholes.pde o m' := by
  unfold coefficients at h h'
  rw [Res.bind_eq_ok] at h h'
  obtain ⟨d, hd, e⟩ := h
  obtain ⟨d', hd', e'⟩ := h'
  have e := Res.ok.inj e
  have e' := Res.ok.inj e'
  have hx := e.trans e'.symm
  simp only [Prod.mk.injEq] at hx
  obtain ⟨h1, h2, h3⟩ := hx
  unfold BlackScholes.pde
  congr 1
  · funext _ x; simp [BlackScholes.diffusion, hd, hd', h1]
  · funext _ x; simp [BlackScholes.convection, hd, hd', h2, h3]
  · funext _ x; rw [h3]
  · funext t x; simp [BlackScholes.boundaryRight, h3]

/-- **C61 (partial).** In any arithmetic: after every history of calls on the market data and on the solver, with
exceptions caught, `calculatePrice()` gives what a newly constructed solver gives under the market data at the
time of the call, provided that volatility, dividend rate and interest rate are those of the start at every moment
(the price of the stock and everything else may change), and that `solve()` returns for these.
Missing (see `C61_fails`): changes of these parameters, which the solver ignores after the first call. -/
theorem C61_partial (sc : Scheme F) (k : Interp.Kind) (o : OptObj F) (m0 : Market F) (s0 : Fdm F) (h0 : s0.solved = false) (fuel : ℕ) (hf : 1 ≤ fuel)
    (hret : (solve sc (BlackScholes.pde o m0) fuel s0).1.IsOk) (c : F × Option F × F) (hist : List (FdmCall F))
    (hc : ∀ pre, pre <+: hist → coefficients o (FdmWorld.run sc k o fuel (m0, s0) pre).1 = .ok c) (m : Market F) (s : Fdm F)
    (hw : FdmWorld.run sc k o fuel (m0, s0) hist = (m, s)) :
    (calculatePrice sc k (BlackScholes.pde o m) (FdmWorld.spot o m) fuel s).1 =
      (calculatePrice sc k (BlackScholes.pde o m) (FdmWorld.spot o m) fuel s0).1 := by
  rcases hv : solve sc (BlackScholes.pde o m0) fuel s0 with ⟨r, s1⟩
  rw [hv] at hret
  obtain ⟨v, rfl⟩ : ∃ v, r = .ok v := hret
  obtain ⟨-, d1, d2⟩ := solve_ok hv
  have hp0 := hc [] (List.nil_prefix)
  have inv : ∀ pre, pre <+: hist → (FdmWorld.run sc k o fuel (m0, s0) pre).2 = s0 ∨ (FdmWorld.run sc k o fuel (m0, s0) pre).2 = s1 := by
    intro pre
    induction pre using List.reverseRecOn with
    | nil => intro _; exact .inl rfl
    | append_singleton pre a ih =>
      intro hpre
      have hpre' : pre <+: hist := (List.prefix_append pre [a]).trans hpre
      have hpde := pde_congr (hc pre hpre') hp0
      have ih := ih hpre'
      unfold FdmWorld.run at ih hpde ⊢
      rw [List.foldl_append, List.foldl_cons, List.foldl_nil]
      generalize hw' : List.foldl (FdmWorld.step sc k o fuel) (m0, s0) pre = w at ih hpde ⊢
      have hpde : BlackScholes.pde o w.1 = BlackScholes.pde o m0 := hpde
      cases a with
      | market c => exact ih
      | solve =>
        right
        change (solve sc (BlackScholes.pde o w.1) fuel w.2).2 = s1
        rw [hpde]
        rcases ih with e | e
        · rw [e, hv]
        · rw [e, solve_done sc _ hf d1 d2]
      | calculatePrice =>
        right
        change (calculatePrice sc k (BlackScholes.pde o w.1) (FdmWorld.spot o w.1) fuel w.2).2 = s1
        rw [hpde]
        rcases ih with e | e
        · rw [e, calculatePrice_fresh sc k _ _ h0 hv]
        · rw [e, calculatePrice_done sc k _ _ _ d1]
  have hpde : BlackScholes.pde o m = BlackScholes.pde o m0 := by
    have := hc hist (List.prefix_refl _)
    rw [hw] at this
    exact pde_congr this hp0
  have hs := inv hist (List.prefix_refl _)
  rw [hw] at hs
  rw [hpde]
  rcases hs with e | e
  · rw [show s = s0 from e]
  · rw [show s = s1 from e, calculatePrice_done sc k _ _ _ d1, calculatePrice_fresh sc k _ _ h0 hv]

/-- **C61 fails, in general.** In any arithmetic: once a price was computed, every later `calculatePrice()` evaluates the
same vector, whatever the market data are by then; only the price of the stock matters. -/
theorem C61_stale_fails (sc : Scheme F) (k : Interp.Kind) (p p' : Pde F) (S S' : Res F) (fuel fuel' : ℕ) (s : Fdm F) (v : List F) (s1 : Fdm F)
    (h0 : s.solved = false) (h : solve sc p fuel s = (.ok v, s1)) :
    (calculatePrice sc k p' S' fuel' (calculatePrice sc k p S fuel s).2).1 = S' >>= Interp.interpolate k s1.xValues v := by
  obtain ⟨rfl, d1, d2⟩ := solve_ok h
  rw [calculatePrice_fresh sc k _ _ h0 h, calculatePrice_done sc k _ _ _ d1]

end

/-! ### A witness -/

namespace Fdm

/-- One stock with price 1 and volatility `σ`, no interest. -/
def sigmaMarket (σ : ℝ) : Market ℝ := ⟨[⟨1, σ, none⟩], [("A", 0)], 0, [], [], []⟩

theorem sigma_put (σ : ℝ) : Describes (BlackScholes.pde (exampleOption .put) (sigmaMarket σ)) (putProblem σ 0 0 1) :=
  put_describes (o := exampleOption .put) (m := sigmaMarket σ) (d := ⟨1, σ, none⟩) rfl rfl

theorem sigma_construct (σ : ℝ) : construct .explicit 2 3 1 2 (BlackScholes.pde (exampleOption .put) (sigmaMarket σ)) (fun _ => 0) =
    construct .explicit 2 3 1 2 (BlackScholes.pde (exampleOption .put) (sigmaMarket 0)) (fun _ => 0) := rfl

/-- The explicit solver on the nodes 0, 1, 2 with one time step. -/
theorem sigma_solve (σ : ℝ) {s : Fdm ℝ} (hs : construct .explicit 2 3 1 2 (BlackScholes.pde (exampleOption .put) (sigmaMarket 0)) (fun _ => 0) = .ok s) :
    ∃ s', solve .explicit (BlackScholes.pde (exampleOption .put) (sigmaMarket σ)) 2 s = (.ok [1, σ ^ 2 / 2, 0], s') ∧ s'.xValues = [0, 1, 2] := by
  obtain ⟨s1, hs1, h⟩ := C54_partial _ _ (sigma_put σ) 2 1 3 2 (fun _ => 0) (by norm_num) le_rfl two_pos one_pos
  rw [sigma_construct, hs] at hs1
  cases hs1
  obtain ⟨u, hu, h0, hn⟩ := h 2 le_rfl
  obtain ⟨hf, hl, hr⟩ := hn 0 (by norm_num)
  have h1 := hf 1 le_rfl (by norm_num)
  have e0 := h0 0 (by norm_num)
  have e1 := h0 1 (by norm_num)
  have e2 := h0 2 (by norm_num)
  norm_num [putProblem, central] at h1 e0 e1 e2 hl hr
  rw [e0, e1, e2] at h1
  rcases hv : solve .explicit (BlackScholes.pde (exampleOption .put) (sigmaMarket σ)) 2 s with ⟨r, s'⟩
  rw [hv] at hu
  have e : (List.range 3).map (u (2 - 1)) = [1, σ ^ 2 / 2, 0] := by
    norm_num [List.range_succ, hl, hr]
    linarith
  rw [e] at hu
  have hu : r = _ := hu
  refine ⟨s', by rw [hu], ?_⟩
  subst hu
  obtain ⟨st, a0, a1, -, -, -, rfl⟩ := C53_steps _ _ 2 1 3 2 _ s (by norm_num) le_rfl one_pos (by rw [sigma_construct]; exact hs) 2 le_rfl _ s' hv
  have a2 := a1 0 (by norm_num)
  obtain ⟨w, c, -, -, -, hst⟩ := step_ok a2
  dsimp only
  rw [show st (2 - 1) = st (0 + 1) from rfl, hst]
  dsimp only
  rw [a0]
  obtain ⟨old, -, -, rfl⟩ := construct_ok hs (by norm_num) le_rfl
  norm_num [vec, List.range_succ]

theorem sigma_interpolate (y : ℝ) : Interp.interpolate .linear [0, 1, 2] [1, y, 0] (1 : ℝ) = .ok y := by
  have hn : Nodes [0, 1, 2] [1, y, 0] := by
    refine ⟨by simp, ?_, by simp⟩
    intro i j a b hij ha hb
    have hj : j < 3 := by
      by_contra hc
      rw [List.getElem?_eq_none (by simp; omega)] at hb
      cases hb
    interval_cases j <;> interval_cases i <;> simp_all <;> linarith
  exact C44_nodes hn (i := 1) ⟨rfl, rfl⟩

end Fdm

/-- **C61 fails.** A put on a stock with volatility `σ₁`: the price is computed, then the volatility is updated to `σ₂`, then the
price is computed again.  The solver returns the price for `σ₁`; a new solver returns the price for `σ₂`. -/
theorem C61_fails (σ₁ σ₂ : ℝ) (hσ : 0 ≤ σ₂) : ∃ s0 m s,
    construct .explicit 2 3 1 2 (BlackScholes.pde (exampleOption .put) (sigmaMarket σ₁)) (fun _ => 0) = .ok s0 ∧
    FdmWorld.run .explicit .linear (exampleOption .put) 2 (sigmaMarket σ₁, s0) [.calculatePrice, .market (.updateSigma "A" σ₂)] = (m, s) ∧
    BlackScholes.stock (exampleOption .put) m = .ok ⟨1, σ₂, none⟩ ∧
    (calculatePrice .explicit .linear (BlackScholes.pde (exampleOption .put) m) (FdmWorld.spot (exampleOption .put) m) 2 s).1 = .ok (σ₁ ^ 2 / 2) ∧
    (calculatePrice .explicit .linear (BlackScholes.pde (exampleOption .put) m) (FdmWorld.spot (exampleOption .put) m) 2 s0).1 =
      .ok (σ₂ ^ 2 / 2) := by
  obtain ⟨s0, hs0⟩ := construct_explicit (xDom := 2) (tDom := 1) (J := 3) (N := 2) (sigma_put 0) (fun _ => 0)
  have hm : World.step (sigmaMarket σ₁) (.updateSigma "A" σ₂) = sigmaMarket σ₂ := by
    have hset : StockData.setSigma σ₂ ⟨1, σ₁, none⟩ = (.ok (), (⟨1, σ₂, none⟩ : StockData ℝ)) := by
      have : ¬ (1 : ℝ) ≤ 0 := by norm_num
      simp [StockData.setSigma, StockData.validate, hσ, this]
    simp only [World.step, World.exec, Market.updateStockSigma]
    rw [Eff.bind_of_ok (a := ()) (s' := sigmaMarket σ₂)]
    · rfl
    · unfold Market.updateWith
      rw [show mapFind "A" (sigmaMarket σ₁).stockDataMap = some 0 from rfl]
      dsimp only
      rw [show (sigmaMarket σ₁).heap[0]? = some ⟨1, σ₁, none⟩ from rfl]
      dsimp only
      rw [hset]
      rfl
  obtain ⟨s1, hv1, hx1⟩ := sigma_solve σ₁ hs0
  obtain ⟨s2, hv2, hx2⟩ := sigma_solve σ₂ hs0
  have hns : s0.solved = false := by
    obtain ⟨old, -, -, rfl⟩ := construct_ok hs0 (by norm_num) le_rfl
    rfl
  obtain ⟨e1, d1, -⟩ := solve_ok hv1
  obtain ⟨e2, d2, -⟩ := solve_ok hv2
  refine ⟨s0, sigmaMarket σ₂, s1, hs0, ?_, rfl, ?_, ?_⟩
  · unfold FdmWorld.run
    simp only [List.foldl_cons, List.foldl_nil, FdmWorld.step]
    rw [calculatePrice_fresh _ _ _ _ hns hv1, hm]
  · rw [calculatePrice_done _ _ _ _ _ d1, hx1, ← e1]
    exact sigma_interpolate _
  · rw [calculatePrice_fresh _ _ _ _ hns hv2, hx2, ← e2]
    exact sigma_interpolate _

/-- The hypotheses of `C61_partial` hold for a history with an update of the price. -/
example : ∃ s0 m s, construct .explicit 2 3 1 2 (BlackScholes.pde (exampleOption .put) (sigmaMarket 1)) (fun _ => 0) = .ok s0 ∧
    FdmWorld.run .explicit .linear (exampleOption .put) 2 (sigmaMarket 1, s0) [.calculatePrice, .market (.updatePrice "A" 2)] = (m, s) ∧
    FdmWorld.spot (exampleOption .put) m = .ok 2 ∧
    (calculatePrice .explicit .linear (BlackScholes.pde (exampleOption .put) m) (FdmWorld.spot (exampleOption .put) m) 2 s).1 =
    (calculatePrice .explicit .linear (BlackScholes.pde (exampleOption .put) m) (FdmWorld.spot (exampleOption .put) m) 2 s0).1 := by
  obtain ⟨s0, hs0⟩ := construct_explicit (xDom := 2) (tDom := 1) (J := 3) (N := 2) (sigma_put 1) (fun _ => 0)
  obtain ⟨s1, hv1, hx1⟩ := sigma_solve 1 (sigma_construct 1 ▸ hs0)
  have hns : s0.solved = false := by
    obtain ⟨old, -, -, rfl⟩ := construct_ok hs0 (by norm_num) le_rfl
    rfl
  have hm : World.step (sigmaMarket 1) (.updatePrice "A" 2) = ⟨[⟨2, 1, none⟩], [("A", 0)], 0, [], [], []⟩ := by
    have hset : StockData.setPrice 2 ⟨1, 1, none⟩ = (.ok (), (⟨2, 1, none⟩ : StockData ℝ)) := by
      have h1 : ¬ (2 : ℝ) ≤ 0 := by norm_num
      have h2 : ¬ (1 : ℝ) < 0 := by norm_num
      simp [StockData.setPrice, StockData.validate, h1, h2]
    simp only [World.step, World.exec, Market.updateStockPrice]
    rw [Eff.bind_of_ok (a := ()) (s' := ⟨[⟨2, 1, none⟩], [("A", 0)], 0, [], [], []⟩)]
    · rfl
    · unfold Market.updateWith
      rw [show mapFind "A" (sigmaMarket 1).stockDataMap = some 0 from rfl]
      dsimp only
      rw [show (sigmaMarket 1).heap[0]? = some ⟨1, 1, none⟩ from rfl]
      dsimp only
      rw [hset]
      rfl
  have hrun : FdmWorld.run .explicit .linear (exampleOption .put) 2 (sigmaMarket 1, s0) [.calculatePrice, .market (.updatePrice "A" 2)] =
      (⟨[⟨2, 1, none⟩], [("A", 0)], 0, [], [], []⟩, s1) := by
    unfold FdmWorld.run
    simp only [List.foldl_cons, List.foldl_nil, FdmWorld.step]
    rw [calculatePrice_fresh _ _ _ _ hns hv1, hm]
  refine ⟨s0, _, s1, hs0, hrun, rfl, ?_⟩
  refine C61_partial .explicit .linear (exampleOption .put) (sigmaMarket 1) s0 hns 2 (by norm_num) (by rw [hv1]; exact ⟨_, rfl⟩) (1, none, 0) _ ?_ _ _ hrun
  intro pre hpre
  have : pre = [] ∨ pre = [.calculatePrice] ∨ pre = [.calculatePrice, .market (.updatePrice "A" 2)] := by
    rcases pre with _ | ⟨a, _ | ⟨b, _ | ⟨c, l⟩⟩⟩
    · simp
    · simp at hpre; simp [hpre]
    · simp at hpre; simp [hpre]
    · simp at hpre
  rcases this with rfl | rfl | rfl
  · rfl
  · rfl
  · rw [hrun]; rfl

/-- The hypotheses of `C61_idempotent` and `C61_stale_fails` hold for this run. -/
example (p' : Pde ℝ) : ∃ s0 s1, construct .explicit 2 3 1 2 (BlackScholes.pde (exampleOption .put) (sigmaMarket 3)) (fun _ => 0) = .ok s0 ∧
    solve .explicit (BlackScholes.pde (exampleOption .put) (sigmaMarket 3)) 2 s0 = (.ok [1, 9 / 2, 0], s1) ∧
    solve .explicit p' 1 s1 = (.ok [1, 9 / 2, 0], s1) ∧
    (calculatePrice .explicit .linear p' (.ok 1) 2
      (calculatePrice .explicit .linear (BlackScholes.pde (exampleOption .put) (sigmaMarket 3)) (.ok 2) 2 s0).2).1 = .ok (9 / 2) := by
  obtain ⟨s0, hs0⟩ := construct_explicit (xDom := 2) (tDom := 1) (J := 3) (N := 2) (sigma_put 3) (fun _ => 0)
  obtain ⟨s1, hv, hx⟩ := sigma_solve 3 (sigma_construct 3 ▸ hs0)
  have hns : s0.solved = false := by
    obtain ⟨old, -, -, rfl⟩ := construct_ok hs0 (by norm_num) le_rfl
    rfl
  norm_num at hv
  refine ⟨s0, s1, hs0, hv, C61_idempotent _ _ p' 2 1 le_rfl s0 s1 _ hv, ?_⟩
  rw [C61_stale_fails _ _ _ p' _ (.ok 1) 2 2 s0 _ s1 hns hv, hx]
  exact sigma_interpolate _

end Verif
