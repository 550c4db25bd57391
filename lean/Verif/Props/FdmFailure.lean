import Verif.Lemmas.FdmFailure
import Verif.Lemmas.FdmRetry
import Verif.Lemmas.FdmMirror
import Verif.Props.FdmDouble
import Verif.Props.FdmHistory
import Verif.Lemmas.FdmRoundingRun

/-!
# Property C86: failures of finite difference solvers
-/

namespace Verif
open Spec Fdm

section
variable {F : Type} [Fl F] [Add F] [Sub F] [Mul F] [Div F] [Neg F]

namespace Fdm

/-- What the constructor makes. -/
theorem construct_eq {sc : Scheme F} {xDom tDom : F} {J N : ℕ} {p : Pde F} {junk : ℕ → F} {s : Fdm F}
    (h : construct sc xDom J tDom N p junk = .ok s) :
    s.J = J ∧ s.dx = xDom / lit (ulpred J : ℚ) ∧ s.xValues = vec J (fun j : ℕ => lit (j : ℚ) * s.dx) ∧ s.newPrices = vec J (fun _ => lit 0) ∧ s.solved = false := by
  unfold construct at h
  rw [Res.bind_eq_ok] at h
  obtain ⟨s0, h0, h⟩ := h
  have hs : s = s0 := by
    cases sc with
    | explicit => exact (Res.ok.inj h).symm
    | implicit _ => dsimp only at h; split at h <;> cases h; rfl
    | crankNicolson _ => dsimp only at h; split at h <;> cases h; rfl
  subst hs
  unfold constructBase at h0
  dsimp only at h0
  rw [Res.bind_eq_ok] at h0
  obtain ⟨old, -, h2⟩ := h0
  cases h2
  refine ⟨rfl, rfl, rfl, ?_, rfl⟩
  simp [vec, List.map_const']

/-- The members a successful step leaves alone. -/
theorem step_fixed {sc : Scheme F} {p : Pde F} {s s' : Fdm F} (h : step sc p s = (.ok (), s')) :
    s'.J = s.J ∧ s'.xValues = s.xValues ∧ s'.dt = s.dt ∧ s'.tDom = s.tDom ∧ s'.tPrev = s.tPrev + s.dt ∧ s'.tCurr = s.tPrev + s.dt ∧ s'.solved = s.solved := by
  obtain ⟨v, c, -, -, -, rfl⟩ := step_ok h
  exact ⟨rfl, rfl, rfl, rfl, rfl, rfl, rfl⟩

theorem step_throw_fixed {sc : Scheme F} {p : Pde F} {s s' : Fdm F} {e : Exc} (h : step sc p s = (.throw e, s')) :
    ∃ v c, s' = { s with tCurr := s.tPrev + s.dt, newPrices := v, b := c } ∧ v.length = s.newPrices.length := by
  unfold step at h
  rw [Eff.bind_of_ok (Eff.modify_apply _ _)] at h
  rcases Eff.bind_throw_inv h with h | ⟨_, s1, -, h⟩
  · obtain ⟨v, c, rfl, hv⟩ := (Frame.march sc p).like h
    exact ⟨v, c, rfl, hv⟩
  · cases h

theorem timeLoop_ok_inv {sc : Scheme F} {p : Pde F} : ∀ {fuel k : ℕ} {s s' : Fdm F}, s.tPrev = times s.dt k → s.tCurr = times s.dt k →
    timeLoop sc p fuel s = (.ok (), s') → ∃ m, Fl.lt (times s.dt (k + m)) s.tDom = false ∧ ∀ n, k ≤ n → n < k + m →
      Fl.lt (times s.dt n) s.tDom = true ∧ BoundaryOk p s (boundaryTime sc (times s.dt n) (times s.dt (n + 1))) ∧
        ∀ τ, CoefficientTime sc (times s.dt n) (times s.dt (n + 1)) τ → InnerOk p s τ
  | 0, k, s, s', _, _, h => by cases h
  | fuel + 1, k, s, s', hp, hc, h => by
    rw [timeLoop, Eff.withState_apply] at h
    by_cases hlt : Fl.lt s.tCurr s.tDom = true
    · rw [if_pos hlt] at h
      obtain ⟨_, s1, h1, h⟩ := Eff.bind_ok_inv h
      obtain ⟨f1, f2, f3, f4, f5, f6, -⟩ := step_fixed h1
      obtain ⟨hb, hi⟩ := step_ok_inv h1
      have e : s.tPrev + s.dt = times s.dt (k + 1) := by rw [hp]; rfl
      obtain ⟨m, hm, hn⟩ := timeLoop_ok_inv (k := k + 1) (by rw [f5, f3, e]) (by rw [f6, f3, e]) h
      rw [f3, f4] at hm
      refine ⟨m + 1, by rwa [show k + (m + 1) = k + 1 + m by omega], fun n h1 h2 => ?_⟩
      rcases Nat.eq_or_lt_of_le h1 with rfl | h1
      · rw [e, hp] at hb hi
        exact ⟨by rw [← hc]; exact hlt, hb, hi⟩
      · obtain ⟨g1, g2, g3⟩ := hn n (by omega) (by omega)
        rw [f3] at g1 g2 g3
        rw [f4] at g1
        unfold BoundaryOk at g2 ⊢
        unfold InnerOk at g3 ⊢
        rw [f2] at g2
        rw [f1, f2] at g3
        exact ⟨g1, g2, g3⟩
    · rw [if_neg hlt] at h
      exact ⟨0, by rw [Nat.add_zero, ← hc]; simpa using hlt, fun n h1 h2 => by omega⟩

theorem timeLoop_throw_inv {sc : Scheme F} {p : Pde F} {e : Exc} : ∀ {fuel k : ℕ} {s s' : Fdm F}, s.tPrev = times s.dt k → s.tCurr = times s.dt k →
    timeLoop sc p fuel s = (.throw e, s') → s'.solved = s.solved ∧ ((∃ n, Fl.lt (times s.dt n) s.tDom = true ∧ ∃ τ,
      (CoefficientTime sc (times s.dt n) (times s.dt (n + 1)) τ ∨ τ = boundaryTime sc (times s.dt n) (times s.dt (n + 1))) ∧ NodeThrows p s τ e) ∨ SolverThrows sc e)
  | 0, k, s, s', _, _, h => by cases h
  | fuel + 1, k, s, s', hp, hc, h => by
    rw [timeLoop, Eff.withState_apply] at h
    by_cases hlt : Fl.lt s.tCurr s.tDom = true
    · rw [if_pos hlt] at h
      have e' : s.tPrev + s.dt = times s.dt (k + 1) := by rw [hp]; rfl
      rcases Eff.bind_throw_inv h with h | ⟨_, s1, h1, h⟩
      · obtain ⟨v, c, rfl, -⟩ := step_throw_fixed h
        refine ⟨rfl, ?_⟩
        rcases step_throw_inv h with ⟨τ, hτ, hn⟩ | h
        · rw [e', hp] at hτ
          exact .inl ⟨k, by rw [← hc]; exact hlt, τ, hτ, hn⟩
        · exact .inr h
      · obtain ⟨f1, f2, f3, f4, f5, f6, f7⟩ := step_fixed h1
        obtain ⟨hs, hh⟩ := timeLoop_throw_inv (k := k + 1) (by rw [f5, f3, e']) (by rw [f6, f3, e']) h
        refine ⟨hs.trans f7, ?_⟩
        unfold NodeThrows at hh ⊢
        rwa [f2, f3, f4] at hh
    · rw [if_neg hlt] at h
      cases h

theorem solve_loop {sc : Scheme F} {p : Pde F} {fuel : ℕ} {s s' : Fdm F} {v : List F} (h : solve sc p fuel s = (.ok v, s')) :
    ∃ s1, timeLoop sc p fuel s = (.ok (), s1) := by
  unfold solve at h
  obtain ⟨_, s1, h1, -⟩ := Eff.bind_ok_inv h
  exact ⟨s1, h1⟩

theorem solve_throw {sc : Scheme F} {p : Pde F} {fuel : ℕ} {s s' : Fdm F} {e : Exc} :
    solve sc p fuel s = (.throw e, s') ↔ timeLoop sc p fuel s = (.throw e, s') := by
  unfold solve
  constructor
  · intro h
    rcases Eff.bind_throw_inv h with h | ⟨_, s1, -, h⟩
    · exact h
    · cases h
  · intro h
    rw [Eff.bind_of_throw h]

theorem head_vec {α : Type} {n : ℕ} {g : ℕ → α} {x : α} (h : (vec n g).head? = some x) : x = g 0 := by
  cases n with
  | zero => cases h
  | succ n => simp [vec, List.range_succ_eq_map] at h; exact h.symm

theorem last_vec {α : Type} {n : ℕ} {g : ℕ → α} {x : α} (h : (vec n g).getLast? = some x) : x = g (n - 1) := by
  cases n with
  | zero => cases h
  | succ n => simp [vec, List.range_succ] at h; exact h.symm

end Fdm

/-- **C86 (nothing is ignored).** In every arithmetic and for every scheme, PDE and grid: if `solve()` of a new solver returns, then
the boundary functions could be evaluated at the ends of the grid, and the coefficients at all inner nodes, at every time level the
scheme uses, up to the end of the time domain.  So an exception from the PDE at any of these points cannot end in a price. -/
theorem C86_evaluates (sc : Scheme F) (p : Pde F) (xDom tDom : F) (J N : ℕ) (junk : ℕ → F) (s s' : Fdm F) (fuel : ℕ) (v : List F)
    (hc : construct sc xDom J tDom N p junk = .ok s) (h : solve sc p fuel s = (.ok v, s')) : ∃ m, Fl.lt (times s.dt m) tDom = false ∧ ∀ n < m,
      Fl.lt (times s.dt n) tDom = true ∧
      (p.boundaryLeft (boundaryTime sc (times s.dt n) (times s.dt (n + 1))) (lit 0 * s.dx)).IsOk ∧
      (p.boundaryRight (boundaryTime sc (times s.dt n) (times s.dt (n + 1))) (lit ((J - 1 : ℕ) : ℚ) * s.dx)).IsOk ∧
      ∀ j, 1 ≤ j → j + 1 < J → ∀ τ, CoefficientTime sc (times s.dt n) (times s.dt (n + 1)) τ → CoefficientsOk p τ (lit (j : ℚ) * s.dx) := by
  obtain ⟨e1, -, e3, -⟩ := construct_eq hc
  obtain ⟨t1, -, t3, t4⟩ := construct_times hc
  obtain ⟨s1, h1⟩ := solve_loop h
  obtain ⟨m, hm, hn⟩ := timeLoop_ok_inv (k := 0) t3 t4 h1
  rw [Nat.zero_add, t1] at hm
  refine ⟨m, hm, fun n hnm => ?_⟩
  obtain ⟨g1, ⟨⟨x, hx, hl⟩, ⟨y, hy, hr⟩⟩, g3⟩ := hn n (by omega) (by omega)
  rw [e3] at hx hy
  have hx' := head_vec hx
  have hy' := last_vec hy
  simp only [Nat.cast_zero] at hx'
  subst hx' hy'
  refine ⟨by rwa [t1] at g1, hl, hr, fun j h1 h2 τ hτ => ?_⟩
  obtain ⟨x, hx, hxc⟩ := g3 τ hτ j h1 (by omega)
  rw [e3, vec_getElem? _ (by omega)] at hx
  rwa [← Option.some.inj hx] at hxc

/-- **C86 (nothing is invented).** In every arithmetic and for every scheme, PDE and grid: an exception thrown by `solve()` of a new
solver was thrown by a function of the PDE at a node of the grid and at a time level the scheme uses, or by the matrix solver.  The
solver is not marked as solved. -/
theorem C86_origin (sc : Scheme F) (p : Pde F) (xDom tDom : F) (J N : ℕ) (junk : ℕ → F) (s s' : Fdm F) (fuel : ℕ) (e : Exc)
    (hc : construct sc xDom J tDom N p junk = .ok s) (h : solve sc p fuel s = (.throw e, s')) : s'.solved = false ∧
      ((∃ n, Fl.lt (times s.dt n) tDom = true ∧ ∃ τ, (CoefficientTime sc (times s.dt n) (times s.dt (n + 1)) τ ∨
          τ = boundaryTime sc (times s.dt n) (times s.dt (n + 1))) ∧ ∃ j < J, PdeThrows p τ (lit (j : ℚ) * s.dx) e) ∨
        SolverThrows sc e) := by
  obtain ⟨-, -, e3, -, e5⟩ := construct_eq hc
  obtain ⟨t1, -, t3, t4⟩ := construct_times hc
  obtain ⟨hs, hh⟩ := timeLoop_throw_inv (k := 0) t3 t4 (solve_throw.mp h)
  refine ⟨hs.trans e5, hh.imp_left ?_⟩
  rintro ⟨n, hn, τ, hτ, x, hx, hxt⟩
  rw [e3] at hx
  obtain ⟨j, hj, rfl⟩ := List.mem_map.mp hx
  exact ⟨n, by rwa [t1] at hn, τ, hτ, j, List.mem_range.mp hj, hxt⟩

/-- **C86 (calculatePrice).** An exception of `solve()` is the exception of `calculatePrice()`, which leaves the solver in the same
state; otherwise `calculatePrice()` throws only if the current price cannot be read or the interpolation fails. -/
theorem C86_calculatePrice (sc : Scheme F) (k : Interp.Kind) (p : Pde F) (S : Res F) (fuel : ℕ) (s : Fdm F) (hs : s.solved = false) :
    (∀ e s', solve sc p fuel s = (.throw e, s') → calculatePrice sc k p S fuel s = (.throw e, s')) ∧
    ∀ e s', calculatePrice sc k p S fuel s = (.throw e, s') → solve sc p fuel s = (.throw e, s') ∨
      ∃ v, solve sc p fuel s = (.ok v, s') ∧ (S = .throw e ∨ ∃ x, S = .ok x ∧ Interp.interpolate k s'.xValues v x = .throw e) := by
  constructor
  · intro e s' h
    unfold calculatePrice
    refine Eff.bind_of_throw ?_
    rw [Eff.withState_apply, if_neg (by simp [hs]), Eff.bind_of_throw h]
  · intro e s' h
    rcases hv : solve sc p fuel s with ⟨r, s1⟩
    cases r with
    | ok v =>
      have hn := (solve_ok hv).1
      rw [calculatePrice_fresh sc k p S hs hv] at h
      obtain ⟨h1, rfl⟩ := Prod.mk.inj h
      rw [← hn] at h1
      rcases Res.bind_eq_throw h1 with h1 | ⟨x, hx, h1⟩
      · exact .inr ⟨v, rfl, .inl h1⟩
      · exact .inr ⟨v, rfl, .inr ⟨x, hx, h1⟩⟩
    | throw e' =>
      have : calculatePrice sc k p S fuel s = (.throw e', s1) := by
        unfold calculatePrice
        refine Eff.bind_of_throw ?_
        rw [Eff.withState_apply, if_neg (by simp [hs]), Eff.bind_of_throw hv]
      rw [this] at h
      cases h
      exact .inl rfl
    | ub =>
      have : calculatePrice sc k p S fuel s = (.ub, s1) := by
        unfold calculatePrice
        refine Eff.bind_of_ub ?_
        rw [Eff.withState_apply, if_neg (by simp [hs]), Eff.bind_of_ub hv]
      rw [this] at h
      cases h

/-- **C86 (market data).** In every history of calls on the market data and a solver: what the calls of the solver do is not visible in
the market data or to its observers.  The market data are those after the market calls alone. -/
theorem C86_market (sc : Scheme F) (k : Interp.Kind) (o : OptObj F) (fuel : ℕ) (m : Market F) (s : Fdm F) (h : List (FdmCall F)) :
    (FdmWorld.run sc k o fuel (m, s) h).1 = (fdmMarketCalls h).foldl World.step m := by
  unfold FdmWorld.run
  induction h generalizing m s with
  | nil => rfl
  | cons c h ih =>
    rw [List.foldl_cons]
    cases c with
    | market c => exact ih _ _
    | solve => exact ih _ _
    | calculatePrice => exact ih _ _

/-! ## Payoffs without a strike -/

namespace Fdm

/-- The first thing a step does is to ask for the left boundary value. -/
theorem step_left {sc : Scheme F} {p : Pde F} {s : Fdm F} {e : Exc} (hx : s.xValues ≠ []) (h : ∀ t x, p.boundaryLeft t x = .throw e) :
    step sc p s = (.throw e, { s with tCurr := s.tPrev + s.dt }) := by
  obtain ⟨x, hx⟩ : ∃ x, vfront s.xValues = .ok x := by
    cases hxs : s.xValues with
    | nil => exact absurd hxs hx
    | cons x l => exact ⟨x, rfl⟩
  have hb : ∀ time : Fdm F → F, boundary p time { s with tCurr := s.tPrev + s.dt } = (.throw e, { s with tCurr := s.tPrev + s.dt }) := by
    intro time
    unfold boundary
    refine Eff.bind_of_throw ?_
    unfold storePrice
    simp [hx, h]
  unfold step
  rw [Eff.bind_of_ok (Eff.modify_apply _ _)]
  refine Eff.bind_of_throw ?_
  unfold march
  cases sc <;> exact Eff.bind_of_throw (hb _)

theorem solve_left {sc : Scheme F} {p : Pde F} {s : Fdm F} {e : Exc} {fuel : ℕ} (hf : 1 ≤ fuel) (hx : s.xValues ≠ [])
    (h : ∀ t x, p.boundaryLeft t x = .throw e) (hlt : Fl.lt s.tCurr s.tDom = true) :
    solve sc p fuel s = (.throw e, { s with tCurr := s.tPrev + s.dt }) := by
  obtain ⟨f, rfl⟩ : ∃ f, fuel = f + 1 := ⟨fuel - 1, by omega⟩
  refine solve_throw.mpr ?_
  rw [timeLoop, Eff.withState_apply, if_pos hlt, Eff.bind_of_throw (step_left hx h)]

end Fdm

/-- The payoffs for which `BlackScholesPDE` knows a strike. -/
def HasStrike (q : Payoff F) : Prop := (∃ ty K, q = .vanilla ty K) ∨ ∃ ty K, q = .digital ty K

theorem no_strike {o : OptObj F} (h : ¬ HasStrike o.payoff) (m : Market F) (t x : F) :
    (BlackScholes.pde o m).boundaryLeft t x = .throw ⟨.invalidArgument, "Option payoff is not present"⟩ := by
  unfold HasStrike at h
  cases hp : o.payoff <;> simp_all [BlackScholes.pde, BlackScholes.boundaryLeft, BlackScholes.strike, Payoff.clone, invalidArg]

/-! ## Stocks that are not in the market data -/

namespace Fdm

/-- If the coefficients throw at the first inner node, so does the inner loop of every scheme. -/
theorem march_coefficients {sc : Scheme F} {p : Pde F} {s : Fdm F} {xs : ℕ → F} {e : Exc} {l : F → F} {r : F → F} (hJ : 3 ≤ s.J)
    (hx : s.xValues = vec s.J xs) (hn : s.newPrices.length = s.J) (hl : ∀ t x, p.boundaryLeft t x = .ok (l t)) (hr : ∀ t, p.boundaryRight t (xs (s.J - 1)) = .ok (r t))
    (hd : ∀ t x, p.diffusion t x = .throw e) : ∃ s', march sc p s = (.throw e, s') := by
  have en := eq_vec (lit 0 : F) s.newPrices
  rw [hn] at en
  have hsig : ∀ (s1 : Fdm F) t, Like s s1 → sigs p s1 t 1 = .throw e := by
    rintro _ t ⟨v, c, rfl, -⟩
    unfold sigs
    dsimp only
    rw [hx, vget_vec xs (by omega)]
    simp [hd]
  unfold march
  cases sc with
  | explicit =>
    dsimp only
    have hb := boundary_ok (p := p) (time := (·.tPrev)) (s := s) (by omega) en hx (fun _ => rfl) (hl _ _) (hr _)
    have hlike := (Frame.boundary p (·.tPrev)).like hb
    rw [Eff.bind_of_ok hb]
    generalize { s with newPrices := vec s.J _ } = s1 at hlike
    have hJ1 : s1.J = s.J := by obtain ⟨v, c, rfl, -⟩ := hlike; rfl
    unfold innerExplicit
    rw [Eff.withState_apply, ulpred_pos (by omega), show s1.J - 1 - 1 = (s1.J - 3) + 1 by omega, forJ]
    refine ⟨s1, Eff.bind_of_throw ?_⟩
    unfold storePrice explicitValue
    rw [hsig s1 _ hlike]
    rfl
  | implicit solver =>
    dsimp only
    have hb := boundary_ok (p := p) (time := (·.tCurr)) (s := s) (by omega) en hx (fun _ => rfl) (hl _ _) (hr _)
    have hlike := (Frame.boundary p (·.tCurr)).like hb
    rw [Eff.bind_of_ok hb]
    generalize { s with newPrices := vec s.J _ } = s1 at hlike
    have hJ1 : s1.J = s.J := by obtain ⟨v, c, rfl, -⟩ := hlike; rfl
    unfold innerImplicit
    refine ⟨s1, Eff.bind_of_throw ?_⟩
    rw [Eff.read_apply]
    unfold implicitSystem
    rw [ulpred_pos (by omega), show s1.J - 1 - 1 = (s1.J - 3) + 1 by omega, List.range_succ_eq_map, List.map_cons, Res.each]
    unfold implicitRow
    rw [hsig s1 _ hlike]
    rfl
  | crankNicolson solver =>
    dsimp only
    have hb := boundary_ok (p := p) (time := (·.tCurr)) (s := s) (by omega) en hx (fun _ => rfl) (hl _ _) (hr _)
    have hlike := (Frame.boundary p (·.tCurr)).like hb
    rw [Eff.bind_of_ok hb]
    generalize { s with newPrices := vec s.J _ } = s1 at hlike
    have hJ1 : s1.J = s.J := by obtain ⟨v, c, rfl, -⟩ := hlike; rfl
    unfold innerCN
    rw [Eff.withState_apply, ulpred_pos (by omega), show s1.J - 1 - 1 = (s1.J - 3) + 1 by omega, cnLoop]
    refine ⟨s1, Eff.bind_of_throw ?_⟩
    unfold cnIteration
    refine Eff.bind_of_throw ?_
    rw [Eff.read_apply]
    unfold cnRow
    rw [hsig s1 _ hlike]
    rfl

end Fdm

/-- **C86 (unknown stock).** In every arithmetic and for every scheme: if the stock of the option is not in the market data, `solve()` of
a new solver throws the exception of `MarketData::getStockData`, if there is a time step and an inner node, and so does
`calculatePrice()`. -/
theorem C86_unknown (sc : Scheme F) (k : Interp.Kind) (o : OptObj F) (ho : HasStrike o.payoff) (m m0 : Market F) (e : Exc)
    (hm : World.outcome m (.getStockData o.ticker) = .throw e) (xDom tDom : F) (J N : ℕ) (hJ : 3 ≤ J) (junk : ℕ → F) (s : Fdm F)
    (hc : construct sc xDom J tDom N (BlackScholes.pde o m0) junk = .ok s) (hT : Fl.lt (lit 0) tDom = true) (fuel : ℕ) (hf : 1 ≤ fuel) (S : Res F) :
    (solve sc (BlackScholes.pde o m) fuel s).1 = .throw e ∧ (calculatePrice sc k (BlackScholes.pde o m) S fuel s).1 = .throw e := by
  obtain ⟨e1, -, e3, e4, e5⟩ := construct_eq hc
  obtain ⟨t1, -, t3, t4⟩ := construct_times hc
  have hst : BlackScholes.stock o m = .throw e := by
    rw [World.outcome_getStockData] at hm
    unfold BlackScholes.stock
    cases hf : mapFind o.ticker m.stockDataMap with
    | some q => rw [hf] at hm; cases hm
    | none =>
      rw [hf] at hm
      have he : e = ⟨.invalidArgument, o.ticker ++ " Stock data not found."⟩ := by simpa [invalidArg, eq_comm] using hm
      rw [Eff.bind_of_throw (s' := m) (e := e) (by simp [Market.getStockData, hf, invalidArg, he])]
  obtain ⟨K, hK⟩ : ∃ K, BlackScholes.strike o = .ok K := by
    rcases ho with ⟨ty, K, h⟩ | ⟨ty, K, h⟩ <;> exact ⟨K, by simp [BlackScholes.strike, h, Payoff.clone]⟩
  have hl : ∀ t x, (BlackScholes.pde o m).boundaryLeft t x = .ok ((fun _ => if o.payoff.payoffType = .call then lit 0 else K) t) := by
    intro t x
    show BlackScholes.boundaryLeft o = _
    unfold BlackScholes.boundaryLeft
    rw [hK, Res.bind_ok]
    split <;> rfl
  have hr : ∀ x t, (BlackScholes.pde o m).boundaryRight t x = .ok ((fun t => if o.payoff.payoffType = .call then x - K * Fl.exp (-m.r * (o.T - t)) else lit 0) t) := by
    intro x t
    show BlackScholes.boundaryRight o m t x = _
    unfold BlackScholes.boundaryRight
    rw [hK, Res.bind_ok]
    split <;> simp_all
  have hd : ∀ t x, (BlackScholes.pde o m).diffusion t x = .throw e := by
    intro t x
    show BlackScholes.diffusion o m x = _
    unfold BlackScholes.diffusion
    rw [hst]
    rfl
  obtain ⟨s', hs'⟩ := march_coefficients (sc := sc) (s := { s with tCurr := s.tPrev + s.dt }) (by simpa [e1] using hJ) (by rw [e1]; exact e3) (by simp [e1, e4]) hl
    (hr _) hd
  have hsolve : solve sc (BlackScholes.pde o m) fuel s = (.throw e, s') := by
    obtain ⟨f, rfl⟩ : ∃ f, fuel = f + 1 := ⟨fuel - 1, by omega⟩
    refine solve_throw.mpr ?_
    rw [timeLoop, Eff.withState_apply, if_pos (by rw [t4, t1]; exact hT)]
    refine Eff.bind_of_throw ?_
    unfold step
    rw [Eff.bind_of_ok (Eff.modify_apply _ _)]
    exact Eff.bind_of_throw hs'
  exact ⟨by rw [hsolve], by rw [(C86_calculatePrice sc k _ S fuel s e5).1 _ _ hsolve]⟩

/-- The solver has not got anywhere. -/
def Stuck (s0 s : Fdm F) : Prop :=
  s.xValues = s0.xValues ∧ s.dt = s0.dt ∧ s.tDom = s0.tDom ∧ s.tPrev = lit 0 ∧ (s.tCurr = lit 0 ∨ s.tCurr = lit 0 + s0.dt) ∧ s.solved = false

/-- **C86 (payoffs without a strike; partial).** `BlackScholesPDE` supports vanilla and digital payoffs only.  For every other payoff, in
every arithmetic, for every scheme and after every history of calls on the market data and the solver, `solve()` throws
`std::invalid_argument`, provided the time domain has more than one step.  (Missing: one step, see `C86_retry_fails`.) -/
theorem C86_noStrike_partial (sc : Scheme F) (k : Interp.Kind) (o : OptObj F) (ho : ¬ HasStrike o.payoff) (fuel : ℕ) (hf : 1 ≤ fuel) (m m0 : Market F)
    (xDom tDom : F) (J N : ℕ) (hJ : 1 ≤ J) (junk : ℕ → F) (s : Fdm F) (hc : construct sc xDom J tDom N (BlackScholes.pde o m0) junk = .ok s)
    (h0 : Fl.lt (lit 0) tDom = true) (h1 : Fl.lt (lit 0 + s.dt) tDom = true) (h : List (FdmCall F)) :
    (solve sc (BlackScholes.pde o (FdmWorld.run sc k o fuel (m, s) h).1) fuel (FdmWorld.run sc k o fuel (m, s) h).2).1 =
      .throw ⟨.invalidArgument, "Option payoff is not present"⟩ := by
  obtain ⟨e1, -, e3, -, e5⟩ := construct_eq hc
  obtain ⟨t1, -, t3, t4⟩ := construct_times hc
  have hx : s.xValues ≠ [] := by
    rw [e3]
    intro h
    have := congrArg List.length h
    simp at this
    omega
  have key : ∀ s', Stuck s s' → ∀ m', solve sc (BlackScholes.pde o m') fuel s' =
      (.throw ⟨.invalidArgument, "Option payoff is not present"⟩, { s' with tCurr := lit 0 + s.dt }) := by
    rintro s' ⟨a1, a2, a3, a4, a5, a6⟩ m'
    rw [solve_left hf (by rwa [a1]) (no_strike ho m') (by rw [a3, t1]; rcases a5 with a5 | a5 <;> rw [a5] <;> assumption), a4, a2]
  have inv : ∀ (h : List (FdmCall F)) (m' : Market F) (s' : Fdm F), Stuck s s' → Stuck s (FdmWorld.run sc k o fuel (m', s') h).2 := by
    intro h
    unfold FdmWorld.run
    induction h with
    | nil => intro m' s' hs; exact hs
    | cons c h ih =>
      intro m' s' hs
      rw [List.foldl_cons]
      refine ih _ _ ?_
      have hs' : Stuck s { s' with tCurr := lit 0 + s.dt } := by
        obtain ⟨a1, a2, a3, a4, a5, a6⟩ := hs
        exact ⟨a1, a2, a3, a4, .inr rfl, a6⟩
      cases c with
      | market c => exact hs
      | solve =>
        show Stuck s (solve sc _ fuel s').2
        rw [key s' hs m']
        exact hs'
      | calculatePrice =>
        show Stuck s (calculatePrice sc k _ _ fuel s').2
        rw [(C86_calculatePrice sc k _ _ fuel s' hs.2.2.2.2.2).1 _ _ (key s' hs m')]
        exact hs'
  rw [key _ (inv h m s ⟨rfl, rfl, rfl, t3, .inl t4, e5⟩)]

/-! ## Trying again -/

namespace Fdm

theorem construct_b {sc : Scheme F} {xDom tDom : F} {J N : ℕ} {p : Pde F} {junk : ℕ → F} {s : Fdm F}
    (h : construct sc xDom J tDom N p junk = .ok s) : s.b.length = J - 2 := by
  unfold construct at h
  rw [Res.bind_eq_ok] at h
  obtain ⟨s0, h0, h⟩ := h
  have hs : s = s0 := by
    cases sc with
    | explicit => exact (Res.ok.inj h).symm
    | implicit _ => dsimp only at h; split at h <;> cases h; rfl
    | crankNicolson _ => dsimp only at h; split at h <;> cases h; rfl
  subst hs
  unfold constructBase at h0
  dsimp only at h0
  rw [Res.bind_eq_ok] at h0
  obtain ⟨old, -, h2⟩ := h0
  cases h2
  simp

theorem solve_fst {sc : Scheme F} {p : Pde F} {fuel : ℕ} {s : Fdm F} {v : List F} :
    (solve sc p fuel s).1 = .ok v ↔ ∃ s', timeLoop sc p fuel s = (.ok (), s') ∧ s'.newPrices = v := by
  unfold solve
  constructor
  · intro h
    obtain ⟨_, s1, h1, h2⟩ := Eff.bind_ok_inv (Prod.ext h rfl)
    exact ⟨s1, h1, Res.ok.inj (Prod.mk.inj h2).1⟩
  · rintro ⟨s', h1, h2⟩
    rw [Eff.bind_of_ok h1, Eff.bind_of_ok (Eff.modify_apply _ _), Eff.read_apply, ← h2]

end Fdm

/-- **C86 (trying again; partial).** In every arithmetic and for every scheme: suppose `solve()` of a new solver fails with an exception
because the PDE cannot be evaluated somewhere in the first time step, and there is more than one time step.  For both Euler schemes the
next call, in market data that may have changed, returns prices exactly if a new solver would, and the same ones.  For Crank-Nicolson,
which solves systems with unset right hand sides on the way, the prices are the same if both return.  (Missing: a single step, see
`C86_retry_fails`, and failures in later steps.) -/
theorem C86_retry_partial (sc : Scheme F) (p p' : Pde F) (xDom tDom : F) (J N : ℕ) (hJ : 2 ≤ J) (junk : ℕ → F) (s s1 : Fdm F) (fuel fuel' : ℕ) (e : Exc)
    (hc : construct sc xDom J tDom N p junk = .ok s) (hfail : solve sc p fuel s = (.throw e, s1))
    (hfirst : ¬ ((p.boundaryLeft (boundaryTime sc (lit 0) (lit 0 + s.dt)) (lit 0 * s.dx)).IsOk ∧
      (p.boundaryRight (boundaryTime sc (lit 0) (lit 0 + s.dt)) (lit ((J - 1 : ℕ) : ℚ) * s.dx)).IsOk ∧
      ∀ j, 1 ≤ j → j + 1 < J → ∀ τ, CoefficientTime sc (lit 0) (lit 0 + s.dt) τ → CoefficientsOk p τ (lit (j : ℚ) * s.dx)))
    (hlt : Fl.lt (lit 0 + s.dt) tDom = true) :
    ((∀ solver, sc ≠ .crankNicolson solver) → ∀ v, (solve sc p' fuel' s1).1 = .ok v ↔ (solve sc p' fuel' s).1 = .ok v) ∧
      ∀ v v', (solve sc p' fuel' s1).1 = .ok v → (solve sc p' fuel' s).1 = .ok v' → v = v' := by
  obtain ⟨e1, -, e3, e4, -⟩ := construct_eq hc
  obtain ⟨t1, -, t3, t4⟩ := construct_times hc
  have hb := construct_b hc
  subst e1
  have hn : s.newPrices.length = s.J := by rw [e4]; simp
  have hl := solve_throw.mp hfail
  have h0 : Fl.lt s.tCurr s.tDom = true := by
    by_contra h0
    cases fuel with
    | zero => cases hl
    | succ f => rw [timeLoop, Eff.withState_apply, if_neg h0] at hl; cases hl
  have hstep : step sc p s = (.throw e, s1) := by
    cases fuel with
    | zero => cases hl
    | succ f =>
      rw [timeLoop, Eff.withState_apply, if_pos h0] at hl
      rcases Eff.bind_throw_inv hl with hl | ⟨_, s2, h2, -⟩
      · exact hl
      · exfalso
        refine hfirst ?_
        obtain ⟨⟨⟨x, hx1, hl⟩, ⟨y, hy1, hr⟩⟩, hi⟩ := step_ok_inv h2
        rw [e3] at hx1 hy1
        have hx2 := head_vec hx1
        have hy2 := last_vec hy1
        simp only [Nat.cast_zero] at hx2
        subst hx2 hy2
        rw [t3] at hl hr
        refine ⟨hl, hr, fun j h1 h2 τ hτ => ?_⟩
        obtain ⟨x, hx, hxc⟩ := hi τ (by rwa [t3]) j h1 h2
        rw [e3, vec_getElem? _ (by omega)] at hx
        rwa [← Option.some.inj hx] at hxc
  obtain ⟨w, c, rfl, hw, hcl⟩ : ∃ v c, s1 = { s with tCurr := s.tPrev + s.dt, newPrices := v, b := c } ∧ v.length = s.newPrices.length ∧ c.length = s.b.length := by
    unfold step at hstep
    rw [Eff.bind_of_ok (Eff.modify_apply _ _)] at hstep
    rcases Eff.bind_throw_inv hstep with h | ⟨_, s1, -, h⟩
    · obtain ⟨v, c, h1, hv, hc⟩ := Frame.march sc p { s with tCurr := s.tPrev + s.dt }
      rw [h] at h1
      exact ⟨v, c, h1, hv, hc⟩
    · cases h
  have hA : Agree s.J (fun _ => False) (fun _ => False) { s with tCurr := s.tPrev + s.dt } { s with tCurr := s.tPrev + s.dt, newPrices := w, b := c } :=
    ⟨rfl, w, c, rfl, hw, hcl, fun _ h => h.elim, fun _ h => h.elim⟩
  have h1 : Fl.lt (s.tPrev + s.dt) s.tDom = true := by rw [t3, t1]; exact hlt
  have key : (∀ solver, sc ≠ .crankNicolson solver) → ∀ v, (solve sc p' fuel' { s with tCurr := s.tPrev + s.dt, newPrices := w, b := c }).1 = .ok v ↔
      (solve sc p' fuel' s).1 = .ok v := by
    intro hsc v
    have hsc : SingleSolve sc := by
      cases sc with
      | crankNicolson solver => exact absurd rfl (hsc solver)
      | _ => trivial
    rw [solve_fst, solve_fst]
    constructor
    · rintro ⟨s', h2, rfl⟩
      exact timeLoop_restart hsc hJ hA.symm (hw.trans hn) h1 h0 h2
    · rintro ⟨s', h2, rfl⟩
      exact timeLoop_restart hsc hJ hA hn h0 h1 h2
  refine ⟨key, fun v v' hv hv' => ?_⟩
  cases sc with
  | crankNicolson solver =>
    obtain ⟨s', h2, rfl⟩ := solve_fst.mp hv
    obtain ⟨s'', h3, rfl⟩ := solve_fst.mp hv'
    rw [timeLoop_restart_cn hJ hA hn hb h0 h1 h3 h2]
  | explicit =>
    rw [key (by intro _ h; cases h), hv'] at hv
    exact (Res.ok.inj hv).symm
  | implicit solver =>
    rw [key (by intro _ h; cases h), hv'] at hv
    exact (Res.ok.inj hv).symm

/-! ## Trying again with `BlackScholesPDE` -/

/-- The coefficients of the Black-Scholes equation do not depend on the time. -/
theorem steady_pde (o : OptObj F) (m : Market F) : Steady (BlackScholes.pde o m) := by
  refine ⟨fun _ _ _ => rfl, fun _ _ _ => rfl, fun _ _ _ => rfl, fun _ _ _ h => h, fun _ _ _ h => h, fun t t' x h => ?_⟩
  obtain ⟨y, hy⟩ := h
  change BlackScholes.boundaryRight o m t x = _ at hy
  show (BlackScholes.boundaryRight o m t' x).IsOk
  unfold BlackScholes.boundaryRight at hy ⊢
  obtain ⟨K, hK, -⟩ := Res.bind_eq_ok.mp hy
  rw [hK, Res.bind_ok]
  split <;> exact ⟨_, rfl⟩

/-- The Thomas algorithm never looks at the values before it decides to throw. -/
theorem thomas_failsByMatrix : FailsByMatrix (thomas : MatrixSolver F) := by
  intro A b b' x hl h
  unfold thomas at h ⊢
  split at h
  · cases h
  · rename_i h1
    split at h
    · cases h
    · rename_i h2
      rw [if_neg h1, if_neg (by rw [hl]; exact h2)]
      cases h
      exact ⟨_, rfl, by simp⟩

namespace Fdm

theorem each_len {α β : Type} {f : α → Res β} : ∀ {l : List α} {r : List β}, Res.each f l = .ok r → r.length = l.length
  | [], r, h => by cases h; rfl
  | a :: l, r, h => by
    rw [Res.each, Res.bind_eq_ok] at h
    obtain ⟨x, -, h⟩ := h
    rw [Res.bind_eq_ok] at h
    obtain ⟨xs, hxs, h⟩ := h
    cases h
    simp [each_len hxs]

theorem construct_old_length {sc : Scheme F} {xDom tDom : F} {J N : ℕ} {p : Pde F} {junk : ℕ → F} {s : Fdm F}
    (h : construct sc xDom J tDom N p junk = .ok s) : s.oldPrices.length = J := by
  unfold construct at h
  rw [Res.bind_eq_ok] at h
  obtain ⟨s0, h0, h⟩ := h
  have hs : s = s0 := by
    cases sc with
    | explicit => exact (Res.ok.inj h).symm
    | implicit _ => dsimp only at h; split at h <;> cases h; rfl
    | crankNicolson _ => dsimp only at h; split at h <;> cases h; rfl
  subst hs
  unfold constructBase at h0
  dsimp only at h0
  rw [Res.bind_eq_ok] at h0
  obtain ⟨old, ho, h2⟩ := h0
  cases h2
  simp [each_len ho]

/-- A solver whose calls have all failed. -/
def Unmoved (s s' : Fdm F) : Prop := s' = s ∨ Fl.lt s.tCurr s.tDom = true ∧ ∃ v c, s' = { s with tCurr := s.tPrev + s.dt, newPrices := v, b := c } ∧
  v.length = s.newPrices.length ∧ c.length = s.b.length

theorem unmoved_solve {sc : Scheme F} (hM : SolverFailsByMatrix sc) {p : Pde F} (hp : Steady p) {s s' s'' : Fdm F} (hl : s.oldPrices.length = s.newPrices.length)
    {fuel : ℕ} {e : Exc} (h : Unmoved s s') (hf : solve sc p fuel s' = (.throw e, s'')) : Unmoved s s'' := by
  have ht := solve_throw.mp hf
  cases fuel with
  | zero => cases ht
  | succ f =>
    rw [timeLoop, Eff.withState_apply] at ht
    by_cases hlt : Fl.lt s'.tCurr s'.tDom = true
    · rw [if_pos hlt] at ht
      have hlt0 : Fl.lt s.tCurr s.tDom = true := by
        rcases h with rfl | ⟨h, -⟩
        · exact hlt
        · exact h
      rcases Eff.bind_throw_inv ht with ht | ⟨_, s2, h2, ht⟩
      · obtain ⟨v, c, h1, hv, hc⟩ : ∃ v c, s'' = { s' with tCurr := s'.tPrev + s'.dt, newPrices := v, b := c } ∧ v.length = s'.newPrices.length ∧
            c.length = s'.b.length := by
          unfold step at ht
          rw [Eff.bind_of_ok (Eff.modify_apply _ _)] at ht
          rcases Eff.bind_throw_inv ht with h | ⟨_, s1, -, h⟩
          · obtain ⟨v, c, h1, hv, hc⟩ := Frame.march sc p { s' with tCurr := s'.tPrev + s'.dt }
            rw [h] at h1
            exact ⟨v, c, h1, hv, hc⟩
          · cases h
        subst h1
        rcases h with rfl | ⟨-, w, d, rfl, hw, hd⟩
        · exact .inr ⟨hlt0, v, c, rfl, hv, hc⟩
        · exact .inr ⟨hlt0, v, c, rfl, hv.trans hw, hc.trans hd⟩
      · exfalso
        have hl' : s'.oldPrices.length = s'.newPrices.length := by
          rcases h with rfl | ⟨-, w, d, rfl, hw, hd⟩
          · exact hl
          · exact hl.trans hw.symm
        obtain ⟨s1, h1, rfl⟩ := step_eq_march h2
        refine timeLoop_nothrow hM hp h2 hl' ?_ e s'' ht
        obtain ⟨v, c, h3, hv, hc⟩ := Frame.march sc p { s' with tCurr := s'.tPrev + s'.dt }
        rw [h1] at h3
        dsimp only at h3 hv hc
        subst h3
        exact ⟨rfl, rfl, rfl, rfl, rfl, hv, by dsimp only; omega, hc⟩
    · rw [if_neg hlt] at ht
      cases ht

theorem unmoved_again {sc : Scheme F} (hM : SolverFailsByMatrix sc) {p : Pde F} (hp : Steady p) {J : ℕ} (hJ : 2 ≤ J) {s s' : Fdm F} (hsJ : s.J = J)
    (hl : s.newPrices.length = J) (hb : s.b.length = J - 2) (h1 : Fl.lt (s.tPrev + s.dt) s.tDom = true) (h : Unmoved s s') {fuel : ℕ} {v : List F} :
    (solve sc p fuel s').1 = .ok v ↔ (solve sc p fuel s).1 = .ok v := by
  rcases h with rfl | ⟨h0, w, c, rfl, hw, hc⟩
  · rfl
  have hA : Agree J (fun _ => False) (fun _ => False) { s with tCurr := s.tPrev + s.dt } { s with tCurr := s.tPrev + s.dt, newPrices := w, b := c } :=
    ⟨hsJ, w, c, rfl, hw, hc, fun _ h => h.elim, fun _ h => h.elim⟩
  have euler : SingleSolve sc → ((solve sc p fuel { s with tCurr := s.tPrev + s.dt, newPrices := w, b := c }).1 = .ok v ↔ (solve sc p fuel s).1 = .ok v) := by
    intro hsc
    rw [solve_fst, solve_fst]
    constructor
    · rintro ⟨s', h2, rfl⟩
      exact timeLoop_restart hsc hJ hA.symm (hw.trans hl) h1 h0 h2
    · rintro ⟨s', h2, rfl⟩
      exact timeLoop_restart hsc hJ hA hl h0 h1 h2
  cases sc with
  | explicit => exact euler trivial
  | implicit solver => exact euler trivial
  | crankNicolson solver =>
    have alike : Alike s { s with tCurr := s.tPrev + s.dt, newPrices := w, b := c } := ⟨rfl, rfl, rfl, rfl, rfl, hw, rfl, hc⟩
    have alike' : Alike { s with tCurr := s.tPrev + s.dt, newPrices := w, b := c } s := ⟨rfl, rfl, rfl, rfl, rfl, hw.symm, rfl, hc.symm⟩
    have det : ∀ {a b : Fdm F}, step (.crankNicolson solver) p s = (.ok (), a) →
        step (.crankNicolson solver) p { s with tCurr := s.tPrev + s.dt, newPrices := w, b := c } = (.ok (), b) → b = a := by
      intro a b ha hb'
      obtain ⟨s2, m1, rfl⟩ := step_eq_march ha
      obtain ⟨t2, m2, rfl⟩ := step_eq_march hb'
      rw [march_det hJ hA hl hb m1 m2]
    rw [solve_fst, solve_fst]
    cases fuel with
    | zero => constructor <;> (rintro ⟨s', h2, -⟩; cases h2)
    | succ f =>
      rw [timeLoop, Eff.withState_apply, if_pos h1, Eff.withState_apply, if_pos h0]
      constructor
      · rintro ⟨s', h2, hv⟩
        obtain ⟨_, b, hb', h3⟩ := Eff.bind_ok_inv h2
        obtain ⟨a, ha⟩ := step_mirror hM hp alike' hb'
        rw [det ha hb'] at h3
        exact ⟨s', by rw [Eff.bind_of_ok ha, h3], hv⟩
      · rintro ⟨s', h2, hv⟩
        obtain ⟨_, a, ha, h3⟩ := Eff.bind_ok_inv h2
        obtain ⟨b, hb'⟩ := step_mirror hM hp alike ha
        rw [← det ha hb'] at h3
        exact ⟨s', by rw [Eff.bind_of_ok hb', h3], hv⟩

end Fdm

/-- **C86 (trying again).** In every arithmetic, for all three schemes with a matrix solver whose failures depend on the matrix only, and
for the Black-Scholes equation: after any history of calls of the solver that all failed with an exception, while the market data changed
in any way, `solve()` returns prices exactly if a new solver would in the market data as they are now, and the same ones; provided the
time domain has more than one step (see `C86_retry_fails`). -/
theorem C86_retry (sc : Scheme F) (hM : SolverFailsByMatrix sc) (k : Interp.Kind) (o : OptObj F) (m : Market F) (xDom tDom : F) (J N : ℕ) (hJ : 2 ≤ J)
    (junk : ℕ → F) (s : Fdm F) (hc : construct sc xDom J tDom N (BlackScholes.pde o m) junk = .ok s) (hlt : Fl.lt (lit 0 + s.dt) tDom = true)
    (fuel fuel' : ℕ) (h : List (FdmCall F)) (hf : AllFail sc k o fuel (m, s) h) (v : List F) :
    (solve sc (BlackScholes.pde o (FdmWorld.run sc k o fuel (m, s) h).1) fuel' (FdmWorld.run sc k o fuel (m, s) h).2).1 = .ok v ↔
      (solve sc (BlackScholes.pde o (FdmWorld.run sc k o fuel (m, s) h).1) fuel' s).1 = .ok v := by
  obtain ⟨e1, -, e3, e4, e5⟩ := construct_eq hc
  obtain ⟨t1, -, t3, t4⟩ := construct_times hc
  have hb := construct_b hc
  have hn : s.newPrices.length = J := by rw [e4]; simp
  have hol := construct_old_length hc
  have inv : ∀ (h : List (FdmCall F)) (m' : Market F) (s' : Fdm F), Unmoved s s' → AllFail sc k o fuel (m', s') h →
      Unmoved s (FdmWorld.run sc k o fuel (m', s') h).2 := by
    intro h
    unfold FdmWorld.run
    induction h with
    | nil => intro m' s' hs _; exact hs
    | cons c h ih =>
      intro m' s' hs hf
      rw [List.foldl_cons]
      have hsolved : s'.solved = false := by
        rcases hs with rfl | ⟨-, _, _, rfl, -⟩ <;> exact e5
      cases c with
      | market c => exact ih _ _ hs hf
      | solve =>
        obtain ⟨⟨e, he⟩, hf⟩ := hf
        exact ih _ _ (unmoved_solve hM (steady_pde o m') (hol.trans hn.symm) hs (Prod.ext he rfl)) hf
      | calculatePrice =>
        obtain ⟨⟨e, he⟩, hf⟩ := hf
        refine ih _ _ ?_ hf
        show Unmoved s (calculatePrice sc k _ _ fuel s').2
        rw [(C86_calculatePrice sc k _ _ fuel s' hsolved).1 e _ (Prod.ext he rfl)]
        exact unmoved_solve hM (steady_pde o m') (hol.trans hn.symm) hs (Prod.ext he rfl)
  exact unmoved_again hM (steady_pde o _) hJ e1 hn hb (by rw [t3, t1]; exact hlt) (inv h m s (.inl rfl) hf)

end

/-- **C86 fails (one time step).** With a single time step (`N = 2`) a failed call is not repeated.  In exact arithmetic, for every
scheme, every PDE whose left boundary function throws and every later PDE: the first `solve()` throws, and the second call returns zeros
at all nodes, whatever the market data are. -/
theorem C86_retry_fails (sc : Scheme ℝ) (p p' : Pde ℝ) (e : Exc) (hp : ∀ t x, p.boundaryLeft t x = .throw e) (xDom tDom : ℝ) (hT : 0 < tDom) (J : ℕ) (hJ : 1 ≤ J)
    (junk : ℕ → ℝ) (s : Fdm ℝ) (hc : construct sc xDom J tDom 2 p junk = .ok s) (fuel : ℕ) (hf : 1 ≤ fuel) :
    ∃ s1, solve sc p fuel s = (.throw e, s1) ∧ (solve sc p' fuel s1).1 = .ok (List.replicate J 0) := by
  obtain ⟨e1, -, e3, e4, -⟩ := construct_eq hc
  obtain ⟨t1, t2, t3, t4⟩ := construct_times hc
  have hx : s.xValues ≠ [] := by
    rw [e3]
    intro h
    have := congrArg List.length h
    simp at this
    omega
  refine ⟨_, solve_left hf hx hp (by rw [t4, t1]; simpa using hT), ?_⟩
  obtain ⟨f, rfl⟩ : ∃ f, fuel = f + 1 := ⟨fuel - 1, by omega⟩
  have hloop : timeLoop sc p' (f + 1) { s with tCurr := s.tPrev + s.dt } = (.ok (), { s with tCurr := s.tPrev + s.dt }) := by
    rw [timeLoop, Eff.withState_apply, if_neg (by dsimp only; rw [t1, t2, t3]; simp [ulpred])]
    rfl
  unfold solve
  rw [Eff.bind_of_ok hloop, Eff.bind_of_ok (Eff.modify_apply _ _), Eff.read_apply]
  simp [e4, vec, List.map_const']

/-! ## Examples -/

namespace FdmFailureExample

/-- A double digital option. -/
def range : OptObj ℝ := ⟨.european, "A", .doubleDigital 1 2, 1, none⟩

theorem range_strike : ¬ HasStrike range.payoff := by
  unfold HasStrike range
  rintro (⟨_, _, h⟩ | ⟨_, _, h⟩) <;> cases h

theorem range_construct (N : ℕ) : ∃ s, construct .explicit 2 3 1 N (BlackScholes.pde range exampleMarket) (fun _ => (0 : ℝ)) = .ok s := by
  obtain ⟨w, hw⟩ : ∃ w : ℝ → ℝ, ∀ x, range.payoff.eval1 x = .ok (w x) := ⟨fun x => _, fun x => rfl⟩
  have e := each_vec (f := range.payoff.eval1) (n := 3) (g := fun j : ℕ => (lit (j : ℚ) : ℝ) * (2 / lit (ulpred 3 : ℚ)))
    (w := fun j => w (lit (j : ℚ) * (2 / lit (ulpred 3 : ℚ)))) (fun i _ => hw _)
  unfold construct constructBase
  exact ⟨_, Res.bind_eq_ok.mpr ⟨_, Res.bind_eq_ok.mpr ⟨_, e, rfl⟩, rfl⟩⟩

/-- `C86_evaluates`: a put on three nodes with one step. -/
example : ∃ s, construct .explicit 2 3 1 2 (BlackScholes.pde (exampleOption .put) (sigmaMarket 1)) (fun _ => (0 : ℝ)) = .ok s ∧
    ∃ m, Fl.lt (times s.dt m) (1 : ℝ) = false ∧ ∀ n < m, Fl.lt (times s.dt n) (1 : ℝ) = true := by
  obtain ⟨s, hs⟩ := construct_explicit (xDom := 2) (tDom := 1) (J := 3) (N := 2) (sigma_put 1) (fun _ => 0)
  obtain ⟨s', h', -⟩ := sigma_solve 1 (by rw [← sigma_construct 1]; exact hs)
  obtain ⟨m, h1, h2⟩ := C86_evaluates _ _ _ _ _ _ _ _ _ _ _ hs h'
  exact ⟨s, hs, m, h1, fun n hn => (h2 n hn).1⟩

/-- `C86_noStrike_partial`, `C86_origin` and `C86_calculatePrice`: a double digital option with two time steps, after calls of the solver
and changes of the market data. -/
example : ∃ s, construct .explicit 2 3 1 3 (BlackScholes.pde range exampleMarket) (fun _ => (0 : ℝ)) = .ok s ∧ ∃ e s',
    solve .explicit (BlackScholes.pde range (FdmWorld.run .explicit .linear range 5 (exampleMarket, s) [.solve, .market (.setR 2), .calculatePrice]).1) 5
      (FdmWorld.run .explicit .linear range 5 (exampleMarket, s) [.solve, .market (.setR 2), .calculatePrice]).2 = (.throw e, s') := by
  obtain ⟨s, hs⟩ := range_construct 3
  obtain ⟨-, t2, -⟩ := construct_times hs
  have := C86_noStrike_partial .explicit .linear range range_strike 5 (by norm_num) exampleMarket exampleMarket 2 1 3 3 (by norm_num) _ s hs
    (by simp) (by rw [t2]; norm_num [ulpred]) [.solve, .market (.setR 2), .calculatePrice]
  refine ⟨s, hs, _, _, Prod.ext this rfl⟩

/-- `C86_retry_fails`: a double digital option with one time step. -/
example : ∃ s s1 e, construct .explicit 2 3 1 2 (BlackScholes.pde range exampleMarket) (fun _ => (0 : ℝ)) = .ok s ∧
    solve .explicit (BlackScholes.pde range exampleMarket) 5 s = (.throw e, s1) ∧
    (solve .explicit (BlackScholes.pde range exampleMarket) 5 s1).1 = .ok [0, 0, 0] := by
  obtain ⟨s, hs⟩ := range_construct 2
  obtain ⟨s1, h1, h2⟩ := C86_retry_fails .explicit _ (BlackScholes.pde range exampleMarket) _ (no_strike range_strike exampleMarket) 2 1 one_pos 3 (by norm_num)
    _ s hs 5 (by norm_num)
  exact ⟨s, s1, _, hs, h1, h2⟩

/-- Market data without stocks. -/
def empty : Market ℝ := ⟨[], [], 0, [], [], []⟩

/-- `C86_retry_partial`: the solver is called before the stock is known, and again afterwards. -/
example (σ : ℝ) : ∃ s s1 e v, construct .explicit 2 3 1 3 (BlackScholes.pde (exampleOption .put) empty) (fun _ => (0 : ℝ)) = .ok s ∧
    solve .explicit (BlackScholes.pde (exampleOption .put) empty) 5 s = (.throw e, s1) ∧
    (solve .explicit (BlackScholes.pde (exampleOption .put) (sigmaMarket σ)) 5 s).1 = .ok v ∧
    (solve .explicit (BlackScholes.pde (exampleOption .put) (sigmaMarket σ)) 5 s1).1 = .ok v := by
  obtain ⟨s, hs, h⟩ := C54_partial _ _ (sigma_put σ) 2 1 3 3 (fun _ => 0) (by norm_num) (by norm_num) two_pos one_pos
  obtain ⟨u, hu, -⟩ := h 5 (by norm_num)
  have hs' : construct .explicit 2 3 1 3 (BlackScholes.pde (exampleOption .put) empty) (fun _ => (0 : ℝ)) = .ok s := hs
  obtain ⟨e1, -, e3, e4, -⟩ := construct_eq hs'
  obtain ⟨t1, t2, t3, t4⟩ := construct_times hs'
  have hfail : ∃ e s1, solve .explicit (BlackScholes.pde (exampleOption .put) empty) 5 s = (.throw e, s1) := by
    exact ⟨_, _, Prod.ext (C86_unknown .explicit .linear (exampleOption .put) (.inl ⟨_, _, rfl⟩) empty empty _ rfl 2 1 3 3 le_rfl _ s hs' (by simp) 5 (by norm_num)
      (.ok 1)).1 rfl⟩
  obtain ⟨e, s1, hf⟩ := hfail
  refine ⟨s, s1, e, _, hs', hf, hu, ((C86_retry_partial .explicit _ _ _ _ _ _ (by norm_num) _ _ _ 5 5 _ hs' hf ?_ (by rw [t2]; norm_num [ulpred])).1
    (by intro _ h; cases h) _).mpr hu⟩
  rintro ⟨-, -, h⟩
  obtain ⟨⟨d, hd⟩, -⟩ := h 1 le_rfl (by norm_num) _ rfl
  cases hd

/-- A history in which the solver is called before the stock is known. -/
def early : List (FdmCall ℝ) := [.solve, .market (.setR 2), .market (.addStock "A" 1 1 none)]

/-- `C86_retry`: implicit Euler with the Thomas algorithm is called before the stock is known and again when it is. -/
example : ∃ s, construct (.implicit thomas) 2 5 1 3 (BlackScholes.pde (exampleOption .put) empty) (fun _ => (0 : ℝ)) = .ok s ∧
    AllFail (.implicit thomas) .linear (exampleOption .put) 5 (empty, s) early ∧ ∃ m s1, FdmWorld.run (.implicit thomas) .linear (exampleOption .put) 5 (empty, s) early = (m, s1) ∧
    ∀ v, (solve (.implicit thomas) (BlackScholes.pde (exampleOption .put) m) 5 s1).1 = .ok v ↔ (solve (.implicit thomas) (BlackScholes.pde (exampleOption .put) m) 5 s).1 = .ok v := by
  obtain ⟨s, hs⟩ : ∃ s, construct (.implicit thomas) 2 5 1 3 (BlackScholes.pde (exampleOption .put) empty) (fun _ => (0 : ℝ)) = .ok s :=
    construct_returns (xDom := 2) (tDom := 1) (J := 5) (N := 3) (sigma_put 1) (fun _ => 0) (by norm_num) (by decide) (.implicit thomas)
  obtain ⟨t1, t2, t3, t4⟩ := construct_times hs
  have hf : AllFail (.implicit thomas) .linear (exampleOption .put) 5 (empty, s) early :=
    ⟨⟨_, (C86_unknown (.implicit thomas) .linear (exampleOption .put) (.inl ⟨_, _, rfl⟩) empty empty _ rfl 2 1 5 3 (by norm_num) _ s hs (by simp) 5 (by norm_num)
      (.ok 1)).1⟩, trivial⟩
  exact ⟨s, hs, hf, _, _, rfl, C86_retry (.implicit thomas) thomas_failsByMatrix .linear (exampleOption .put) empty 2 1 5 3 (by norm_num) _ s hs
    (by rw [t2]; norm_num [ulpred]) 5 5 early hf⟩

/-- `C86_market`. -/
example (σ : ℝ) (s : Fdm ℝ) : (FdmWorld.run .explicit .linear (exampleOption .put) 5 (sigmaMarket σ, s) [.solve, .market (.setR 2), .calculatePrice]).1 =
    World.step (sigmaMarket σ) (.setR 2) :=
  C86_market _ _ _ _ _ _ _

end FdmFailureExample
end Verif
