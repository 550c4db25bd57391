import Verif.Props.FdmGrid
import Verif.Lemmas.FdmSchemes

/-!
# Properties C54 to C57: what the time steps compute
-/

namespace Verif
open Spec Fdm

namespace Fdm

/-- The time levels of a run. -/
structure Levels (xDom tDom : ℝ) (J N : ℕ) (s : Fdm ℝ) : Prop where
  nodes : s.J = J
  dx : s.dx = xDom / (J - 1)
  dt : s.dt = tDom / (N - 1)
  grid : OnGrid s fun j => s.oldPrices.getD j 0

theorem levels_step {sc : Scheme ℝ} {p : Pde ℝ} {xDom tDom : ℝ} {J N : ℕ} {s s' : Fdm ℝ} (hs : Levels xDom tDom J N s)
    (h : step sc p s = (.ok (), s')) : Levels xDom tDom J N s' ∧ s'.newPrices = s'.oldPrices := by
  obtain ⟨v, c, -, hv, hc, rfl⟩ := step_ok h
  refine ⟨⟨hs.nodes, hs.dx, hs.dt, hs.grid.two, hs.grid.dx2, hs.grid.xs, ?_, hv.trans hs.grid.new, hc.trans hs.grid.bb⟩, rfl⟩
  dsimp only
  conv_lhs => rw [eq_vec (0 : ℝ) v]
  rw [hv, hs.grid.new]

theorem levels_construct {sc : Scheme ℝ} {xDom tDom : ℝ} {J N : ℕ} {p : Pde ℝ} {q : Problem} {junk : ℕ → ℝ} {s : Fdm ℝ}
    (hp : Describes p q) (h : construct sc xDom J tDom N p junk = .ok s) (hJ : 2 ≤ J) (hN : 2 ≤ N) :
    Levels xDom tDom J N s ∧ s.oldPrices = vec J fun j => q.initial (j * (xDom / (J - 1))) := by
  obtain ⟨old, hl, ho, rfl⟩ := construct_ok h hJ hN
  rw [each_vec (w := fun j => q.initial (j * (xDom / (J - 1)))) (fun i _ => hp.initialCondition _)] at ho
  cases ho
  refine ⟨⟨rfl, rfl, rfl, hJ, rfl, rfl, ?_, by simp, by simp⟩, rfl⟩
  dsimp only
  exact vec_congr fun i hi => (vec_getD 0 (fun j : ℕ => q.initial (j * (xDom / (J - 1)))) hi).symm

/-- A run gives the time levels `u`; each pair of levels satisfies what one step guarantees. -/
theorem run_levels {sc : Scheme ℝ} {p : Pde ℝ} {q : Problem} {xDom tDom : ℝ} {J N : ℕ} {junk : ℕ → ℝ} {s : Fdm ℝ}
    (hp : Describes p q) (hJ : 2 ≤ J) (hN : 2 ≤ N) (hT : 0 < tDom) (h : construct sc xDom J tDom N p junk = .ok s) {fuel : ℕ}
    (hf : N ≤ fuel) {v : List ℝ} {s' : Fdm ℝ} (hs : solve sc p fuel s = (.ok v, s'))
    {P : ℝ → (ℕ → ℝ) → (ℕ → ℝ) → Prop}
    (hP : ∀ s s' : Fdm ℝ, Levels xDom tDom J N s → step sc p s = (.ok (), s') →
      P s.tPrev (fun j => s.oldPrices.getD j 0) (fun j => s'.oldPrices.getD j 0)) :
    ∃ u : ℕ → ℕ → ℝ, v = (List.range J).map (u (N - 1)) ∧ (∀ j < J, u 0 j = q.initial (j * (xDom / (J - 1)))) ∧
      ∀ n < N - 1, P (n * (tDom / (N - 1))) (u n) (u (n + 1)) := by
  obtain ⟨st, h0, hst, ht, -, hv, -⟩ := C53_steps sc p xDom tDom J N junk s hJ hN hT h fuel hf v s' hs
  obtain ⟨hL, hi⟩ := levels_construct hp h hJ hN
  have hlev : ∀ n ≤ N - 1, Levels xDom tDom J N (st n) := by
    intro n
    induction n with
    | zero => intro _; rw [h0]; exact hL
    | succ n ih => intro hn; exact (levels_step (ih (by omega)) (hst n (by omega))).1
  refine ⟨fun n j => (st n).oldPrices.getD j 0, ?_, ?_, ?_⟩
  · obtain ⟨n, hn⟩ : ∃ n, N - 1 = n + 1 := ⟨N - 2, by omega⟩
    have h1 := levels_step (hlev n (by omega)) (hst n (by omega))
    rw [hv, hn, h1.2]
    conv_lhs => rw [h1.1.grid.old, h1.1.nodes]
    rfl
  · intro j hj
    dsimp only
    rw [h0, hi, vec_getD _ _ hj]
  · intro n hn
    rw [← (ht n (by omega)).1]
    exact hP _ _ (hlev n (by omega)) (hst n hn)

/-- If every step from a state on the grid returns, `solve` returns. -/
theorem run_returns {sc : Scheme ℝ} {p : Pde ℝ} {q : Problem} {xDom tDom : ℝ} {J N : ℕ} {junk : ℕ → ℝ} {s : Fdm ℝ}
    (hp : Describes p q) (hJ : 2 ≤ J) (hN : 2 ≤ N) (hT : 0 < tDom) (h : construct sc xDom J tDom N p junk = .ok s) {fuel : ℕ}
    (hf : N ≤ fuel) (hstep : ∀ s : Fdm ℝ, Levels xDom tDom J N s → ∃ s', step sc p s = (.ok (), s')) :
    ∃ v s', solve sc p fuel s = (.ok v, s') := by
  obtain ⟨hL, -⟩ := levels_construct hp h hJ hN
  let nxt : Fdm ℝ → Fdm ℝ := fun s => (step sc p s).2
  have hlev : ∀ n, Levels xDom tDom J N (nxt^[n] s) := by
    intro n
    induction n with
    | zero => exact hL
    | succ n ih =>
      rw [Function.iterate_succ_apply']
      obtain ⟨s', hs'⟩ := hstep _ ih
      have : nxt (nxt^[n] s) = s' := by change (step sc p _).2 = s'; rw [hs']
      rw [this]
      exact (levels_step ih hs').1
  refine ⟨_, _, C53_returns sc p xDom tDom J N junk s hJ hN hT h fuel hf (fun n => nxt^[n] s) rfl ?_⟩
  intro n _
  obtain ⟨s', hs'⟩ := hstep _ (hlev n)
  have : nxt^[n + 1] s = s' := by
    rw [Function.iterate_succ_apply']; change (step sc p _).2 = s'; rw [hs']
  rw [hs', this]

theorem last_node {xDom : ℝ} {J : ℕ} (hJ : 2 ≤ J) : ((J - 1 : ℕ) : ℝ) * (xDom / (J - 1)) = xDom := by
  have : (2 : ℝ) ≤ J := by exact_mod_cast hJ
  have h : (J : ℝ) - 1 ≠ 0 := by linarith
  rw [Nat.cast_sub (by omega)]
  simp only [Nat.cast_one]
  field_simp

/-- The old prices after a step with known new prices. -/
theorem step_old {sc : Scheme ℝ} {p : Pde ℝ} {s s' : Fdm ℝ} {g : ℕ → ℝ} {c : List ℝ} {J : ℕ}
    (hm : march sc p { s with tCurr := s.tPrev + s.dt } = (.ok (), { s with tCurr := s.tPrev + s.dt, newPrices := vec J g, b := c }))
    (h : step sc p s = (.ok (), s')) {j : ℕ} (hj : j < J) : s'.oldPrices.getD j 0 = g j := by
  rw [step_of_march hm] at h
  have := (Prod.mk.inj h).2
  rw [← this]
  exact vec_getD 0 g hj

theorem around_inner {J j : ℕ} {l r : ℝ} {w : ℕ → ℝ} (h1 : 1 ≤ j) (h2 : j + 1 < J) : around J l r w j = w j := by
  unfold around; rw [if_pos ⟨h1, h2⟩]
theorem around_zero {J : ℕ} (hJ : 2 ≤ J) {l r : ℝ} {w : ℕ → ℝ} : around J l r w 0 = l := by
  unfold around; rw [if_neg (by omega), if_neg (by omega)]
theorem around_last {J : ℕ} {l r : ℝ} {w : ℕ → ℝ} : around J l r w (J - 1) = r := by
  unfold around; rw [if_neg (by omega), if_pos rfl]

end Fdm

/-! ## C54: explicit Euler -/

/-- **C54 (partial).** `EulerExplicitFDM::solve()` returns the last of `N` time levels.  The first level is
the initial condition; every further level satisfies the forward-time central-space scheme at all inner
nodes.  Missing (see `C54_fails`): the boundary values of the new level are those prescribed for
the previous time. -/
theorem C54_partial (p : Pde ℝ) (q : Problem) (hp : Describes p q) (xDom tDom : ℝ) (J N : ℕ) (junk : ℕ → ℝ) (hJ : 2 ≤ J) (hN : 2 ≤ N)
    (hX : 0 < xDom) (hT : 0 < tDom) :
    ∃ s, construct .explicit xDom J tDom N p junk = .ok s ∧ ∀ fuel, N ≤ fuel → ∃ u : ℕ → ℕ → ℝ,
      (solve .explicit p fuel s).1 = .ok ((List.range J).map (u (N - 1))) ∧
      (∀ j < J, u 0 j = q.initial (j * (xDom / (J - 1)))) ∧
      ∀ n < N - 1, ForwardEuler q J (xDom / (J - 1)) (tDom / (N - 1)) (n * (tDom / (N - 1))) (u n) (u (n + 1)) ∧
        BoundaryAt q J xDom (n * (tDom / (N - 1))) (u (n + 1)) := by
  obtain ⟨s, hs⟩ := construct_explicit (xDom := xDom) (tDom := tDom) (J := J) (N := N) hp junk
  refine ⟨s, hs, fun fuel hf => ?_⟩
  have hJ1 : (0 : ℝ) < J - 1 := by
    have : (2 : ℝ) ≤ J := by exact_mod_cast hJ
    linarith
  have hN1 : (0 : ℝ) < N - 1 := by
    have : (2 : ℝ) ≤ N := by exact_mod_cast hN
    linarith
  have hmarch : ∀ s : Fdm ℝ, Levels xDom tDom J N s → ∀ t, _ := fun s hL t =>
    march_explicit (s := { s with tCurr := t }) hp ⟨hL.grid.two, hL.grid.dx2, hL.grid.xs, hL.grid.old, hL.grid.new, hL.grid.bb⟩
  obtain ⟨v, s', hv⟩ := run_returns hp hJ hN hT hs hf fun s hL => ⟨_, step_of_march (hmarch s hL _)⟩
  obtain ⟨u, e, h0, hu⟩ := run_levels hp hJ hN hT hs hf hv
    (P := fun t a b => ForwardEuler q J (xDom / (J - 1)) (tDom / (N - 1)) t a b ∧ BoundaryAt q J xDom t b) (by
      intro s s' hL hst
      have ho : ∀ j < J, s'.oldPrices.getD j 0 = _ := fun j hj => step_old (hmarch s hL _) hst (by rw [← hL.nodes] at hj; exact hj)
      refine ⟨fun j h1 h2 => ?_, ?_, ?_⟩
      · dsimp only
        rw [ho j (by omega), around_inner h1 (by change j + 1 < s.J; rw [hL.nodes]; exact h2)]
        have := explicitNew_scheme (q := q) (s := { s with tCurr := s.tPrev + s.dt }) (u := fun j => s.oldPrices.getD j 0)
          (by change s.dt ≠ 0; rw [hL.dt]; exact (div_pos hT hN1).ne') (by change s.dx ≠ 0; rw [hL.dx]; exact (div_pos hX hJ1).ne') h1
        rw [← hL.dt, ← hL.dx]
        exact this
      · dsimp only
        rw [ho 0 (by omega), around_zero hL.grid.two]
      · dsimp only
        rw [ho (J - 1) (by omega), ← hL.nodes, around_last]
        dsimp only
        rw [hL.dx, hL.nodes, last_node hJ])
  exact ⟨u, by rw [hv, e], h0, hu⟩

example : ∃ s, construct .explicit 2 3 1 2 (BlackScholes.pde (exampleOption .put) exampleMarket) (fun _ => 0) = .ok s ∧
    (solve .explicit (BlackScholes.pde (exampleOption .put) exampleMarket) 2 s).1 = .ok [1, 0, 0] := by
  obtain ⟨s, hs, h⟩ := C54_partial _ _ example_put 2 1 3 2 (fun _ => 0) (by norm_num) le_rfl two_pos one_pos
  obtain ⟨u, hu, h0, hn⟩ := h 2 le_rfl
  refine ⟨s, hs, ?_⟩
  obtain ⟨hf, hl, hr⟩ := hn 0 (by norm_num)
  have h1 := hf 1 le_rfl (by norm_num)
  have e0 := h0 0 (by norm_num)
  have e1 := h0 1 (by norm_num)
  have e2 := h0 2 (by norm_num)
  norm_num [putProblem, central] at h1 e0 e1 e2 hl hr
  rw [e0, e1, e2] at h1
  rw [hu]
  norm_num [List.range_succ, hl, hr]
  linarith

/-- The hypotheses of `C53_steps` and `C53_returns` hold for this run. -/
example : ∃ s v s', ∃ st : ℕ → Fdm ℝ, construct .explicit 2 3 1 4 (BlackScholes.pde (exampleOption .put) exampleMarket) (fun _ => 0) = .ok s ∧
    solve .explicit (BlackScholes.pde (exampleOption .put) exampleMarket) 4 s = (.ok v, s') ∧
    st 0 = s ∧ (st 2).tCurr = 2 / 3 ∧ (st 3).tCurr = 1 ∧
    solve .explicit (BlackScholes.pde (exampleOption .put) exampleMarket) 9 s = (.ok (st 3).newPrices, { st 3 with solved := true }) := by
  obtain ⟨s, hs, h⟩ := C54_partial _ _ example_put 2 1 3 4 (fun _ => 0) (by norm_num) (by norm_num) two_pos one_pos
  obtain ⟨u, hu, -⟩ := h 4 le_rfl
  rcases hv : solve .explicit (BlackScholes.pde (exampleOption .put) exampleMarket) 4 s with ⟨r, s'⟩
  rw [hv] at hu
  obtain ⟨st, h0, h1, h2, h3, -⟩ := C53_steps _ _ 2 1 3 4 _ s (by norm_num) (by norm_num) one_pos hs 4 le_rfl _ s' (by rw [hv, show r = _ from hu])
  refine ⟨s, _, s', st, hs, hv.trans (by rw [show r = _ from hu]), h0, ?_, h3, ?_⟩
  · rw [(h2 2 (by norm_num)).2]; norm_num
  · exact C53_returns _ _ 2 1 3 4 _ s (by norm_num) (by norm_num) one_pos hs 9 (by norm_num) st h0 h1

/-- **C54 fails.** For a call with nonzero rate and strike the last entry of the vector returned for
time `tDom` is the boundary value prescribed for time `tDom - dt`, which is a different number. -/
theorem C54_fails (o : OptObj ℝ) (m : Market ℝ) (d : StockData ℝ) (K : ℝ) (hd : BlackScholes.stock o m = .ok d)
    (ho : o.payoff = .vanilla .call K) (hK : K ≠ 0) (hr : m.r ≠ 0) (xDom tDom : ℝ) (J N : ℕ) (junk : ℕ → ℝ) (hJ : 2 ≤ J) (hN : 2 ≤ N)
    (hX : 0 < xDom) (hT : 0 < tDom) :
    ∃ s, construct .explicit xDom J tDom N (BlackScholes.pde o m) junk = .ok s ∧ ∀ fuel, N ≤ fuel → ∃ v,
      (solve .explicit (BlackScholes.pde o m) fuel s).1 = .ok v ∧
      v[J - 1]? = some (xDom - K * Real.exp (-m.r * (o.T - (tDom - tDom / (N - 1))))) ∧
      ¬ (BlackScholes.pde o m).boundaryRight tDom xDom = .ok (entry v (J - 1)) := by
  obtain ⟨s, hs, h⟩ := C54_partial _ _ (call_describes hd ho) xDom tDom J N junk hJ hN hX hT
  refine ⟨s, hs, fun fuel hf => ?_⟩
  obtain ⟨u, hu, h0, hn⟩ := h fuel hf
  have hN1 : (0 : ℝ) < N - 1 := by
    have : (2 : ℝ) ≤ N := by exact_mod_cast hN
    linarith
  have hc : ((N - 2 : ℕ) : ℝ) = N - 1 - 1 := by
    rw [Nat.cast_sub hN]; push_cast; ring
  have ht : ((N - 2 : ℕ) : ℝ) * (tDom / (N - 1)) = tDom - tDom / (N - 1) := by
    rw [hc]; field_simp
  have hlast := (hn (N - 2) (by omega)).2.2
  rw [ht, show N - 2 + 1 = N - 1 by omega] at hlast
  refine ⟨_, hu, ?_, ?_⟩
  · have := vec_getElem? (u (N - 1)) (show J - 1 < J by omega)
    unfold vec at this
    rw [this, hlast]
    rfl
  · rw [(call_describes hd ho).boundaryRight]
    have e : entry ((List.range J).map (u (N - 1))) (J - 1) = u (N - 1) (J - 1) := vec_getD 0 _ (by omega)
    rw [e, hlast]
    intro h
    have h := Res.ok.inj h
    change xDom - K * Real.exp (-m.r * (o.T - tDom)) = xDom - K * Real.exp (-m.r * (o.T - (tDom - tDom / (N - 1)))) at h
    have h' : Real.exp (-m.r * (o.T - tDom)) = Real.exp (-m.r * (o.T - (tDom - tDom / (N - 1)))) :=
      mul_left_cancel₀ hK (by linarith)
    have h'' := Real.exp_injective h'
    have hk : 0 < tDom / (N - 1) := div_pos hT hN1
    have : m.r * (tDom / (N - 1)) = 0 := by linear_combination h''
    rcases mul_eq_zero.mp this with h | h
    · exact hr h
    · exact hk.ne' h

example : ∃ s, construct .explicit 2 3 1 2 (BlackScholes.pde (exampleOption .call) exampleMarket) (fun _ => 0) = .ok s ∧ ∃ v,
    (solve .explicit (BlackScholes.pde (exampleOption .call) exampleMarket) 2 s).1 = .ok v ∧
    (BlackScholes.pde (exampleOption .call) exampleMarket).boundaryRight 1 2 ≠ .ok (entry v 2) := by
  obtain ⟨s, hs, h⟩ := C54_fails (exampleOption .call) exampleMarket _ 1 (example_stock _) rfl one_ne_zero one_ne_zero 2 1 3 2 (fun _ => 0)
    (by norm_num) le_rfl two_pos one_pos
  obtain ⟨v, hv, -, h⟩ := h 2 le_rfl
  exact ⟨s, hs, v, hv, h⟩

/-! ## C55: implicit Euler -/

namespace Fdm

theorem implicit_run {solver : MatrixSolver ℝ} {p : Pde ℝ} {q : Problem} (hp : Describes p q) {xDom tDom : ℝ} {J N : ℕ} {junk : ℕ → ℝ}
    {s : Fdm ℝ} (hJ : 2 ≤ J) (hN : 2 ≤ N) (hX : 0 < xDom) (hT : 0 < tDom)
    (h : construct (.implicit solver) xDom J tDom N p junk = .ok s) {fuel : ℕ} (hf : N ≤ fuel) {v : List ℝ} {s' : Fdm ℝ}
    (hs : solve (.implicit solver) p fuel s = (.ok v, s'))
    (hsolver : ∀ s : Fdm ℝ, s.J = J → s.dx = xDom / (J - 1) → s.dt = tDom / (N - 1) → ∀ b x, b.length = J - 2 →
      solver (matI q s) b = .ok x → Solves (matI q s) b x) :
    ∃ u : ℕ → ℕ → ℝ, v = (List.range J).map (u (N - 1)) ∧ (∀ j < J, u 0 j = q.initial (j * (xDom / (J - 1)))) ∧
      ∀ n < N - 1, BackwardEuler q J (xDom / (J - 1)) (tDom / (N - 1)) (n * (tDom / (N - 1))) (u n) (u (n + 1)) ∧
        BoundaryAt q J xDom (n * (tDom / (N - 1)) + tDom / (N - 1)) (u (n + 1)) := by
  have hJ1 : (0 : ℝ) < J - 1 := by
    have : (2 : ℝ) ≤ J := by exact_mod_cast hJ
    linarith
  have hN1 : (0 : ℝ) < N - 1 := by
    have : (2 : ℝ) ≤ N := by exact_mod_cast hN
    linarith
  refine run_levels hp hJ hN hT h hf hs
    (P := fun t a b => BackwardEuler q J (xDom / (J - 1)) (tDom / (N - 1)) t a b ∧ BoundaryAt q J xDom (t + tDom / (N - 1)) b) ?_
  intro s s' hL hst
  have hgrid : OnGrid { s with tCurr := s.tPrev + s.dt } fun j => s.oldPrices.getD j 0 :=
    ⟨hL.grid.two, hL.grid.dx2, hL.grid.xs, hL.grid.old, hL.grid.new, hL.grid.bb⟩
  obtain ⟨m1, m2⟩ := march_implicit solver hp hgrid
  obtain ⟨w, c, hm, -⟩ := step_ok hst
  obtain ⟨sol, hsol⟩ := m2 _ hm
  have hS := hsolver { s with tCurr := s.tPrev + s.dt } hL.nodes hL.dx hL.dt _ _ (by rw [vec_length]; change s.J - 2 = _; rw [hL.nodes]) hsol
  have hlen : sol.length = s.J - 2 := hS.1
  have hmarch := m1 sol hsol hlen
  have ho : ∀ j < J, s'.oldPrices.getD j 0 = _ := fun j hj => step_old hmarch hst (by rw [← hL.nodes] at hj; exact hj)
  refine ⟨fun j h1 h2 => ?_, ?_, ?_⟩
  · have hJs : j + 1 < s.J := by rw [hL.nodes]; exact h2
    have key := implicit_scheme (w := around s.J (q.left (s.tPrev + s.dt) 0) (q.right (s.tPrev + s.dt) ((s.J - 1 : ℕ) * s.dx)) (fun k => sol.getD (k - 1) 0))
      (s := { s with tCurr := s.tPrev + s.dt }) (u := fun j => s.oldPrices.getD j 0)
      (by change s.dt ≠ 0; rw [hL.dt]; exact (div_pos hT hN1).ne')
      (by change s.dx ≠ 0; rw [hL.dx]; exact (div_pos hX hJ1).ne') (implicit_rows hS h1 hJs)
    dsimp only at key ho ⊢
    rw [← hL.dt, ← hL.dx]
    unfold central at key ⊢
    dsimp only
    rw [ho j (by omega), ho (j - 1) (by omega), ho (j + 1) (by omega)]
    exact key
  · dsimp only at ho ⊢
    rw [ho 0 (by omega), around_zero hL.grid.two, hL.dt]
  · dsimp only at ho ⊢
    rw [ho (J - 1) (by omega), ← hL.nodes, around_last, hL.dx, hL.nodes, last_node hJ, hL.dt]

/-- A tridiagonal matrix of the solvers is strictly dominant if the coefficients are. -/
theorem triMat_dominant {J : ℕ} {al be ga : ℕ → ℝ} (h : ∀ i < J - 2, |al i| + |ga i| < |be i|) :
    StrictlyDominant (triMat J al be ga) := by
  intro i hi
  have hi' : i < J - 2 := hi
  rw [triMat_coeff al be ga hi' hi', if_neg (by omega), if_pos rfl]
  refine lt_of_le_of_lt ?_ (h i hi')
  have hle : ∑ k ∈ (Finset.range (triMat J al be ga).cols).erase i, |(triMat J al be ga).coeff i k| ≤
      ∑ k ∈ (Finset.range (triMat J al be ga).cols).erase i, ((if k = i - 1 then |al i| else 0) + (if k = i + 1 then |ga i| else 0)) := by
    refine Finset.sum_le_sum fun k hk => ?_
    rw [Finset.mem_erase, Finset.mem_range] at hk
    rw [triMat_coeff al be ga hi' hk.2]
    by_cases h1 : k + 1 = i
    · rw [if_pos h1, if_pos (by omega), if_neg (by omega), add_zero]
    · rw [if_neg h1, if_neg hk.1]
      by_cases h2 : k = i + 1
      · rw [if_pos h2, if_pos h2]
        have : 0 ≤ (if k = i - 1 then |al i| else 0) := by split <;> positivity
        linarith
      · rw [if_neg h2, abs_zero]
        have : 0 ≤ (if k = i - 1 then |al i| else 0) := by split <;> positivity
        have : 0 ≤ (if k = i + 1 then |ga i| else 0) := by split <;> positivity
        linarith
  refine hle.trans ?_
  rw [Finset.sum_add_distrib, Finset.sum_ite_eq', Finset.sum_ite_eq']
  have h1 := abs_nonneg (al i)
  have h2 := abs_nonneg (ga i)
  split <;> split <;> linarith

theorem dominance {D C R h k w : ℝ} (hh : 0 < h) (hk : 0 < k) (hC : h * |C| ≤ 2 * D) (hR : R ≤ 0) (hw : 0 < w) :
    |w * (k * D - 1 / 2 * k * h * C)| + |w * (k * D + 1 / 2 * k * h * C)| <
      |-(h * h) - w * (2 * (k * D)) + w * (k * (h * h) * R)| := by
  have hkw : 0 < k * w := mul_pos hk hw
  have e1 := mul_le_mul_of_nonneg_left hC hkw.le
  have c1 := mul_le_mul_of_nonneg_left (le_abs_self C) (mul_pos hkw hh).le
  have c2 := mul_le_mul_of_nonneg_left (neg_abs_le C) (mul_pos hkw hh).le
  have hR' : w * (k * (h * h) * R) ≤ 0 := by
    have : 0 ≤ (w * (k * (h * h))) * (-R) := by
      have := neg_nonneg.mpr hR
      positivity
    nlinarith
  have hh2 : 0 < h * h := mul_pos hh hh
  have hD : 0 ≤ D := by
    have := mul_nonneg hh.le (abs_nonneg C)
    linarith
  have hDk : 0 ≤ w * (k * D) := by positivity
  rw [abs_of_nonneg (show 0 ≤ w * (k * D - 1 / 2 * k * h * C) by nlinarith),
    abs_of_nonneg (show 0 ≤ w * (k * D + 1 / 2 * k * h * C) by nlinarith),
    abs_of_neg (show -(h * h) - w * (2 * (k * D)) + w * (k * (h * h) * R) < 0 by nlinarith)]
  nlinarith

theorem matI_dominant {q : Problem} {s : Fdm ℝ} (hdx : 0 < s.dx) (hdt : 0 < s.dt) (h : DiffusionDominates q s.J s.dx) :
    StrictlyDominant (matI q s) := by
  refine triMat_dominant fun i hi => ?_
  obtain ⟨h1, h2⟩ := h s.tCurr (i + 1) (by omega) (by omega)
  have := dominance hdx hdt h1 h2 one_pos
  simp only [one_mul] at this
  exact this

theorem matC_dominant {q : Problem} {s : Fdm ℝ} (hdx : 0 < s.dx) (hdt : 0 < s.dt) (h : DiffusionDominates q s.J s.dx) :
    StrictlyDominant (matC q s) := by
  refine triMat_dominant fun i hi => ?_
  obtain ⟨h1, h2⟩ := h s.tCurr (i + 1) (by omega) (by omega)
  have := dominance hdx hdt h1 h2 (show (0 : ℝ) < 1 / 2 by norm_num)
  unfold lowerC diagC upperC
  convert this using 2
  ring

/-- The Thomas algorithm returns for all sizes. -/
theorem thomas_returns {A : Mat ℝ} {b : List ℝ} {n : ℕ} (h2 : 2 ≤ n) (hm : n - 2 ≤ INT_MAX) (hr : A.rows = n) (hc : A.cols = n)
    (hb : b.length = n) : ∃ x, thomas A b = .ok x ∧ x.length = n := by
  unfold thomas
  rw [if_neg (by omega), if_neg (by omega)]
  exact ⟨_, rfl, by simp [hr]⟩

/-- The Thomas algorithm solves strictly dominant tridiagonal systems. -/
theorem thomas_dominant : DominantSolver thomas := by
  constructor
  · intro A b x hsq hb h
    unfold thomas at h
    split at h
    · cases h
    · split at h
      · cases h
      · cases h
        simp [hb]
  · intro A b x hA hd hb h
    by_cases h2 : 2 ≤ A.rows
    · by_cases hm : A.rows ≤ 2 ^ 31 + 1
      · obtain ⟨y, hy, hS, -⟩ := (C47_dominant A hA h2 hm hd).2 b hb
        rw [hy] at h
        cases h
        exact hS
      · unfold thomas at h
        rw [if_neg (by omega), if_pos (by unfold INT_MAX; omega)] at h
        cases h
    · unfold thomas at h
      rw [if_pos (by omega)] at h
      cases h

/-- Implicit Euler returns if its linear solver returns on dominant systems. -/
theorem implicit_returns {solver : MatrixSolver ℝ} {p : Pde ℝ} {q : Problem} (hp : Describes p q) {xDom tDom : ℝ} {J N : ℕ}
    {junk : ℕ → ℝ} {s : Fdm ℝ} (hJ : 2 ≤ J) (hN : 2 ≤ N) (hX : 0 < xDom) (hT : 0 < tDom)
    (hq : DiffusionDominates q J (xDom / (J - 1))) (h : construct (.implicit solver) xDom J tDom N p junk = .ok s) {fuel : ℕ}
    (hf : N ≤ fuel) (hret : ∀ A b, Tridiagonal A → StrictlyDominant A → A.rows = J - 2 → b.length = J - 2 →
      ∃ x, solver A b = .ok x ∧ x.length = J - 2) :
    ∃ v s', solve (.implicit solver) p fuel s = (.ok v, s') := by
  have hJ1 : (0 : ℝ) < J - 1 := by
    have : (2 : ℝ) ≤ J := by exact_mod_cast hJ
    linarith
  have hN1 : (0 : ℝ) < N - 1 := by
    have : (2 : ℝ) ≤ N := by exact_mod_cast hN
    linarith
  refine run_returns hp (by omega) hN hT h hf fun s hL => ?_
  have hgrid : OnGrid { s with tCurr := s.tPrev + s.dt } fun j => s.oldPrices.getD j 0 :=
    ⟨hL.grid.two, hL.grid.dx2, hL.grid.xs, hL.grid.old, hL.grid.new, hL.grid.bb⟩
  obtain ⟨x, hx, hl⟩ := hret (matI q { s with tCurr := s.tPrev + s.dt })
    (vec (s.J - 2) (rhsI q { s with tCurr := s.tPrev + s.dt } (fun j => s.oldPrices.getD j 0) (q.left (s.tPrev + s.dt) 0)
      (q.right (s.tPrev + s.dt) ((s.J - 1 : ℕ) * s.dx)))) (triMat_tridiagonal _ _ _ _)
    (matI_dominant (by dsimp only; rw [hL.dx]; exact div_pos hX hJ1) (by dsimp only; rw [hL.dt]; exact div_pos hT hN1)
      (by dsimp only; rw [hL.nodes, hL.dx]; exact hq)) (by change s.J - 2 = _; rw [hL.nodes]) (by simp [hL.nodes])
  exact ⟨_, step_of_march ((march_implicit solver hp hgrid).1 x hx (by rw [hl, ← hL.nodes]))⟩

/-- A sound solver for the examples: the Thomas algorithm with a check of its result. -/
noncomputable def checkedThomas : MatrixSolver ℝ := fun A b =>
  match thomas A b with
  | .ok x => open Classical in if Solves A b x then .ok x else runtimeErr "not solved"
  | .throw e => .throw e
  | .ub => .ub

theorem checkedThomas_sound : SoundSolver checkedThomas := by
  intro A b x h
  unfold checkedThomas at h
  split at h
  · split at h
    · rename_i h'; cases h; exact h'
    · cases h
  · cases h
  · cases h

theorem checkedThomas_returns {A : Mat ℝ} {b : List ℝ} {n : ℕ} (h2 : 2 ≤ n) (hm : n - 2 ≤ INT_MAX) (hA : Tridiagonal A)
    (hd : StrictlyDominant A) (hr : A.rows = n) (hb : b.length = n) : ∃ x, checkedThomas A b = .ok x ∧ x.length = n := by
  obtain ⟨x, hx, hl⟩ := thomas_returns h2 hm hr (hA.1 ▸ hr) hb
  refine ⟨x, ?_, hl⟩
  unfold checkedThomas
  rw [hx]
  dsimp only
  rw [if_pos (thomas_dominant.solves A b x hA hd (by rw [hb, hr]) hx)]

end Fdm

/-- **C55.** When `EulerImplicitFDM::solve()` with a sound linear solver returns, it returns the last of `N`
time levels.  The first level is the initial condition; every further level has the boundary values
prescribed for its time and satisfies the backward-time central-space scheme at all inner nodes. -/
theorem C55_scheme (solver : MatrixSolver ℝ) (hsolver : SoundSolver solver) (p : Pde ℝ) (q : Problem) (hp : Describes p q)
    (xDom tDom : ℝ) (J N : ℕ) (junk : ℕ → ℝ) (hJ : 2 ≤ J) (hN : 2 ≤ N) (hX : 0 < xDom) (hT : 0 < tDom) (s : Fdm ℝ)
    (hs : construct (.implicit solver) xDom J tDom N p junk = .ok s) (fuel : ℕ) (hf : N ≤ fuel) (v : List ℝ)
    (hv : (solve (.implicit solver) p fuel s).1 = .ok v) : ∃ u : ℕ → ℕ → ℝ, v = (List.range J).map (u (N - 1)) ∧
      (∀ j < J, u 0 j = q.initial (j * (xDom / (J - 1)))) ∧
      ∀ n < N - 1, BackwardEuler q J (xDom / (J - 1)) (tDom / (N - 1)) (n * (tDom / (N - 1))) (u n) (u (n + 1)) ∧
        BoundaryAt q J xDom (n * (tDom / (N - 1)) + tDom / (N - 1)) (u (n + 1)) := by
  rcases hx : solve (.implicit solver) p fuel s with ⟨r, s'⟩
  rw [hx] at hv
  dsimp only at hv
  subst hv
  exact implicit_run hp hJ hN hX hT hs hf hx fun _ _ _ _ b x _ h => hsolver _ b x h

example : ∃ s, construct (.implicit checkedThomas) 2 5 1 3 (BlackScholes.pde (exampleOption .call) exampleMarket) (fun _ => 0) = .ok s ∧
    ∃ u : ℕ → ℕ → ℝ, (solve (.implicit checkedThomas) (BlackScholes.pde (exampleOption .call) exampleMarket) 3 s).1 =
      .ok ((List.range 5).map (u 2)) ∧ u 2 4 = 1 := by
  obtain ⟨s, hs⟩ := construct_returns (xDom := 2) (tDom := 1) (N := 3) (J := 5) example_call (fun _ => 0) (by norm_num) (by decide)
    (.implicit checkedThomas)
  obtain ⟨v, s', hv⟩ := implicit_returns example_call (fuel := 3) (by norm_num) (by norm_num) two_pos one_pos
    (call_dominates (by norm_num) zero_le_one _ (by norm_num)) hs le_rfl
    fun A b hA hd hr hb => checkedThomas_returns (by norm_num) (by decide) hA hd hr hb
  obtain ⟨u, e, -, hu⟩ := C55_scheme _ checkedThomas_sound _ _ example_call 2 1 5 3 _ (by norm_num) (by norm_num) two_pos one_pos s hs 3
    le_rfl v (by rw [hv])
  refine ⟨s, hs, u, by rw [hv, e], ?_⟩
  have := (hu 1 (by norm_num)).2.2
  norm_num [callProblem] at this
  exact this

/-- **C55.** With the Thomas algorithm, and where the diffusion dominates the convection on the grid,
`EulerImplicitFDM::solve()` does return, with the same guarantee. -/
theorem C55_thomas (p : Pde ℝ) (q : Problem) (hp : Describes p q) (xDom tDom : ℝ) (J N : ℕ) (junk : ℕ → ℝ) (hJ : 4 ≤ J)
    (hm : J ≤ 2 ^ 31) (hN : 2 ≤ N) (hX : 0 < xDom) (hT : 0 < tDom) (hq : DiffusionDominates q J (xDom / (J - 1))) :
    ∃ s, construct (.implicit thomas) xDom J tDom N p junk = .ok s ∧ ∀ fuel, N ≤ fuel → ∃ u : ℕ → ℕ → ℝ,
      (solve (.implicit thomas) p fuel s).1 = .ok ((List.range J).map (u (N - 1))) ∧
      (∀ j < J, u 0 j = q.initial (j * (xDom / (J - 1)))) ∧
      ∀ n < N - 1, BackwardEuler q J (xDom / (J - 1)) (tDom / (N - 1)) (n * (tDom / (N - 1))) (u n) (u (n + 1)) ∧
        BoundaryAt q J xDom (n * (tDom / (N - 1)) + tDom / (N - 1)) (u (n + 1)) := by
  have hJ1 : (0 : ℝ) < J - 1 := by
    have : (4 : ℝ) ≤ J := by exact_mod_cast hJ
    linarith
  have hN1 : (0 : ℝ) < N - 1 := by
    have : (2 : ℝ) ≤ N := by exact_mod_cast hN
    linarith
  obtain ⟨s, hs⟩ := construct_returns (xDom := xDom) (tDom := tDom) (N := N) hp junk (show 2 ≤ J by omega)
    (by unfold INT_MAX; omega) (.implicit thomas)
  refine ⟨s, hs, fun fuel hf => ?_⟩
  obtain ⟨v, s', hv⟩ := implicit_returns hp (by omega) hN hX hT hq hs hf fun A b hA _ hr hb => by
    obtain ⟨x, hx, hl⟩ := thomas_returns (n := J - 2) (by omega) (by unfold INT_MAX; omega) hr (hA.1 ▸ hr) hb
    exact ⟨x, hx, hl⟩
  obtain ⟨u, e, h⟩ := implicit_run hp (by omega) hN hX hT hs hf hv (by
    intro s h1 h2 h3 b x hb h
    refine thomas_dominant.solves _ _ _ (triMat_tridiagonal _ _ _ _) (matI_dominant ?_ ?_ ?_) ?_ h
    · rw [h2]; exact div_pos hX hJ1
    · rw [h3]; exact div_pos hT hN1
    · rw [h1, h2]; exact hq
    · change _ = s.J - 2; rw [hb, h1])
  exact ⟨u, by rw [hv, e], h⟩

example : ∃ s, construct (.implicit thomas) 2 5 1 3 (BlackScholes.pde (exampleOption .put) exampleMarket) (fun _ => 0) = .ok s ∧
    (solve (.implicit thomas) (BlackScholes.pde (exampleOption .put) exampleMarket) 3 s).1.IsOk := by
  obtain ⟨s, hs, h⟩ := C55_thomas _ _ example_put 2 1 5 3 (fun _ => 0) (by norm_num) (by norm_num) (by norm_num) two_pos one_pos
    (put_dominates (by norm_num) zero_le_one _ (by norm_num))
  obtain ⟨u, hu, -⟩ := h 3 le_rfl
  exact ⟨s, hs, by rw [hu]; exact ⟨_, rfl⟩⟩

/-! ## C56: Crank-Nicolson -/

namespace Fdm

theorem around_withoutEnds {J : ℕ} {u : ℕ → ℝ} : around J 0 0 u = withoutEnds J u := by
  funext j
  unfold around withoutEnds
  split
  · rfl
  · simp

theorem cn_run {solver : MatrixSolver ℝ} (hsolver : DominantSolver solver) {p : Pde ℝ} {q : Problem} (hp : Describes p q)
    {xDom tDom : ℝ} {J N : ℕ} {junk : ℕ → ℝ} {s : Fdm ℝ} (hJ : 3 ≤ J) (hN : 2 ≤ N) (hX : 0 < xDom) (hT : 0 < tDom)
    (hq : DiffusionDominates q J (xDom / (J - 1)))
    (h : construct (.crankNicolson solver) xDom J tDom N p junk = .ok s) {fuel : ℕ} (hf : N ≤ fuel) {v : List ℝ} {s' : Fdm ℝ}
    (hs : solve (.crankNicolson solver) p fuel s = (.ok v, s')) :
    ∃ u : ℕ → ℕ → ℝ, v = (List.range J).map (u (N - 1)) ∧ (∀ j < J, u 0 j = q.initial (j * (xDom / (J - 1)))) ∧
      ∀ n < N - 1,
        (∀ j, 1 ≤ j → j + 1 < J → (u (n + 1) j - u n j) / (tDom / (N - 1)) =
          1 / 2 * central q (xDom / (J - 1)) (n * (tDom / (N - 1))) (withoutEnds J (u n)) j +
          1 / 2 * central q (xDom / (J - 1)) (n * (tDom / (N - 1)) + tDom / (N - 1)) (u (n + 1)) j) ∧
        BoundaryAt q J xDom (n * (tDom / (N - 1)) + tDom / (N - 1)) (u (n + 1)) := by
  have hJ1 : (0 : ℝ) < J - 1 := by
    have : (3 : ℝ) ≤ J := by exact_mod_cast hJ
    linarith
  have hN1 : (0 : ℝ) < N - 1 := by
    have : (2 : ℝ) ≤ N := by exact_mod_cast hN
    linarith
  refine run_levels hp (by omega) hN hT h hf hs
    (P := fun t a b => (∀ j, 1 ≤ j → j + 1 < J → (b j - a j) / (tDom / (N - 1)) =
          1 / 2 * central q (xDom / (J - 1)) t (withoutEnds J a) j +
          1 / 2 * central q (xDom / (J - 1)) (t + tDom / (N - 1)) b j) ∧
        BoundaryAt q J xDom (t + tDom / (N - 1)) b) ?_
  intro s s' hL hst
  have hgrid : OnGrid { s with tCurr := s.tPrev + s.dt } fun j => s.oldPrices.getD j 0 :=
    ⟨hL.grid.two, hL.grid.dx2, hL.grid.xs, hL.grid.old, hL.grid.new, hL.grid.bb⟩
  obtain ⟨w, c, hm, -⟩ := step_ok hst
  obtain ⟨sol, hsol, hlen, e⟩ := march_cn solver hsolver.size hp hgrid (by change 3 ≤ s.J; rw [hL.nodes]; exact hJ) hm
  rw [e] at hm
  have hdx : 0 < s.dx := by rw [hL.dx]; exact div_pos hX hJ1
  have hdt : 0 < s.dt := by rw [hL.dt]; exact div_pos hT hN1
  have hS := hsolver.solves _ _ _ (triMat_tridiagonal _ _ _ _)
    (matC_dominant (s := { s with tCurr := s.tPrev + s.dt }) hdx hdt (by
      change DiffusionDominates q s.J s.dx; rw [hL.nodes, hL.dx]; exact hq)) (vec_length _ _) hsol
  have ho : ∀ j < J, s'.oldPrices.getD j 0 = _ := fun j hj => step_old hm hst (by rw [← hL.nodes] at hj; exact hj)
  refine ⟨fun j h1 h2 => ?_, ?_, ?_⟩
  · have hJs : j + 1 < s.J := by rw [hL.nodes]; exact h2
    have key := cn_scheme (w := around s.J (q.left (s.tPrev + s.dt) 0) (q.right (s.tPrev + s.dt) ((s.J - 1 : ℕ) * s.dx)) (fun k => sol.getD (k - 1) 0))
      (z := around s.J 0 0 fun j => s.oldPrices.getD j 0) (s := { s with tCurr := s.tPrev + s.dt }) hdt.ne' hdx.ne' (cn_rows hS h1 hJs)
    rw [around_inner (w := fun j => s.oldPrices.getD j 0) h1 hJs, around_withoutEnds] at key
    dsimp only at key ho ⊢
    rw [← hL.dt, ← hL.dx, ← hL.nodes]
    unfold central at key ⊢
    dsimp only
    rw [ho j (by omega), ho (j - 1) (by omega), ho (j + 1) (by omega)]
    exact key
  · dsimp only at ho ⊢
    rw [ho 0 (by omega), around_zero hL.grid.two, hL.dt]
  · dsimp only at ho ⊢
    rw [ho (J - 1) (by omega), ← hL.nodes, around_last, hL.dx, hL.nodes, last_node (by omega), hL.dt]

/-- With the Thomas algorithm Crank-Nicolson returns. -/
theorem cn_thomas_returns {p : Pde ℝ} {q : Problem} (hp : Describes p q) {xDom tDom : ℝ} {J N : ℕ} {junk : ℕ → ℝ} {s : Fdm ℝ} (hJ : 4 ≤ J)
    (hm : J ≤ 2 ^ 31) (hN : 2 ≤ N) (hT : 0 < tDom)
    (h : construct (.crankNicolson thomas) xDom J tDom N p junk = .ok s) {fuel : ℕ} (hf : N ≤ fuel) :
    ∃ v s', solve (.crankNicolson thomas) p fuel s = (.ok v, s') := by
  refine run_returns hp (by omega) hN hT h hf fun s hL => ?_
  have hgrid : OnGrid { s with tCurr := s.tPrev + s.dt } fun j => s.oldPrices.getD j 0 :=
    ⟨hL.grid.two, hL.grid.dx2, hL.grid.xs, hL.grid.old, hL.grid.new, hL.grid.bb⟩
  obtain ⟨g, c, -, -, -, e⟩ := march_cn_start thomas hp hgrid
  obtain ⟨s', hs'⟩ := cnLoop_returns thomas thomas_dominant.size (s := { s with tCurr := s.tPrev + s.dt }) (by
    intro A b h1 h2 h3
    dsimp only at h1 h2 h3
    obtain ⟨x, hx, -⟩ := thomas_returns (n := J - 2) (A := A) (b := b) (by omega) (by unfold INT_MAX; omega)
      (by rw [h1, hL.nodes]) (by rw [h2, hL.nodes]) (by rw [h3, hL.nodes])
    exact ⟨x, hx⟩) hp hgrid (s.J - 2) 0 g c (by simp)
  exact ⟨_, step_of_march (e.trans hs')⟩

end Fdm

/-- **C56 (partial).** `CrankNicolsonFDMSolver::solve()` with the Thomas algorithm returns the last of `N` time
levels, where the diffusion dominates the convection on the grid.  The first level is the initial
condition; every further level has the boundary values prescribed for its time and satisfies, at every
inner node, the Crank-Nicolson equation in which the boundary values of the *previous* level are
replaced by 0.  So away from the nodes next to the boundary this is the Crank-Nicolson scheme; missing
(see `C56_fails`): the terms of the previous boundary values in the equations of the first and last
inner node. -/
theorem C56_partial (p : Pde ℝ) (q : Problem) (hp : Describes p q) (xDom tDom : ℝ) (J N : ℕ) (junk : ℕ → ℝ) (hJ : 4 ≤ J)
    (hm : J ≤ 2 ^ 31) (hN : 2 ≤ N) (hX : 0 < xDom) (hT : 0 < tDom) (hq : DiffusionDominates q J (xDom / (J - 1))) :
    ∃ s, construct (.crankNicolson thomas) xDom J tDom N p junk = .ok s ∧ ∀ fuel, N ≤ fuel → ∃ u : ℕ → ℕ → ℝ,
      (solve (.crankNicolson thomas) p fuel s).1 = .ok ((List.range J).map (u (N - 1))) ∧
      (∀ j < J, u 0 j = q.initial (j * (xDom / (J - 1)))) ∧
      ∀ n < N - 1,
        (∀ j, 1 ≤ j → j + 1 < J → (u (n + 1) j - u n j) / (tDom / (N - 1)) =
          1 / 2 * central q (xDom / (J - 1)) (n * (tDom / (N - 1))) (withoutEnds J (u n)) j +
          1 / 2 * central q (xDom / (J - 1)) (n * (tDom / (N - 1)) + tDom / (N - 1)) (u (n + 1)) j) ∧
        BoundaryAt q J xDom (n * (tDom / (N - 1)) + tDom / (N - 1)) (u (n + 1)) := by
  obtain ⟨s, hs⟩ := construct_returns (xDom := xDom) (tDom := tDom) (N := N) hp junk (show 2 ≤ J by omega)
    (by unfold INT_MAX; omega) (.crankNicolson thomas)
  refine ⟨s, hs, fun fuel hf => ?_⟩
  obtain ⟨v, s', hv⟩ := cn_thomas_returns hp hJ hm hN hT hs hf
  obtain ⟨u, e, h⟩ := cn_run thomas_dominant hp (by omega) hN hX hT hq hs hf hv
  exact ⟨u, by rw [hv, e], h⟩

example : ∃ s, construct (.crankNicolson thomas) 2 5 1 3 (BlackScholes.pde (exampleOption .put) exampleMarket) (fun _ => 0) = .ok s ∧
    (solve (.crankNicolson thomas) (BlackScholes.pde (exampleOption .put) exampleMarket) 3 s).1.IsOk := by
  obtain ⟨s, hs, h⟩ := C56_partial _ _ example_put 2 1 5 3 (fun _ => 0) (by norm_num) (by norm_num) (by norm_num) two_pos one_pos
    (put_dominates (by norm_num) zero_le_one _ (by norm_num))
  obtain ⟨u, hu, -⟩ := h 3 le_rfl
  exact ⟨s, hs, by rw [hu]; exact ⟨_, rfl⟩⟩

/-- **C56 (partial).** The same for every other linear solver that is right on strictly dominant tridiagonal
systems, when `solve()` returns. -/
theorem C56_anySolver_partial (solver : MatrixSolver ℝ) (hsolver : DominantSolver solver) (p : Pde ℝ) (q : Problem) (hp : Describes p q)
    (xDom tDom : ℝ) (J N : ℕ) (junk : ℕ → ℝ) (hJ : 3 ≤ J) (hN : 2 ≤ N) (hX : 0 < xDom) (hT : 0 < tDom)
    (hq : DiffusionDominates q J (xDom / (J - 1))) (s : Fdm ℝ)
    (hs : construct (.crankNicolson solver) xDom J tDom N p junk = .ok s) (fuel : ℕ) (hf : N ≤ fuel) (v : List ℝ)
    (hv : (solve (.crankNicolson solver) p fuel s).1 = .ok v) : ∃ u : ℕ → ℕ → ℝ, v = (List.range J).map (u (N - 1)) ∧
      (∀ j < J, u 0 j = q.initial (j * (xDom / (J - 1)))) ∧
      ∀ n < N - 1,
        (∀ j, 1 ≤ j → j + 1 < J → (u (n + 1) j - u n j) / (tDom / (N - 1)) =
          1 / 2 * central q (xDom / (J - 1)) (n * (tDom / (N - 1))) (withoutEnds J (u n)) j +
          1 / 2 * central q (xDom / (J - 1)) (n * (tDom / (N - 1)) + tDom / (N - 1)) (u (n + 1)) j) ∧
        BoundaryAt q J xDom (n * (tDom / (N - 1)) + tDom / (N - 1)) (u (n + 1)) := by
  rcases hx : solve (.crankNicolson solver) p fuel s with ⟨r, s'⟩
  rw [hx] at hv
  dsimp only at hv
  subst hv
  exact cn_run hsolver hp hJ hN hX hT hq hs hf hx

example : ∃ s, construct (.crankNicolson thomas) 2 5 1 3 (BlackScholes.pde (exampleOption .call) exampleMarket) (fun _ => 0) = .ok s ∧
    ∃ u : ℕ → ℕ → ℝ, (solve (.crankNicolson thomas) (BlackScholes.pde (exampleOption .call) exampleMarket) 3 s).1 =
      .ok ((List.range 5).map (u 2)) ∧ u 2 4 = 1 := by
  obtain ⟨s, hs⟩ := construct_returns (xDom := 2) (tDom := 1) (N := 3) (J := 5) example_call (fun _ => 0) (by norm_num) (by decide)
    (.crankNicolson thomas)
  obtain ⟨v, s', hv⟩ := cn_thomas_returns example_call (fuel := 3) (by norm_num) (by norm_num) (by norm_num) one_pos hs le_rfl
  obtain ⟨u, e, -, hu⟩ := C56_anySolver_partial _ thomas_dominant _ _ example_call 2 1 5 3 _ (by norm_num) (by norm_num) two_pos one_pos
    (call_dominates (by norm_num) zero_le_one _ (by norm_num)) s hs 3 le_rfl v (by rw [hv])
  refine ⟨s, hs, u, by rw [hv, e], ?_⟩
  have := (hu 1 (by norm_num)).2.2
  norm_num [callProblem] at this
  exact this

/-- **C56 fails.** With two time levels (`N = 2`), at least three inner nodes and a previous left boundary
value that the scheme weighs with a nonzero factor, the vector returned by `solve()` is *not* the
Crank-Nicolson step from the initial condition. -/
theorem C56_fails (p : Pde ℝ) (q : Problem) (hp : Describes p q) (xDom tDom : ℝ) (J : ℕ) (junk : ℕ → ℝ) (hJ : 5 ≤ J)
    (hm : J ≤ 2 ^ 31) (hX : 0 < xDom) (hT : 0 < tDom) (hq : DiffusionDominates q J (xDom / (J - 1)))
    (hw : (q.D 0 (xDom / (J - 1)) / (xDom / (J - 1)) ^ 2 - q.C 0 (xDom / (J - 1)) / (2 * (xDom / (J - 1)))) * q.initial 0 ≠ 0) :
    ∃ s v, construct (.crankNicolson thomas) xDom J tDom 2 p junk = .ok s ∧
      (∀ fuel, 2 ≤ fuel → (solve (.crankNicolson thomas) p fuel s).1 = .ok v) ∧
      ¬ CrankNicolson q J (xDom / (J - 1)) tDom 0 (fun j => q.initial (j * (xDom / (J - 1)))) (entry v) := by
  obtain ⟨s, hs, h⟩ := C56_partial p q hp xDom tDom J 2 junk (by omega) hm le_rfl hX hT hq
  obtain ⟨u, hu, h0, hn⟩ := h 2 le_rfl
  refine ⟨s, (List.range J).map (u 1), hs, ?_, ?_⟩
  · intro fuel hf
    obtain ⟨v, s', hv⟩ := cn_thomas_returns hp (by omega) hm le_rfl hT hs (fuel := 2) le_rfl
    obtain ⟨st, a0, a1, -, -, e, -⟩ := C53_steps _ p xDom tDom J 2 junk s (by omega) le_rfl hT hs 2 le_rfl v s' hv
    have := C53_returns _ p xDom tDom J 2 junk s (by omega) le_rfl hT hs fuel hf st a0 a1
    rw [this]
    rw [hv] at hu
    dsimp only at hu ⊢
    rw [← e]
    exact hu
  · intro hc
    have h1 := hc 1 le_rfl (by omega)
    have h2 := (hn 0 (by omega)).1 1 le_rfl (by omega)
    have e1 : ∀ j < J, entry ((List.range J).map (u 1)) j = u 1 j := fun j hj => vec_getD 0 (u 1) hj
    unfold central at h1 h2
    simp only [e1 1 (by omega), e1 2 (by omega), e1 0 (by omega), Nat.cast_zero, zero_mul, zero_add, Nat.cast_ofNat, Nat.cast_one,
      one_mul, Nat.sub_self, h0 1 (by omega), h0 2 (by omega), withoutEnds, show 1 + 1 = 2 from rfl,
      if_pos (show 1 ≤ 1 ∧ 2 < J by omega), if_pos (show 1 ≤ 2 ∧ 2 + 1 < J by omega), if_neg (show ¬ (1 ≤ 0 ∧ 1 < J) by omega),
      show (2 : ℝ) - 1 = 1 by norm_num, div_one] at h1 h2
    apply hw
    linear_combination 2 * h2 - 2 * h1

/-- A put with `r = 1/2`: the missing term is `(σ² - r)/2 · K = 1/4`. -/
example : ∃ s v, construct (.crankNicolson thomas) 2 5 1 2 (BlackScholes.pde (exampleOption .put) { exampleMarket with r := 1 / 2 })
      (fun _ => 0) = .ok s ∧
    (∀ fuel, 2 ≤ fuel → (solve (.crankNicolson thomas) (BlackScholes.pde (exampleOption .put) { exampleMarket with r := 1 / 2 }) fuel s).1
      = .ok v) ∧
    ¬ CrankNicolson (putProblem 1 (1 / 2) 0 1) 5 (2 / ((5 : ℕ) - 1)) 1 0 (fun j => (putProblem 1 (1 / 2) 0 1).initial (j * (2 / ((5 : ℕ) - 1))))
      (entry v) := by
  have hp : Describes (BlackScholes.pde (exampleOption .put) { exampleMarket with r := 1 / 2 }) (putProblem 1 (1 / 2) 0 1) :=
    put_describes (m := { exampleMarket with r := 1 / 2 }) (d := ⟨1, 1, none⟩) rfl rfl
  refine C56_fails _ _ hp 2 1 5 (fun _ => 0) (by norm_num) (by norm_num) two_pos one_pos (put_dominates ?_ ?_ _ (by norm_num)) ?_
  · rw [abs_of_pos] <;> norm_num
  · norm_num
  · norm_num [putProblem]

/-! ## C57: Crank-Nicolson with the default solver -/

namespace Fdm

/-- The first iteration already throws. -/
theorem march_cn_throws {solver : MatrixSolver ℝ} (hsolver : RejectsZeroRows solver) {p : Pde ℝ} {q : Problem} {s : Fdm ℝ} {u : ℕ → ℝ}
    (hp : Describes p q) (hs : OnGrid s u) (hJ : 4 ≤ s.J) :
    ∃ e c g, march (.crankNicolson solver) p s = (.throw e, { s with newPrices := vec s.J g, b := c }) ∧ e.kind = .runtimeError ∧
      g 0 = q.left s.tCurr 0 ∧ g (s.J - 1) = q.right s.tCurr ((s.J - 1 : ℕ) * s.dx) ∧ ∀ i, 0 < i → i < s.J - 1 → g i = s.newPrices.getD i 0 := by
  obtain ⟨g, c, g0, gJ, gi, e⟩ := march_cn_start solver hp hs
  obtain ⟨n, hn⟩ : ∃ n, s.J - 2 = n + 1 := ⟨s.J - 3, by omega⟩
  have it := cnIteration_eq solver hsolver.size hp hs (g := g) (c := c) (m := 0) (by omega)
  dsimp only at it
  obtain ⟨msg, hr⟩ := hsolver.rejects ⟨s.J - 2, s.J - 2, Mat.tripletValue (vec (0 + 1) (rowC q s)).flatten⟩
    (vec (s.J - 2) fun i => if i = 0 then rhsC q s u (g 0) (g (s.J - 1)) 0 else c i) 1 (by dsimp only; omega) (by
      intro k hk
      dsimp only at hk ⊢
      have := tripletValue_rows (J := s.J) (m := 1) (fun i => lowerC q s (i + 1)) (fun i => diagC q s (i + 1)) (fun i => upperC q s (i + 1))
        (i := 1) hk (by omega)
      rw [if_neg (by omega)] at this
      exact this)
  rw [hr] at it
  refine ⟨⟨.runtimeError, msg⟩, vec (s.J - 2) fun i => if i = 0 then rhsC q s u (g 0) (g (s.J - 1)) 0 else c i, g, ?_, rfl, g0, gJ, gi⟩
  rw [e, show cnLoop solver p (s.J - 2) = cnLoop solver p (n + 1) by rw [hn], cnLoop]
  exact Eff.bind_of_throw it

/-- An exception in the first step ends `solve()`. -/
theorem solve_of_throw {sc : Scheme ℝ} {p : Pde ℝ} {s s' : Fdm ℝ} {e : Exc} (h : march sc p { s with tCurr := s.tPrev + s.dt } = (.throw e, s'))
    (hlt : s.tCurr < s.tDom) {fuel : ℕ} (hf : 1 ≤ fuel) : solve sc p fuel s = (.throw e, s') := by
  obtain ⟨f, rfl⟩ : ∃ f, fuel = f + 1 := ⟨fuel - 1, by omega⟩
  have hstep : step sc p s = (.throw e, s') := by
    unfold step
    rw [Eff.bind_of_ok (Eff.modify_apply _ _)]
    exact Eff.bind_of_throw h
  have hloop : timeLoop sc p (f + 1) s = (.throw e, s') := by
    rw [timeLoop, Eff.withState_apply, if_pos (by simpa using hlt)]
    exact Eff.bind_of_throw hstep
  unfold solve
  exact Eff.bind_of_throw hloop

/-- `solve()` with the end time already reached. -/
theorem solve_at_end {sc : Scheme ℝ} {p : Pde ℝ} {s : Fdm ℝ} (hlt : s.tDom ≤ s.tCurr) {fuel : ℕ} (hf : 1 ≤ fuel) :
    solve sc p fuel s = (.ok s.newPrices, { s with solved := true }) := by
  obtain ⟨f, rfl⟩ : ∃ f, fuel = f + 1 := ⟨fuel - 1, by omega⟩
  have hloop : timeLoop sc p (f + 1) s = (.ok (), s) := by
    rw [timeLoop, Eff.withState_apply, if_neg (by simpa using hlt)]
    rfl
  unfold solve
  rw [Eff.bind_of_ok hloop, Eff.bind_of_ok (Eff.modify_apply _ _), Eff.read_apply]

end Fdm

/-- A solver for the examples: the Thomas algorithm, after a check for zero rows. -/
noncomputable def zeroRowCheck : MatrixSolver ℝ := fun A b =>
  open Classical in
  if ∃ i < A.rows, ∀ j < A.cols, A.coeff i j = 0 then runtimeErr "decomposition failed" else thomas A b

theorem zeroRowCheck_rejects : RejectsZeroRows zeroRowCheck := by
  constructor
  · intro A b x h1 h2 h
    unfold zeroRowCheck at h
    split at h
    · cases h
    · exact thomas_dominant.size A b x h1 h2 h
  · intro A b i hi hz
    unfold zeroRowCheck
    rw [if_pos ⟨i, hi, hz⟩]
    exact ⟨_, rfl⟩

/-- **C57 fails.** With a linear solver that rejects matrices with a zero row, as the default LU
decomposition does, and at least two inner nodes, `CrankNicolsonFDMSolver::solve()` throws
`runtime_error` for every problem and every number of time steps. -/
theorem C57_fails (solver : MatrixSolver ℝ) (hsolver : RejectsZeroRows solver) (p : Pde ℝ) (q : Problem) (hp : Describes p q)
    (xDom tDom : ℝ) (J N : ℕ) (junk : ℕ → ℝ) (hJ : 4 ≤ J) (hN : 2 ≤ N) (hT : 0 < tDom) (s : Fdm ℝ)
    (hs : construct (.crankNicolson solver) xDom J tDom N p junk = .ok s) (fuel : ℕ) (hf : N ≤ fuel) :
    (solve (.crankNicolson solver) p fuel s).1.Throws .runtimeError := by
  obtain ⟨hL, -⟩ := levels_construct hp hs (by omega) hN
  have hgrid : OnGrid { s with tCurr := s.tPrev + s.dt } fun j => s.oldPrices.getD j 0 :=
    ⟨hL.grid.two, hL.grid.dx2, hL.grid.xs, hL.grid.old, hL.grid.new, hL.grid.bb⟩
  obtain ⟨e, c, g, hm, he, -⟩ := march_cn_throws hsolver hp hgrid (by change 4 ≤ s.J; rw [hL.nodes]; exact hJ)
  have hlt : s.tCurr < s.tDom := by
    obtain ⟨old, -, -, rfl⟩ := construct_ok hs (by omega) hN
    exact hT
  rw [solve_of_throw hm hlt (by omega)]
  exact ⟨e.msg, by rw [← he]⟩

example : ∃ s, construct (.crankNicolson zeroRowCheck) 2 5 1 3 (BlackScholes.pde (exampleOption .call) exampleMarket) (fun _ => 0) = .ok s ∧
    (solve (.crankNicolson zeroRowCheck) (BlackScholes.pde (exampleOption .call) exampleMarket) 3 s).1.Throws .runtimeError := by
  obtain ⟨s, hs⟩ := construct_returns (xDom := 2) (tDom := 1) (N := 3) (J := 5) example_call (fun _ => 0) (by norm_num) (by decide)
    (.crankNicolson zeroRowCheck)
  exact ⟨s, hs, C57_fails _ zeroRowCheck_rejects _ _ example_call 2 1 5 3 _ (by norm_num) (by norm_num) one_pos s hs 3 le_rfl⟩

/-- **C57 fails, and worse.** With one time step (`N = 2`) a caller who catches the exception and calls
`solve()` again gets a normal return, without any error: the boundary values around zeros, whatever the
problem.  (`tCurr` has already reached `tDom`.) -/
theorem C57_retry_fails (solver : MatrixSolver ℝ) (hsolver : RejectsZeroRows solver) (p : Pde ℝ) (q : Problem) (hp : Describes p q)
    (xDom tDom : ℝ) (J : ℕ) (junk : ℕ → ℝ) (hJ : 4 ≤ J) (hT : 0 < tDom) (s : Fdm ℝ)
    (hs : construct (.crankNicolson solver) xDom J tDom 2 p junk = .ok s) (fuel : ℕ) (hf : 2 ≤ fuel) :
    (solve (.crankNicolson solver) p fuel s).1.Throws .runtimeError ∧
      (solve (.crankNicolson solver) p fuel (solve (.crankNicolson solver) p fuel s).2).1 =
        .ok ((List.range J).map fun j => if j = 0 then q.left tDom 0 else if j = J - 1 then q.right tDom xDom else 0) := by
  have hthrow := C57_fails solver hsolver p q hp xDom tDom J 2 junk hJ le_rfl hT s hs fuel hf
  obtain ⟨hL, -⟩ := levels_construct hp hs (by omega) le_rfl
  have hgrid : OnGrid { s with tCurr := s.tPrev + s.dt } fun j => s.oldPrices.getD j 0 :=
    ⟨hL.grid.two, hL.grid.dx2, hL.grid.xs, hL.grid.old, hL.grid.new, hL.grid.bb⟩
  obtain ⟨e, c, g, hm, he, g0, gJ, gi⟩ := march_cn_throws hsolver hp hgrid (by change 4 ≤ s.J; rw [hL.nodes]; exact hJ)
  obtain ⟨old, -, -, rfl⟩ := construct_ok hs (by omega) le_rfl
  have hdt : (tDom : ℝ) / ((2 : ℕ) - 1) = tDom := by norm_num
  refine ⟨hthrow, ?_⟩
  rw [solve_of_throw hm hT (by omega), solve_at_end _ (by omega)]
  · dsimp only at g0 gJ gi ⊢
    rw [hdt, zero_add] at g0 gJ
    rw [last_node (by omega)] at gJ
    congr 1
    refine vec_congr fun j hj => ?_
    by_cases h0 : j = 0
    · rw [if_pos h0, h0, g0]
    · rw [if_neg h0]
      by_cases h1 : j = J - 1
      · rw [if_pos h1, h1, gJ]
      · rw [if_neg h1, gi j (by omega) (by omega), vec_getD _ _ hj]
  · dsimp only
    rw [hdt]; simp

/-- A put with strike 1 on the grid 0, 1/2, 1, 3/2, 2: the second call gives `[1, 0, 0, 0, 0]`. -/
example : ∃ s, construct (.crankNicolson zeroRowCheck) 2 5 1 2 (BlackScholes.pde (exampleOption .put) exampleMarket) (fun _ => 0) = .ok s ∧
    (solve (.crankNicolson zeroRowCheck) (BlackScholes.pde (exampleOption .put) exampleMarket) 2
      (solve (.crankNicolson zeroRowCheck) (BlackScholes.pde (exampleOption .put) exampleMarket) 2 s).2).1 = .ok [1, 0, 0, 0, 0] := by
  obtain ⟨s, hs⟩ := construct_returns (xDom := 2) (tDom := 1) (N := 2) (J := 5) example_put (fun _ => 0) (by norm_num) (by decide)
    (.crankNicolson zeroRowCheck)
  refine ⟨s, hs, ?_⟩
  rw [(C57_retry_fails _ zeroRowCheck_rejects _ _ example_put 2 1 5 _ (by norm_num) one_pos s hs 2 le_rfl).2]
  simp [List.range_succ, putProblem]

/-- **C57 (partial).** Crank-Nicolson completes its time steps with the Thomas algorithm instead of the
default. -/
theorem C57_partial (p : Pde ℝ) (q : Problem) (hp : Describes p q) (xDom tDom : ℝ) (J N : ℕ) (junk : ℕ → ℝ) (hJ : 4 ≤ J)
    (hm : J ≤ 2 ^ 31) (hN : 2 ≤ N) (hT : 0 < tDom) :
    ∃ s, construct (.crankNicolson thomas) xDom J tDom N p junk = .ok s ∧ ∀ fuel, N ≤ fuel →
      (solve (.crankNicolson thomas) p fuel s).1.IsOk := by
  obtain ⟨s, hs⟩ := construct_returns (xDom := xDom) (tDom := tDom) (N := N) hp junk (show 2 ≤ J by omega)
    (by unfold INT_MAX; omega) (.crankNicolson thomas)
  refine ⟨s, hs, fun fuel hf => ?_⟩
  obtain ⟨v, s', hv⟩ := cn_thomas_returns hp hJ hm hN hT hs hf
  exact ⟨v, by rw [hv]⟩

example : ∃ s, construct (.crankNicolson thomas) 2 5 1 3 (BlackScholes.pde (exampleOption .call) exampleMarket) (fun _ => 0) = .ok s ∧
    (solve (.crankNicolson thomas) (BlackScholes.pde (exampleOption .call) exampleMarket) 3 s).1.IsOk := by
  obtain ⟨s, hs, h⟩ := C57_partial _ _ example_call 2 1 5 3 (fun _ => 0) (by norm_num) (by norm_num) (by norm_num) one_pos
  exact ⟨s, hs, h 3 le_rfl⟩

end Verif
