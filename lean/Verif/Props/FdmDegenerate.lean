import Verif.Props.FdmFailure

/-!
# Property C87: grids with fewer than two nodes or time levels
-/

set_option exponentiation.threshold 3000

namespace Verif
open Spec Fdm

section
variable {F : Type} [Fl F] [Add F] [Sub F] [Mul F] [Div F] [Neg F]

/-- **C87 fails (no nodes).** In every arithmetic and for every PDE: explicit Euler accepts `J = 0`, and `solve()` then reads the first
element of an empty vector: undefined behaviour. -/
theorem C87_noNodes_fails (p : Pde F) (xDom tDom : F) (N : ℕ) (junk : ℕ → F) (hT : Fl.lt (lit 0) tDom = true) (fuel : ℕ) (hf : 1 ≤ fuel) :
    ∃ s, construct .explicit xDom 0 tDom N p junk = .ok s ∧ (solve .explicit p fuel s).1 = .ub := by
  obtain ⟨f, rfl⟩ : ∃ f, fuel = f + 1 := ⟨fuel - 1, by omega⟩
  have hstep : ∀ s : Fdm F, s.xValues = [] → step .explicit p s = (.ub, { s with tCurr := s.tPrev + s.dt }) := by
    intro s hx
    unfold step
    rw [Eff.bind_of_ok (Eff.modify_apply _ _)]
    refine Eff.bind_of_ub ?_
    unfold march
    refine Eff.bind_of_ub ?_
    unfold boundary
    refine Eff.bind_of_ub ?_
    unfold storePrice
    simp [hx, vfront]
  have hsolve : ∀ s : Fdm F, s.xValues = [] → Fl.lt s.tCurr s.tDom = true → (solve .explicit p (f + 1) s).1 = .ub := by
    intro s hx hlt
    unfold solve
    rw [Eff.bind_of_ub (s' := { s with tCurr := s.tPrev + s.dt })]
    rw [timeLoop, Eff.withState_apply, if_pos hlt, Eff.bind_of_ub (hstep s hx)]
  exact ⟨_, rfl, hsolve _ rfl hT⟩

/-- **C87 fails (implicit schemes).** The constructors of implicit Euler and Crank-Nicolson do not check the number of nodes either: for
fewer than two nodes they resize a matrix to a negative size, which is undefined behaviour, unless the payoff throws before. -/
theorem C87_implicit_fails (sc : Scheme F) (hsc : sc ≠ .explicit) (p : Pde F) (hp : ∀ x, (p.initialCondition x).IsOk) (xDom tDom : F) (J N : ℕ) (hJ : J < 2)
    (junk : ℕ → F) : construct sc xDom J tDom N p junk = .ub := by
  choose w hw using hp
  have e := each_vec (f := p.initialCondition) (n := J) (g := fun j : ℕ => (lit (j : ℚ) : F) * (xDom / lit (ulpred J : ℚ)))
    (w := fun j => w (lit (j : ℚ) * (xDom / lit (ulpred J : ℚ)))) (fun i _ => hw _)
  unfold construct constructBase
  dsimp only
  unfold vec at e
  rw [e]
  cases sc with
  | explicit => exact absurd rfl hsc
  | implicit solver => simp [hJ]
  | crankNicolson solver => simp [hJ]

namespace Fdm

/-- With one node the right boundary value overwrites the left one. -/
theorem step_one {p : Pde F} {s s' : Fdm F} (hJ : s.J = 1) (hn : s.newPrices.length = 1) (hr : ∀ t x, p.boundaryRight t x = .ok (lit 0))
    (h : step .explicit p s = (.ok (), s')) : s'.newPrices = [lit 0] ∧ s'.J = 1 := by
  obtain ⟨v, c, hm, hv, -, rfl⟩ := step_ok h
  refine ⟨?_, hJ⟩
  show v = _
  unfold march at hm
  obtain ⟨_, s1, hb, hi⟩ := Eff.bind_ok_inv hm
  unfold boundary at hb
  obtain ⟨_, s2, hb1, hb2⟩ := Eff.bind_ok_inv hb
  obtain ⟨v2, c2, rfl, hl2⟩ := (Frame.store _ _).like hb1
  rw [Eff.withState_apply] at hb2
  dsimp only at hl2 hb2
  have hl3 : v2.length = 1 := hl2.trans hn
  rw [hl3] at hb2
  unfold innerExplicit at hi
  rw [Eff.withState_apply] at hi
  have hs1 : s1.J = 1 := by
    obtain ⟨v3, c3, rfl, -⟩ := (Frame.store _ _).like hb2
    exact hJ
  rw [hs1] at hi
  have hi : (Res.ok (), s1) = (Res.ok (), _) := hi
  have e := congrArg Fdm.newPrices (Prod.mk.inj hi).2
  dsimp only at e
  rw [← e]
  obtain ⟨a, rfl⟩ := List.length_eq_one_iff.mp hl3
  unfold storePrice at hb2
  split at hb2
  · rename_i v4 hv4
    obtain ⟨x, hx, hv4⟩ := Res.bind_eq_ok.mp hv4
    obtain ⟨y, -, hx⟩ := Res.bind_eq_ok.mp hx
    rw [hr] at hx
    cases hx
    cases hv4
    cases hb2
    rfl
  · cases hb2
  · cases hb2

end Fdm

/-- **C87 fails (one node).** In every arithmetic: explicit Euler accepts `J = 1`.  For a put (or any PDE whose right boundary value is 0)
the only "price" is then 0, whatever the market data and the strike are. -/
theorem C87_oneNode_fails (p : Pde F) (hr : ∀ t x, p.boundaryRight t x = .ok (lit 0)) (xDom tDom : F) (N : ℕ) (junk : ℕ → F) (s s' : Fdm F) (fuel : ℕ)
    (v : List F) (hc : construct .explicit xDom 1 tDom N p junk = .ok s) (h : solve .explicit p fuel s = (.ok v, s')) : v = [lit 0] := by
  obtain ⟨e1, -, -, e4, -⟩ := construct_eq hc
  have key : ∀ (fuel : ℕ) (s s' : Fdm F), s.J = 1 → s.newPrices = [lit 0] → timeLoop .explicit p fuel s = (.ok (), s') → s'.newPrices = [lit 0] := by
    intro fuel
    induction fuel with
    | zero => intro s s' _ _ h; cases h
    | succ f ih =>
      intro s s' hJ hn h
      rw [timeLoop, Eff.withState_apply] at h
      by_cases hlt : Fl.lt s.tCurr s.tDom = true
      · rw [if_pos hlt] at h
        obtain ⟨_, s1, h1, h2⟩ := Eff.bind_ok_inv h
        obtain ⟨g1, g2⟩ := step_one hJ (by rw [hn]; rfl) hr h1
        exact ih s1 s' g2 g1 h2
      · rw [if_neg hlt] at h
        cases h
        exact hn
  obtain ⟨s1, h1⟩ := solve_loop h
  have := key fuel s s1 e1 (by rw [e4]; rfl) h1
  unfold solve at h
  rw [Eff.bind_of_ok h1, Eff.bind_of_ok (Eff.modify_apply _ _), Eff.read_apply] at h
  cases h
  exact this

end

/-- **C87 fails (one time level).** In double precision, whatever the rounding: with `N = 1` the time step is `T / 0 = ∞`.  For every PDE
without source term (the Black-Scholes equation, say) explicit Euler makes one step, reports success, and returns NaN at every inner node. -/
theorem C87_oneLevel_fails {R : Rounding} (p : Pde (Dbl R)) (hp : Total p) (hf : ∀ t x, p.rightHandSide t x = .ok (lit 0)) (xDom : Dbl R) (T : ℝ) (hT : 0 < T) (J : ℕ)
    (hJ : 2 ≤ J) (junk : ℕ → Dbl R) (fuel : ℕ) (hfuel : 2 ≤ fuel) : ∃ s v s', construct .explicit xDom J (.num T) 1 p junk = .ok s ∧
      solve .explicit p fuel s = (.ok v, s') ∧ ∀ j, 1 ≤ j → j + 1 < J → v[j]? = some .nan := by
  obtain ⟨s, hs, e1, e2, e3, e4⟩ := construct_total hp xDom (.num T) J 1 junk
  obtain ⟨t1, t2, t3, t4⟩ := construct_times hs
  have hdt : s.dt = .num ⊤ := by
    rw [t2]
    have : (lit ((ulpred 1 : ℕ) : ℚ) : Dbl R) = .num 0 := by simp [ulpred]
    rw [this, Dbl.div_num, if_pos rfl, if_neg (by exact_mod_cast hT.ne'), if_pos (by exact_mod_cast hT)]
  have hv : ∀ j, ∀ y, explicitValue p j s = .ok y → y = .nan := by
    intro j y hy
    unfold explicitValue at hy
    obtain ⟨_, -, hy⟩ := Res.bind_eq_ok.mp hy
    obtain ⟨_, -, hy⟩ := Res.bind_eq_ok.mp hy
    obtain ⟨_, -, hy⟩ := Res.bind_eq_ok.mp hy
    obtain ⟨_, -, hy⟩ := Res.bind_eq_ok.mp hy
    obtain ⟨_, -, hy⟩ := Res.bind_eq_ok.mp hy
    obtain ⟨_, -, hy⟩ := Res.bind_eq_ok.mp hy
    obtain ⟨f, hf', hy⟩ := Res.bind_eq_ok.mp hy
    rw [hf] at hf'
    cases hf'
    have hy := Res.ok.inj hy
    rw [hdt, Dbl.lit_zero, Dbl.mul_num, if_pos (by simp), Dbl.sub_nan] at hy
    exact hy.symm
  have ex := eq_vec (lit 0 : Dbl R) s.xValues
  have eo := eq_vec (lit 0 : Dbl R) s.oldPrices
  rw [e2, ← e1] at ex
  rw [e3, ← e1] at eo
  obtain ⟨l, hl⟩ := hp.boundaryLeft s.tPrev (s.xValues.getD 0 (lit 0))
  obtain ⟨r, hr⟩ := hp.boundaryRight s.tPrev (s.xValues.getD (s.J - 1) (lit 0))
  have hw : ∀ j, 1 ≤ j → j + 1 < s.J → explicitValue p j s = .ok ((fun _ => Dbl.nan) j) := by
    intro j h1 h2
    obtain ⟨y, hy⟩ := explicitValue_total hp ex eo h1 h2
    rw [hy, hv j y hy]
  have hstep := step_explicit (p := p) (s := s) (by omega) ex (by omega) hl hr hw
  have hloop : timeLoop .explicit p fuel s = Eff.forN (fun _ => step .explicit p) 1 () s := by
    refine timeLoop_times _ p 1 0 fuel s t3 t4 (fun i h1 h2 => ?_) ?_ (by omega)
    · obtain rfl : i = 0 := by omega
      rw [t1, times, Dbl.lit_zero, Dbl.lt_num]
      exact_mod_cast hT
    · rw [t1, hdt]
      simp [times, Dbl.add_num]
  rw [Eff.forN, Eff.bind_of_ok hstep] at hloop
  have hsolve : ∀ s1 : Fdm (Dbl R), timeLoop .explicit p fuel s = (.ok (), s1) → solve .explicit p fuel s = (.ok s1.newPrices, { s1 with solved := true }) := by
    intro s1 h
    unfold solve
    rw [Eff.bind_of_ok h, Eff.bind_of_ok (Eff.modify_apply _ _), Eff.read_apply]
  refine ⟨s, _, _, hs, hsolve _ hloop, fun j h1 h2 => ?_⟩
  dsimp only
  rw [vec_getElem? _ (by omega), if_pos (by omega)]

/-! ## No time levels -/

theorem ulpred_zero_double : (lit ((ulpred 0 : ℕ) : ℚ) : Dbl .binary64) = .num ((2 ^ (64 : ℕ) : ℝ) : EReal) := by
  rw [Dbl.lit_def]
  have : (((ulpred 0 : ℕ) : ℚ) : ℝ) = 2 ^ 64 - 1 := by norm_num [ulpred]
  rw [this]
  show Dbl.num (Binary64.rnd _) = _
  rw [Binary64.rnd_eq 11 (2 ^ 53)] <;> norm_num [abs_of_pos, abs_of_neg]

/-- Adding a step far below the spacing of the doubles does not move the time. -/
theorem times_stall {T d : ℝ} (h1 : 2 ^ (-900 : ℤ) ≤ T) (h2 : T ≤ 2 ^ (900 : ℤ)) (hd0 : 0 ≤ d) (hd : d ≤ T / 2 ^ 60) (n : ℕ) :
    ∃ y : ℝ, times (Dbl.num (d : EReal) : Dbl .binary64) n = .num y ∧ 0 ≤ y ∧ y < T := by
  have hT : 0 < T := lt_of_lt_of_le (by positivity) h1
  obtain ⟨k, hk⟩ : ∃ k : ℤ, Int.log 2 T = k + 1 := ⟨Int.log 2 T - 1, by ring⟩
  have a1 : (2 : ℝ) ^ (k + 1) ≤ T := by rw [← hk]; exact Binary64.log_le hT
  have a2 : T < (2 : ℝ) ^ (k + 2) := by
    have := Binary64.lt_log (x := T)
    rwa [hk, show k + 1 + 1 = k + 2 by ring] at this
  have k1 : -900 < k + 2 := (zpow_lt_zpow_iff_right₀ (by norm_num : (1 : ℝ) < 2)).mp (h1.trans_lt a2)
  have k2 : k + 1 ≤ 900 := (zpow_le_zpow_iff_right₀ (by norm_num : (1 : ℝ) < 2)).mp (a1.trans h2)
  have hk1 : (2 : ℝ) ^ (k + 1) = 2 * 2 ^ k := by rw [zpow_add₀ (by norm_num)]; norm_num; ring
  have hk2 : (2 : ℝ) ^ (k + 2) = 4 * 2 ^ k := by rw [zpow_add₀ (by norm_num)]; norm_num; ring
  have hke : (2 : ℝ) ^ k = 2 ^ (52 : ℕ) * 2 ^ (k - 52) := by
    rw [← zpow_natCast, ← zpow_add₀ (by norm_num)]; congr 1; push_cast; ring
  have hP : (0 : ℝ) < 2 ^ (k - 52) := by positivity
  rw [hk1] at a1
  rw [hk2] at a2
  have hdP : d ≤ 2 ^ (k - 52) / 4 := by
    rw [hke] at a2
    have : T / 2 ^ 60 ≤ 2 ^ (k - 52) / 4 := by
      rw [div_le_iff₀ (by positivity)]
      linarith
    linarith
  have hr : Binary64.rnd (2 ^ k + d) = ((2 ^ k : ℝ) : EReal) := by
    have hx : |(2 : ℝ) ^ k + d| = 2 ^ k + d := abs_of_nonneg (by positivity)
    have hm : ((2 ^ 52 : ℤ) : ℝ) - (2 ^ k + d) / 2 ^ (k - 52) = -(d / 2 ^ (k - 52)) := by
      rw [hke]
      field_simp
      push_cast
      ring
    have hd1 : d / 2 ^ (k - 52) ≤ 1 / 4 := by rw [div_le_iff₀ hP]; linarith
    have hd2 : 0 ≤ d / 2 ^ (k - 52) := by positivity
    rw [Binary64.rnd_eq (k - 52) (2 ^ 52) (by omega) (by omega)]
    · rw [hke]; norm_cast
    · rw [hx, ← hke]; linarith
    · rw [hx, hke]; nlinarith
    · rw [hm, abs_neg, abs_of_nonneg hd2]; linarith
    · rw [hm, abs_neg, abs_of_nonneg hd2]; intro h; exfalso; linarith
    · norm_num
  have key : ∃ y : ℝ, times (Dbl.num (d : EReal) : Dbl .binary64) n = .num y ∧ 0 ≤ y ∧ y ≤ 2 ^ k := by
    induction n with
    | zero => exact ⟨0, by simp [times], le_rfl, by positivity⟩
    | succ n ih =>
      obtain ⟨y, hy, y0, yP⟩ := ih
      have u1 : Binary64.rnd (y + d) ≤ ((2 ^ k : ℝ) : EReal) := by
        rw [← hr]
        exact Binary64.rnd_mono (by linarith)
      have u0 : (0 : EReal) ≤ Binary64.rnd (y + d) := by
        rw [← Binary64.rnd_zero]
        exact Binary64.rnd_mono (by linarith)
      have hfin : Binary64.rnd (y + d) ≠ ⊤ := ne_top_of_le_ne_top (EReal.coe_ne_top _) u1
      have hfin' : Binary64.rnd (y + d) ≠ ⊥ := fun h => by rw [h] at u0; simp at u0
      refine ⟨(Binary64.rnd (y + d)).toReal, ?_, ?_, ?_⟩
      · rw [times, hy, Dbl.add_coe, EReal.coe_toReal hfin hfin']
        rfl
      · exact EReal.toReal_nonneg u0
      · rw [← EReal.coe_le_coe_iff, EReal.coe_toReal hfin hfin']; exact u1
  obtain ⟨y, hy, y0, yP⟩ := key
  have : (0 : ℝ) < 2 ^ k := by positivity
  exact ⟨y, hy, y0, by linarith⟩

/-- **C87 fails (no time levels).** With `N = 0` the number of steps wraps around to `2^64 - 1`.  In double precision the step is then so
small that the time stops advancing before it reaches the maturity: for every scheme, PDE, grid and maturity, `solve()` never returns. -/
theorem C87_noLevels_fails (sc : Scheme (Dbl .binary64)) (p : Pde (Dbl .binary64)) (xDom : Dbl .binary64) (J : ℕ) (T : ℝ) (h1 : 2 ^ (-900 : ℤ) ≤ T)
    (h2 : T ≤ 2 ^ (900 : ℤ)) (junk : ℕ → Dbl .binary64) (s : Fdm (Dbl .binary64)) (hc : construct sc xDom J (.num T) 0 p junk = .ok s) (fuel : ℕ)
    (v : List (Dbl .binary64)) (s' : Fdm (Dbl .binary64)) : solve sc p fuel s ≠ (.ok v, s') := by
  intro h
  have hT : 0 < T := lt_of_lt_of_le (by positivity) h1
  obtain ⟨t1, t2, -, -⟩ := construct_times hc
  obtain ⟨m, hm, -⟩ := C86_evaluates sc p xDom _ J 0 junk s s' fuel v hc h
  have hq : (0 : ℝ) ≤ 2 ^ (-1075 : ℤ) := by positivity
  have hu : (2 : ℝ) ^ (-53 : ℤ) ≤ 1 := zpow_le_one_of_nonpos₀ (by norm_num) (by norm_num)
  obtain ⟨d, ed, d0, -, d2⟩ := binary64_accurate.nonneg (x := T / 2 ^ (64 : ℕ)) (by positivity) ((div_le_self hT.le (by norm_num)).trans
    (h2.trans (zpow_le_zpow_right₀ (by norm_num) (by norm_num))))
  have hQ : (2 : ℝ) ^ (-1075 : ℤ) ≤ T / 2 ^ (64 : ℕ) := by
    rw [le_div_iff₀ (by positivity)]
    refine le_trans ?_ h1
    rw [← zpow_natCast, ← zpow_add₀ (by norm_num)]
    exact zpow_le_zpow_right₀ (by norm_num) (by norm_num)
  have hd : d ≤ T / 2 ^ 60 := by
    have h4 : T / 2 ^ 60 = 16 * (T / 2 ^ (64 : ℕ)) := by ring
    have h5 : 0 ≤ T / 2 ^ (64 : ℕ) := by positivity
    rw [h4]
    generalize T / 2 ^ (64 : ℕ) = z at *
    generalize (2 : ℝ) ^ (-1075 : ℤ) = Q at *
    generalize (2 : ℝ) ^ (-53 : ℤ) = U at *
    nlinarith
  have hdt : s.dt = .num (d : EReal) := by
    rw [t2, ulpred_zero_double, Dbl.div_coe _ (by positivity)]
    exact congrArg Dbl.num ed
  obtain ⟨y, hy, -, hyT⟩ := times_stall h1 h2 d0 hd m
  rw [hdt, hy, Dbl.lt_num_false] at hm
  exact absurd (by exact_mod_cast hm) (not_le.mpr hyT)

/-! ## Examples -/

namespace FdmDegenerateExample

/-- A put in double precision. -/
noncomputable def put : OptObj (Dbl .binary64) := ⟨.european, "A", .vanilla .put (lit 1), lit 1, none⟩

/-- One stock with price and volatility 1. -/
noncomputable def market : Market (Dbl .binary64) := ⟨[⟨lit 1, lit 1, none⟩], [("A", 0)], lit 1, [], [], []⟩

theorem put_total : Total (BlackScholes.pde put market) :=
  ⟨fun _ _ => ⟨_, rfl⟩, fun _ _ => ⟨_, rfl⟩, fun _ _ => ⟨_, rfl⟩, fun _ _ => ⟨_, rfl⟩, fun _ _ => ⟨_, rfl⟩, fun _ _ => ⟨_, rfl⟩, fun _ => ⟨_, rfl⟩⟩

/-- `C87_oneLevel_fails`: a put on three nodes. -/
example : ∃ s v s', construct .explicit (lit 2) 3 (.num (1 : ℝ)) 1 (BlackScholes.pde put market) (fun _ => lit 0) = .ok s ∧
    solve .explicit (BlackScholes.pde put market) 2 s = (.ok v, s') ∧ ∀ j, 1 ≤ j → j + 1 < 3 → v[j]? = some .nan :=
  C87_oneLevel_fails _ put_total (fun _ _ => rfl) _ 1 one_pos 3 (by norm_num) _ 2 le_rfl

/-- `C87_noLevels_fails`: the solver can be constructed, and does not return. -/
example : ∃ s, construct .explicit (lit 2) 3 (.num (1 : ℝ)) 0 (BlackScholes.pde put market) (fun _ => lit 0) = .ok s ∧
    ∀ fuel v s', solve .explicit (BlackScholes.pde put market) fuel s ≠ (.ok v, s') := by
  obtain ⟨s, hs, -⟩ := construct_total put_total (lit 2) (.num (1 : ℝ)) 3 0 fun _ => lit 0
  exact ⟨s, hs, fun fuel v s' => C87_noLevels_fails _ _ _ _ 1 (zpow_le_one_of_nonpos₀ (by norm_num) (by norm_num)) (one_le_zpow₀ (by norm_num) (by norm_num)) _ s hs fuel v s'⟩

/-- `C87_oneNode_fails`: the solver for a put with one node exists. -/
example : ∃ s, construct .explicit (lit 2) 1 (lit 1) 2 (BlackScholes.pde put market) (fun _ => lit 0) = .ok s ∧
    ∀ fuel v s', solve .explicit (BlackScholes.pde put market) fuel s = (.ok v, s') → v = [lit 0] := by
  obtain ⟨s, hs, -⟩ := construct_total put_total (lit 2) (lit 1) 1 2 fun _ => lit 0
  exact ⟨s, hs, fun fuel v s' h => C87_oneNode_fails _ (fun _ _ => rfl) _ _ _ _ s s' fuel v hs h⟩

/-- `C87_noNodes_fails` and `C87_implicit_fails`. -/
example : (∃ s, construct .explicit (lit 2) 0 (lit 1) 2 (BlackScholes.pde put market) (fun _ => lit 0) = .ok s ∧
      (solve .explicit (BlackScholes.pde put market) 3 s).1 = .ub) ∧
    construct (.implicit thomas) (lit 2) 1 (lit 1) 2 (BlackScholes.pde put market) (fun _ => lit 0) = .ub :=
  ⟨C87_noNodes_fails _ _ _ _ _ (by simp) 3 (by norm_num), C87_implicit_fails _ (by simp) _ (fun _ => ⟨_, rfl⟩) _ _ 1 2 (by norm_num) _⟩

end FdmDegenerateExample
end Verif
