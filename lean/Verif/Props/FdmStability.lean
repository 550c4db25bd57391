import Verif.Props.FdmSchemes

/-!
# Properties C58 and C59: stability
-/

namespace Verif
open Spec Fdm

namespace Fdm

/-- The weights of the neighbours are not negative. -/
theorem weights_nonneg {q : Problem} {J : ℕ} {h : ℝ} (hh : 0 < h) (hq : DiffusionDominates q J h) (t : ℝ) {j : ℕ} (h1 : 1 ≤ j) (h2 : j + 1 < J) :
    0 ≤ q.D t (j * h) / h ^ 2 - q.C t (j * h) / (2 * h) ∧ 0 ≤ q.D t (j * h) / h ^ 2 + q.C t (j * h) / (2 * h) := by
  obtain ⟨hD, -⟩ := hq t j h1 h2
  have a1 := le_abs_self (q.C t (j * h))
  have a2 := neg_abs_le (q.C t (j * h))
  have e1 : q.D t (j * h) / h ^ 2 - q.C t (j * h) / (2 * h) = (2 * q.D t (j * h) - h * q.C t (j * h)) / (2 * h ^ 2) := by
    field_simp
  have e2 : q.D t (j * h) / h ^ 2 + q.C t (j * h) / (2 * h) = (2 * q.D t (j * h) + h * q.C t (j * h)) / (2 * h ^ 2) := by
    field_simp
  rw [e1, e2]
  constructor
  · exact div_nonneg (by nlinarith) (by positivity)
  · exact div_nonneg (by nlinarith) (by positivity)

/-- The difference operator as differences to the neighbours. -/
theorem central_eq (q : Problem) (h t : ℝ) (u : ℕ → ℝ) (j : ℕ) : central q h t u j =
    (q.D t (j * h) / h ^ 2 - q.C t (j * h) / (2 * h)) * (u (j - 1) - u j) +
    (q.D t (j * h) / h ^ 2 + q.C t (j * h) / (2 * h)) * (u (j + 1) - u j) + q.R t (j * h) * u j - q.f t (j * h) := by
  unfold central
  ring

/-- The discrete maximum principle for one backward step. -/
theorem backward_bounds {q : Problem} {J : ℕ} {h k t : ℝ} {old new : ℕ → ℝ} {lo hi : ℝ} (hh : 0 < h) (hk : 0 < k)
    (hq : DiffusionDominates q J h) (hf : ∀ t x, q.f t x = 0) (hlo : lo ≤ 0) (hhi : 0 ≤ hi)
    (ho : ∀ j < J, lo ≤ old j ∧ old j ≤ hi) (h0 : lo ≤ new 0 ∧ new 0 ≤ hi) (hJ : lo ≤ new (J - 1) ∧ new (J - 1) ≤ hi)
    (hb : BackwardEuler q J h k t old new) : ∀ j < J, lo ≤ new j ∧ new j ≤ hi := by
  intro j hj
  have hne : (Finset.range J).Nonempty := ⟨j, by simpa using hj⟩
  have key : ∀ i, 1 ≤ i → i + 1 < J → new i - old i = k * ((q.D (t + k) (i * h) / h ^ 2 - q.C (t + k) (i * h) / (2 * h)) * (new (i - 1) - new i) +
    (q.D (t + k) (i * h) / h ^ 2 + q.C (t + k) (i * h) / (2 * h)) * (new (i + 1) - new i) + q.R (t + k) (i * h) * new i) := by
    intro i h1 h2
    have := hb i h1 h2
    rw [central_eq, hf, sub_zero, div_eq_iff hk.ne'] at this
    rw [this, mul_comm]
  constructor
  · obtain ⟨i, hi, hmin⟩ := Finset.exists_min_image (Finset.range J) new hne
    refine le_trans ?_ (hmin j (by simpa using hj))
    have hi : i < J := by simpa using hi
    rcases Nat.eq_zero_or_pos i with rfl | h1
    · exact h0.1
    rcases (show i = J - 1 ∨ i + 1 < J by omega) with rfl | h2
    · exact hJ.1
    have e := key i h1 h2
    obtain ⟨w1, w2⟩ := weights_nonneg hh hq (t + k) h1 h2
    have hR := (hq (t + k) i h1 h2).2
    have d1 := mul_nonneg w1 (sub_nonneg.mpr (hmin (i - 1) (by simp; omega)))
    have d2 := mul_nonneg w2 (sub_nonneg.mpr (hmin (i + 1) (by simp; omega)))
    have ge : old i + k * (q.R (t + k) (i * h) * new i) ≤ new i := by nlinarith
    by_contra hc
    push Not at hc
    have : 0 ≤ q.R (t + k) (i * h) * new i := mul_nonneg_of_nonpos_of_nonpos hR (by linarith)
    have := mul_nonneg hk.le this
    linarith [(ho i hi).1]
  · obtain ⟨i, hi', hmax⟩ := Finset.exists_max_image (Finset.range J) new hne
    refine le_trans (hmax j (by simpa using hj)) ?_
    have hi' : i < J := by simpa using hi'
    rcases Nat.eq_zero_or_pos i with rfl | h1
    · exact h0.2
    rcases (show i = J - 1 ∨ i + 1 < J by omega) with rfl | h2
    · exact hJ.2
    have e := key i h1 h2
    obtain ⟨w1, w2⟩ := weights_nonneg hh hq (t + k) h1 h2
    have hR := (hq (t + k) i h1 h2).2
    have d1 := mul_nonneg w1 (sub_nonneg.mpr (hmax (i - 1) (by simp; omega)))
    have d2 := mul_nonneg w2 (sub_nonneg.mpr (hmax (i + 1) (by simp; omega)))
    have ge : new i ≤ old i + k * (q.R (t + k) (i * h) * new i) := by nlinarith
    by_contra hc
    push Not at hc
    have : q.R (t + k) (i * h) * new i ≤ 0 := mul_nonpos_of_nonpos_of_nonneg hR (by linarith)
    have := mul_nonneg hk.le (neg_nonneg.mpr this)
    linarith [(ho i hi').2]

end Fdm

/-- **C58.** Implicit Euler with the Thomas algorithm, for any convection-diffusion equation without source in
which the diffusion dominates the convection on the grid and the reaction is not positive: for every
step size `solve()` returns, and if the initial and the boundary values lie in an interval `[lo, hi]`
around 0, then so do all values returned.  With `lo = 0` this is positivity. -/
theorem C58_bounds (p : Pde ℝ) (q : Problem) (hp : Describes p q) (xDom tDom : ℝ) (J N : ℕ) (junk : ℕ → ℝ) (hJ : 4 ≤ J)
    (hm : J ≤ 2 ^ 31) (hN : 2 ≤ N) (hX : 0 < xDom) (hT : 0 < tDom) (hq : DiffusionDominates q J (xDom / (J - 1)))
    (hf : ∀ t x, q.f t x = 0) :
    ∃ s, construct (.implicit thomas) xDom J tDom N p junk = .ok s ∧ ∀ fuel, N ≤ fuel → ∃ v,
      (solve (.implicit thomas) p fuel s).1 = .ok v ∧ v.length = J ∧ ∀ lo hi : ℝ, lo ≤ 0 → 0 ≤ hi →
      (∀ j < J, lo ≤ q.initial (j * (xDom / (J - 1))) ∧ q.initial (j * (xDom / (J - 1))) ≤ hi) →
      (∀ t, 0 < t → t ≤ tDom → lo ≤ q.left t 0 ∧ q.left t 0 ≤ hi) → (∀ t, 0 < t → t ≤ tDom → lo ≤ q.right t xDom ∧ q.right t xDom ≤ hi) →
      ∀ x ∈ v, lo ≤ x ∧ x ≤ hi := by
  obtain ⟨s, hs, h⟩ := C55_thomas p q hp xDom tDom J N junk hJ hm hN hX hT hq
  refine ⟨s, hs, fun fuel hf' => ?_⟩
  obtain ⟨u, hu, h0, hn⟩ := h fuel hf'
  refine ⟨_, hu, by simp, fun lo hi hlo hhi hi0 hl hr => ?_⟩
  have hJ1 : (0 : ℝ) < J - 1 := by
    have : (4 : ℝ) ≤ J := by exact_mod_cast hJ
    linarith
  have hN1 : (0 : ℝ) < N - 1 := by
    have : (2 : ℝ) ≤ N := by exact_mod_cast hN
    linarith
  have hk : 0 < tDom / (N - 1) := div_pos hT hN1
  have all : ∀ n ≤ N - 1, ∀ j < J, lo ≤ u n j ∧ u n j ≤ hi := by
    intro n
    induction n with
    | zero => intro _ j hj; rw [h0 j hj]; exact hi0 j hj
    | succ n ih =>
      intro hle
      obtain ⟨hb, b0, bJ⟩ := hn n (by omega)
      have ht : (n : ℝ) * (tDom / (N - 1)) + tDom / (N - 1) ≤ tDom := by
        have h1 : (n : ℝ) + 1 ≤ N - 1 := by
          have : ((n + 1 : ℕ) : ℝ) ≤ ((N - 1 : ℕ) : ℝ) := by exact_mod_cast hle
          rw [Nat.cast_sub (by omega)] at this
          push_cast at this
          exact this
        calc (n : ℝ) * (tDom / (N - 1)) + tDom / (N - 1) = (n + 1) * (tDom / (N - 1)) := by ring
          _ ≤ (N - 1) * (tDom / (N - 1)) := by gcongr
          _ = tDom := by field_simp
      have ht0 : 0 < (n : ℝ) * (tDom / (N - 1)) + tDom / (N - 1) := by positivity
      exact backward_bounds (div_pos hX hJ1) hk hq hf hlo hhi (ih (by omega)) (by rw [b0]; exact hl _ ht0 ht)
        (by rw [bJ]; exact hr _ ht0 ht) hb
  intro x hx
  simp only [List.mem_map, List.mem_range] at hx
  obtain ⟨j, hj, rfl⟩ := hx
  exact all (N - 1) le_rfl j hj

example : ∃ s, construct (.implicit thomas) 2 5 1 3 (BlackScholes.pde (exampleOption .put) exampleMarket) (fun _ => 0) = .ok s ∧ ∃ v,
    (solve (.implicit thomas) (BlackScholes.pde (exampleOption .put) exampleMarket) 3 s).1 = .ok v ∧ ∀ x ∈ v, (-1 : ℝ) ≤ x ∧ x ≤ 1 := by
  obtain ⟨s, hs, h⟩ := C58_bounds _ _ example_put 2 1 5 3 (fun _ => 0) (by norm_num) (by norm_num) (by norm_num) two_pos one_pos
    (put_dominates (by norm_num) zero_le_one _ (by norm_num)) (fun _ _ => rfl)
  obtain ⟨v, hv, -, hb⟩ := h 3 le_rfl
  refine ⟨s, hs, v, hv, hb (-1) 1 (by norm_num) zero_le_one ?_ ?_ ?_⟩
  · intro j _
    have : (0 : ℝ) ≤ j * (2 / ((5 : ℕ) - 1)) := by norm_num
    exact ⟨le_trans (by norm_num) (le_max_right _ _), max_le (by linarith) zero_le_one⟩
  · intro t _ _; norm_num [putProblem]
  · intro t _ _; norm_num [putProblem]

/-- **C58.** For a European call with `sigma² ≥ |r - c|`, `r ≥ 0`, `0 ≤ K ≤ xDom` and `tDom ≤ T`, implicit Euler with the
Thomas algorithm returns only values between 0 and `xDom`, for all grids and step sizes. -/
theorem C58_call (o : OptObj ℝ) (m : Market ℝ) (d : StockData ℝ) (K : ℝ) (hd : BlackScholes.stock o m = .ok d)
    (ho : o.payoff = .vanilla .call K) (hσ : |m.r - d.coupon.getD 0| ≤ d.sigma ^ 2) (hr : 0 ≤ m.r) (hK : 0 ≤ K)
    (xDom tDom : ℝ) (J N : ℕ) (junk : ℕ → ℝ) (hJ : 4 ≤ J) (hm : J ≤ 2 ^ 31) (hN : 2 ≤ N) (hX : 0 < xDom) (hT : 0 < tDom)
    (hKX : K ≤ xDom) (hTT : tDom ≤ o.T) :
    ∃ s, construct (.implicit thomas) xDom J tDom N (BlackScholes.pde o m) junk = .ok s ∧ ∀ fuel, N ≤ fuel → ∃ v,
      (solve (.implicit thomas) (BlackScholes.pde o m) fuel s).1 = .ok v ∧ v.length = J ∧ ∀ x ∈ v, 0 ≤ x ∧ x ≤ xDom := by
  have hJ1 : (0 : ℝ) < J - 1 := by
    have : (4 : ℝ) ≤ J := by exact_mod_cast hJ
    linarith
  obtain ⟨s, hs, h⟩ := C58_bounds _ _ (call_describes hd ho) xDom tDom J N junk hJ hm hN hX hT
    (call_dominates hσ hr J (div_pos hX hJ1).le) (fun _ _ => rfl)
  refine ⟨s, hs, fun fuel hf => ?_⟩
  obtain ⟨v, hv, hl, hb⟩ := h fuel hf
  refine ⟨v, hv, hl, hb 0 xDom le_rfl hX.le ?_ (fun _ _ _ => ⟨le_rfl, hX.le⟩) ?_⟩
  · intro j hj
    have hj' : (j : ℝ) * (xDom / (J - 1)) ≤ xDom := by
      have h1 : (j : ℝ) ≤ J - 1 := by
        have : ((j + 1 : ℕ) : ℝ) ≤ J := by exact_mod_cast hj
        push_cast at this
        linarith
      calc (j : ℝ) * (xDom / (J - 1)) ≤ (J - 1) * (xDom / (J - 1)) := by gcongr
        _ = xDom := by field_simp
    exact ⟨le_max_right _ _, max_le (by linarith) hX.le⟩
  · intro t _ ht
    change 0 ≤ xDom - K * Real.exp (-m.r * (o.T - t)) ∧ xDom - K * Real.exp (-m.r * (o.T - t)) ≤ xDom
    have h1 : Real.exp (-m.r * (o.T - t)) ≤ 1 := Real.exp_le_one_iff.mpr (by nlinarith)
    have h2 := (Real.exp_pos (-m.r * (o.T - t))).le
    have h3 : K * Real.exp (-m.r * (o.T - t)) ≤ K * 1 := mul_le_mul_of_nonneg_left h1 hK
    have h4 := mul_nonneg hK h2
    constructor <;> linarith

example : ∃ s, construct (.implicit thomas) 2 5 1 3 (BlackScholes.pde (exampleOption .call) exampleMarket) (fun _ => 0) = .ok s ∧ ∃ v,
    (solve (.implicit thomas) (BlackScholes.pde (exampleOption .call) exampleMarket) 3 s).1 = .ok v ∧ ∀ x ∈ v, 0 ≤ x ∧ x ≤ 2 := by
  obtain ⟨s, hs, h⟩ := C58_call (exampleOption .call) exampleMarket _ 1 (example_stock _) rfl (by simp [exampleMarket]) zero_le_one
    zero_le_one 2 1 5 3 (fun _ => 0) (by norm_num) (by norm_num) (by norm_num) two_pos one_pos (by norm_num) le_rfl
  obtain ⟨v, hv, -, hb⟩ := h 3 le_rfl
  exact ⟨s, hs, v, hv, hb⟩

/-- **C58.** For a European put with `sigma² ≥ |r - c|`, `r ≥ 0` and `K ≥ 0`, implicit Euler with the Thomas algorithm
returns only values between 0 and `K`, for all grids and step sizes. -/
theorem C58_put (o : OptObj ℝ) (m : Market ℝ) (d : StockData ℝ) (K : ℝ) (hd : BlackScholes.stock o m = .ok d)
    (ho : o.payoff = .vanilla .put K) (hσ : |m.r - d.coupon.getD 0| ≤ d.sigma ^ 2) (hr : 0 ≤ m.r) (hK : 0 ≤ K)
    (xDom tDom : ℝ) (J N : ℕ) (junk : ℕ → ℝ) (hJ : 4 ≤ J) (hm : J ≤ 2 ^ 31) (hN : 2 ≤ N) (hX : 0 < xDom) (hT : 0 < tDom) :
    ∃ s, construct (.implicit thomas) xDom J tDom N (BlackScholes.pde o m) junk = .ok s ∧ ∀ fuel, N ≤ fuel → ∃ v,
      (solve (.implicit thomas) (BlackScholes.pde o m) fuel s).1 = .ok v ∧ v.length = J ∧ ∀ x ∈ v, 0 ≤ x ∧ x ≤ K := by
  have hJ1 : (0 : ℝ) < J - 1 := by
    have : (4 : ℝ) ≤ J := by exact_mod_cast hJ
    linarith
  obtain ⟨s, hs, h⟩ := C58_bounds _ _ (put_describes hd ho) xDom tDom J N junk hJ hm hN hX hT
    (put_dominates hσ hr J (div_pos hX hJ1).le) (fun _ _ => rfl)
  refine ⟨s, hs, fun fuel hf => ?_⟩
  obtain ⟨v, hv, hl, hb⟩ := h fuel hf
  refine ⟨v, hv, hl, hb 0 K le_rfl hK ?_ (fun _ _ _ => ⟨hK, le_rfl⟩) (fun _ _ _ => ⟨le_rfl, hK⟩)⟩
  intro j _
  refine ⟨le_max_right _ _, max_le ?_ hK⟩
  have : 0 ≤ (j : ℝ) * (xDom / (J - 1)) := by positivity
  linarith

example : ∃ s, construct (.implicit thomas) 2 5 1 3 (BlackScholes.pde (exampleOption .put) exampleMarket) (fun _ => 0) = .ok s ∧ ∃ v,
    (solve (.implicit thomas) (BlackScholes.pde (exampleOption .put) exampleMarket) 3 s).1 = .ok v ∧ ∀ x ∈ v, 0 ≤ x ∧ x ≤ 1 := by
  obtain ⟨s, hs, h⟩ := C58_put (exampleOption .put) exampleMarket _ 1 (example_stock _) rfl (by simp [exampleMarket]) zero_le_one
    zero_le_one 2 1 5 3 (fun _ => 0) (by norm_num) (by norm_num) (by norm_num) two_pos one_pos
  obtain ⟨v, hv, -, hb⟩ := h 3 le_rfl
  exact ⟨s, hs, v, hv, hb⟩

namespace Fdm

/-- The Thomas algorithm in an arithmetic in which dividing by zero is undefined: any vanishing pivot, that is,
any vanishing denominator, is `ub`. -/
noncomputable def strictThomas : MatrixSolver ℝ := fun A b =>
  open Classical in if ∃ i < A.rows, pivot A i = 0 then .ub else thomas A b

end Fdm

/-- **C58.** Implicit Euler with the Thomas algorithm never divides by zero in these steps: a solver in which
a vanishing denominator is undefined behaviour returns the same. -/
theorem C58_noZeroDivision (p : Pde ℝ) (q : Problem) (hp : Describes p q) (xDom tDom : ℝ) (J N : ℕ) (junk : ℕ → ℝ) (hJ : 4 ≤ J)
    (hm : J ≤ 2 ^ 31) (hN : 2 ≤ N) (hX : 0 < xDom) (hT : 0 < tDom) (hq : DiffusionDominates q J (xDom / (J - 1))) :
    ∃ s, construct (.implicit thomas) xDom J tDom N p junk = .ok s ∧ ∀ fuel, N ≤ fuel →
      (solve (.implicit thomas) p fuel s).1.IsOk ∧ solve (.implicit strictThomas) p fuel s = solve (.implicit thomas) p fuel s := by
  have hJ1 : (0 : ℝ) < J - 1 := by
    have : (4 : ℝ) ≤ J := by exact_mod_cast hJ
    linarith
  have hN1 : (0 : ℝ) < N - 1 := by
    have : (2 : ℝ) ≤ N := by exact_mod_cast hN
    linarith
  obtain ⟨s, hs, h⟩ := C55_thomas p q hp xDom tDom J N junk hJ hm hN hX hT hq
  refine ⟨s, hs, fun fuel hf => ?_⟩
  obtain ⟨u, hu, -⟩ := h fuel hf
  refine ⟨by rw [hu]; exact ⟨_, rfl⟩, ?_⟩
  rcases hv : solve (.implicit thomas) p fuel s with ⟨r, s'⟩
  rw [hv] at hu
  rw [show r = _ from hu] at hv
  obtain ⟨st, h0, hst, -, -, e1, e2⟩ := C53_steps _ p xDom tDom J N junk s (by omega) hN hT hs fuel hf _ s' hv
  have hlev : ∀ n ≤ N - 1, Levels xDom tDom J N (st n) := by
    intro n
    induction n with
    | zero => intro _; rw [h0]; exact (levels_construct hp hs (by omega) hN).1
    | succ n ih => intro hn; exact (levels_step (ih (by omega)) (hst n (by omega))).1
  have hs' : construct (.implicit strictThomas) xDom J tDom N p junk = .ok s := hs
  have hst' : ∀ n < N - 1, step (.implicit strictThomas) p (st n) = (.ok (), st (n + 1)) := by
    intro n hn
    have hL := hlev n (by omega)
    have hgrid : OnGrid { st n with tCurr := (st n).tPrev + (st n).dt } fun j => (st n).oldPrices.getD j 0 :=
      ⟨hL.grid.two, hL.grid.dx2, hL.grid.xs, hL.grid.old, hL.grid.new, hL.grid.bb⟩
    set A := matI q { st n with tCurr := (st n).tPrev + (st n).dt } with hA
    have hd : StrictlyDominant A := matI_dominant (by dsimp only; rw [hL.dx]; exact div_pos hX hJ1)
      (by dsimp only; rw [hL.dt]; exact div_pos hT hN1) (by dsimp only; rw [hL.nodes, hL.dx]; exact hq)
    have hr : A.rows = J - 2 := by rw [← hL.nodes]; rfl
    have hpiv := (C47_dominant A (triMat_tridiagonal _ _ _ _) (by omega) (by omega) hd).1
    have heq : ∀ b, strictThomas A b = thomas A b := by
      intro b
      unfold strictThomas
      rw [if_neg]
      push Not
      exact hpiv
    obtain ⟨x, hx, hl⟩ := thomas_returns (A := A) (n := (st n).J - 2)
      (b := vec ((st n).J - 2) (rhsI q { st n with tCurr := (st n).tPrev + (st n).dt } (fun j => (st n).oldPrices.getD j 0)
        (q.left ((st n).tPrev + (st n).dt) 0) (q.right ((st n).tPrev + (st n).dt) (((st n).J - 1 : ℕ) * (st n).dx))))
      (by rw [hL.nodes]; omega) (by rw [hL.nodes]; unfold INT_MAX; omega) rfl rfl (by simp)
    have m1 := step_of_march ((march_implicit thomas hp hgrid).1 x hx hl)
    have m2 := step_of_march ((march_implicit strictThomas hp hgrid).1 x ((heq _).trans hx) hl)
    rw [m2, ← m1, hst n hn]
  rw [C53_returns _ p xDom tDom J N junk s (by omega) hN hT hs' fuel hf st h0 hst', show r = _ from hu, e1, e2]

example : ∃ s, construct (.implicit thomas) 2 5 1 3 (BlackScholes.pde (exampleOption .put) exampleMarket) (fun _ => 0) = .ok s ∧
    solve (.implicit strictThomas) (BlackScholes.pde (exampleOption .put) exampleMarket) 3 s =
      solve (.implicit thomas) (BlackScholes.pde (exampleOption .put) exampleMarket) 3 s := by
  obtain ⟨s, hs, h⟩ := C58_noZeroDivision _ _ example_put 2 1 5 3 (fun _ => 0) (by norm_num) (by norm_num) (by norm_num) two_pos one_pos
    (put_dominates (by norm_num) zero_le_one _ (by norm_num))
  exact ⟨s, hs, (h 3 le_rfl).2⟩

/-! ## C59: explicit Euler -/

namespace Fdm

/-- The maximum principle for one forward step. -/
theorem forward_bounds {q : Problem} {J : ℕ} {h k t : ℝ} {old new : ℕ → ℝ} {lo hi : ℝ} (hh : 0 < h) (hk : 0 < k)
    (hq : DiffusionDominates q J h) (hf : ∀ t x, q.f t x = 0) (hlo : lo ≤ 0) (hhi : 0 ≤ hi)
    (hw : ∀ t j, 1 ≤ j → j + 1 < J → 0 ≤ 1 - k * (2 * q.D t (j * h) / h ^ 2 - q.R t (j * h)))
    (ho : ∀ j < J, lo ≤ old j ∧ old j ≤ hi) (h0 : lo ≤ new 0 ∧ new 0 ≤ hi) (hJ : lo ≤ new (J - 1) ∧ new (J - 1) ≤ hi)
    (hb : ForwardEuler q J h k t old new) : ∀ j < J, lo ≤ new j ∧ new j ≤ hi := by
  intro i hi'
  rcases Nat.eq_zero_or_pos i with rfl | h1
  · exact h0
  rcases (show i = J - 1 ∨ i + 1 < J by omega) with rfl | h2
  · exact hJ
  have e := hb i h1 h2
  rw [central_eq, hf, sub_zero, div_eq_iff hk.ne'] at e
  obtain ⟨w1, w2⟩ := weights_nonneg hh hq t h1 h2
  have w3 := hw t i h1 h2
  have hR := (hq t i h1 h2).2
  set a := q.D t (i * h) / h ^ 2 - q.C t (i * h) / (2 * h) with ha
  set g := q.D t (i * h) / h ^ 2 + q.C t (i * h) / (2 * h) with hg
  have hag : 2 * q.D t (i * h) / h ^ 2 = a + g := by rw [ha, hg]; ring
  rw [hag] at w3
  have e' : new i = (1 - k * (a + g - q.R t (i * h))) * old i + k * a * old (i - 1) + k * g * old (i + 1) := by linear_combination e
  have hkR := mul_nonneg hk.le (neg_nonneg.mpr hR)
  have o1 := ho i hi'
  have o2 := ho (i - 1) (by omega)
  have o3 := ho (i + 1) h2
  rw [e']
  have p1 := mul_nonneg hk.le w1
  have p2 := mul_nonneg hk.le w2
  constructor
  · have a1 := mul_le_mul_of_nonneg_left o1.1 w3
    have a2 := mul_le_mul_of_nonneg_left o2.1 p1
    have a3 := mul_le_mul_of_nonneg_left o3.1 p2
    nlinarith [mul_nonneg hkR (neg_nonneg.mpr hlo)]
  · have a1 := mul_le_mul_of_nonneg_left o1.2 w3
    have a2 := mul_le_mul_of_nonneg_left o2.2 p1
    have a3 := mul_le_mul_of_nonneg_left o3.2 p2
    nlinarith [mul_nonneg hkR hhi]

end Fdm

/-- **C59 (partial).** If the three weights of explicit Euler are not negative on the grid (and there is no source),
then `solve()` keeps the values within every interval around 0 that contains the initial and the boundary
values.  Missing (see `C59_fails`): the check of the solver does not guarantee the condition. -/
theorem C59_partial (p : Pde ℝ) (q : Problem) (hp : Describes p q) (xDom tDom : ℝ) (J N : ℕ) (junk : ℕ → ℝ) (hJ : 2 ≤ J)
    (hN : 2 ≤ N) (hX : 0 < xDom) (hT : 0 < tDom) (hq : DiffusionDominates q J (xDom / (J - 1)))
    (hw : ∀ t j, 1 ≤ j → j + 1 < J →
      0 ≤ 1 - tDom / (N - 1) * (2 * q.D t (j * (xDom / (J - 1))) / (xDom / (J - 1)) ^ 2 - q.R t (j * (xDom / (J - 1)))))
    (hf : ∀ t x, q.f t x = 0) :
    ∃ s, construct .explicit xDom J tDom N p junk = .ok s ∧ ∀ fuel, N ≤ fuel → ∃ v,
      (solve .explicit p fuel s).1 = .ok v ∧ v.length = J ∧ ∀ lo hi : ℝ, lo ≤ 0 → 0 ≤ hi →
      (∀ j < J, lo ≤ q.initial (j * (xDom / (J - 1))) ∧ q.initial (j * (xDom / (J - 1))) ≤ hi) →
      (∀ t, 0 ≤ t → t < tDom → lo ≤ q.left t 0 ∧ q.left t 0 ≤ hi) → (∀ t, 0 ≤ t → t < tDom → lo ≤ q.right t xDom ∧ q.right t xDom ≤ hi) →
      ∀ x ∈ v, lo ≤ x ∧ x ≤ hi := by
  obtain ⟨s, hs, h⟩ := C54_partial p q hp xDom tDom J N junk hJ hN hX hT
  refine ⟨s, hs, fun fuel hf' => ?_⟩
  obtain ⟨u, hu, h0, hn⟩ := h fuel hf'
  refine ⟨_, hu, by simp, fun lo hi hlo hhi hi0 hl hr => ?_⟩
  have hJ1 : (0 : ℝ) < J - 1 := by
    have : (2 : ℝ) ≤ J := by exact_mod_cast hJ
    linarith
  have hN1 : (0 : ℝ) < N - 1 := by
    have : (2 : ℝ) ≤ N := by exact_mod_cast hN
    linarith
  have hk : 0 < tDom / (N - 1) := div_pos hT hN1
  have all : ∀ n ≤ N - 1, ∀ j < J, lo ≤ u n j ∧ u n j ≤ hi := by
    intro n
    induction n with
    | zero => intro _ j hj; rw [h0 j hj]; exact hi0 j hj
    | succ n ih =>
      intro hle
      obtain ⟨hb, b0, bJ⟩ := hn n (by omega)
      have ht : (n : ℝ) * (tDom / (N - 1)) < tDom := by
        have h1 : (n : ℝ) + 1 ≤ N - 1 := by
          have : ((n + 1 : ℕ) : ℝ) ≤ ((N - 1 : ℕ) : ℝ) := by exact_mod_cast hle
          rw [Nat.cast_sub (by omega)] at this
          push_cast at this
          exact this
        calc (n : ℝ) * (tDom / (N - 1)) < (N - 1) * (tDom / (N - 1)) := by gcongr; linarith
          _ = tDom := by field_simp
      have ht0 : 0 ≤ (n : ℝ) * (tDom / (N - 1)) := by positivity
      exact forward_bounds (div_pos hX hJ1) hk hq hf hlo hhi hw (ih (by omega)) (by rw [b0]; exact hl _ ht0 ht)
        (by rw [bJ]; exact hr _ ht0 ht) hb
  intro x hx
  simp only [List.mem_map, List.mem_range] at hx
  obtain ⟨j, hj, rfl⟩ := hx
  exact all (N - 1) le_rfl j hj

/-- A put on the nodes 0, 1/2, 1, 3/2, 2 with 21 time levels: the weights are `1 - (j² + 1)/20` and so on. -/
example : ∃ s, construct .explicit 2 5 1 21 (BlackScholes.pde (exampleOption .put) exampleMarket) (fun _ => 0) = .ok s ∧ ∃ v,
    (solve .explicit (BlackScholes.pde (exampleOption .put) exampleMarket) 21 s).1 = .ok v ∧ ∀ x ∈ v, (0 : ℝ) ≤ x ∧ x ≤ 1 := by
  obtain ⟨s, hs, h⟩ := C59_partial _ _ example_put 2 1 5 21 (fun _ => 0) (by norm_num) (by norm_num) two_pos one_pos
    (put_dominates (by norm_num) zero_le_one _ (by norm_num)) (by
      intro t j h1 h2
      have : j = 1 ∨ j = 2 ∨ j = 3 := by omega
      rcases this with rfl | rfl | rfl <;> norm_num [putProblem]) (fun _ _ => rfl)
  obtain ⟨v, hv, -, hb⟩ := h 21 le_rfl
  refine ⟨s, hs, v, hv, hb 0 1 le_rfl zero_le_one ?_ ?_ ?_⟩
  · intro j _
    have : (0 : ℝ) ≤ j * (2 / ((5 : ℕ) - 1)) := by norm_num
    exact ⟨le_max_right _ _, max_le (by linarith) zero_le_one⟩
  · intro t _ _; norm_num [putProblem]
  · intro t _ _; norm_num [putProblem]

/-- **C59 fails.** The constructor's check `dt/dx² < 0.5` does not involve the coefficients.  For every put with
`r = 0`, no dividends, `0 < K ≤ dx` and `sigma² dt > 2`, two steps of explicit Euler give a negative value at the first
inner node, also when the check passes. -/
theorem C59_fails (o : OptObj ℝ) (m : Market ℝ) (d : StockData ℝ) (K : ℝ) (hd : BlackScholes.stock o m = .ok d)
    (ho : o.payoff = .vanilla .put K) (hr : m.r = 0) (hc : d.coupon = none) (hK : 0 < K) (xDom tDom : ℝ) (J : ℕ) (junk : ℕ → ℝ)
    (hJ : 3 ≤ J) (hX : 0 < xDom) (hT : 0 < tDom) (hKX : K ≤ xDom / (J - 1)) (hσ : 2 < d.sigma ^ 2 * (tDom / 2)) :
    ∃ s, construct .explicit xDom J tDom 3 (BlackScholes.pde o m) junk = .ok s ∧
      (tDom / 2 / (xDom / (J - 1)) ^ 2 < 1 / 2 → s.warns = false) ∧
      ∀ fuel, 3 ≤ fuel → ∃ v, (solve .explicit (BlackScholes.pde o m) fuel s).1 = .ok v ∧ entry v 1 < 0 := by
  obtain ⟨s, hs, h⟩ := C54_partial _ _ (put_describes hd ho) xDom tDom J 3 junk (by omega) (by norm_num) hX hT
  have hJ1 : (0 : ℝ) < J - 1 := by
    have : (3 : ℝ) ≤ J := by exact_mod_cast hJ
    linarith
  have hh : 0 < xDom / ((J : ℝ) - 1) := div_pos hX hJ1
  refine ⟨s, hs, ?_, fun fuel hf => ?_⟩
  · intro hw
    obtain ⟨old, -, -, rfl⟩ := construct_ok hs (by omega) (by norm_num)
    unfold warns
    rw [Fl.ge_real_false, Fl.lit_real]
    dsimp only
    have : ((3 : ℕ) : ℝ) - 1 = 2 := by norm_num
    rw [this, ← pow_two]
    push_cast
    exact hw
  · obtain ⟨u, hu, h0, hn⟩ := h fuel hf
    refine ⟨_, hu, ?_⟩
    have e : entry ((List.range J).map (u (3 - 1))) 1 = u 2 1 := vec_getD 0 _ (by omega)
    rw [e]
    obtain ⟨f0, b0, -⟩ := hn 0 (by norm_num)
    obtain ⟨f1, -, -⟩ := hn 1 (by norm_num)
    have i0 := h0 0 (by omega)
    have i1 := h0 1 (by omega)
    have i2 := h0 2 (by omega)
    have i3 := h0 (J - 1) (by omega)
    set x := xDom / ((J : ℝ) - 1) with hx
    set k := tDom / 2 with hk
    have hk0 : 0 < k := by rw [hk]; linarith
    have e3 : tDom / (((3 : ℕ) : ℝ) - 1) = k := by rw [hk]; norm_num
    rw [e3] at f0 f1
    have z1 : u 0 1 = 0 := by rw [i1]; exact max_eq_right (by push_cast; linarith)
    have z2 : u 0 2 = 0 := by rw [i2]; exact max_eq_right (by push_cast; linarith)
    have z0 : u 0 0 = K := by rw [i0]; simp [putProblem, hK.le]
    have l1 : u 1 1 = k * (1 / 2 * d.sigma ^ 2 * K) := by
      have := f0 1 le_rfl (by omega)
      unfold central putProblem at this
      simp only [Nat.cast_one, one_mul, z0, z1, z2, hr, hc, Option.getD_none, sub_zero, Nat.sub_self, show 1 + 1 = 2 from rfl] at this
      rw [div_eq_iff hk0.ne'] at this
      simp only [zero_add] at this
      rw [this]
      field_simp
      ring
    have l2 : u 1 2 ≤ 0 := by
      rcases (show J = 3 ∨ 4 ≤ J by omega) with h3 | h4
      · obtain ⟨-, -, bJ⟩ := hn 0 (by norm_num)
        rw [h3] at bJ
        exact bJ.le
      · have i3 := h0 3 (by omega)
        have z3 : u 0 3 = 0 := by rw [i3]; exact max_eq_right (by push_cast; linarith)
        have := f0 2 (by norm_num) (by omega)
        unfold central at this
        simp only [z1, z2, z3, show 2 + 1 = 3 from rfl, show 2 - 1 = 1 from rfl, zero_add, putProblem] at this
        rw [div_eq_iff hk0.ne'] at this
        simp at this
        exact this.le
    have l0 : u 1 0 = K := b0
    have := f1 1 le_rfl (by omega)
    unfold central putProblem at this
    simp only [Nat.cast_one, one_mul, l0, l1, hr, hc, Option.getD_none, sub_zero, Nat.sub_self, show 1 + 1 = 2 from rfl] at this
    rw [div_eq_iff hk0.ne'] at this
    have hu2 : u 2 1 = 1 / 2 * d.sigma ^ 2 * k * (K * (2 - d.sigma ^ 2 * k) + u 1 2) := by
      have e5 : u 2 1 = _ := eq_add_of_sub_eq this
      rw [e5]
      field_simp
      ring
    rw [hu2]
    refine mul_neg_of_pos_of_neg (by linarith) ?_
    nlinarith

/-- A put with strike 1, volatility 3, on the nodes 0, 10, 20 with `dt = 1`. -/
example : ∃ s, construct .explicit 20 3 2 3 (BlackScholes.pde (exampleOption .put) { exampleMarket with r := 0, heap := [⟨1, 3, none⟩] })
      (fun _ => 0) = .ok s ∧ s.warns = false ∧ ∃ v,
    (solve .explicit (BlackScholes.pde (exampleOption .put) { exampleMarket with r := 0, heap := [⟨1, 3, none⟩] }) 3 s).1 = .ok v ∧
    entry v 1 < 0 := by
  obtain ⟨s, hs, hw, h⟩ := C59_fails (exampleOption .put) { exampleMarket with r := 0, heap := [⟨1, 3, none⟩] } ⟨1, 3, none⟩ 1 rfl rfl rfl rfl
    one_pos 20 2 3 (fun _ => 0) le_rfl (by norm_num) two_pos (by norm_num) (by norm_num)
  exact ⟨s, hs, hw (by norm_num), h 3 le_rfl⟩

end Verif
