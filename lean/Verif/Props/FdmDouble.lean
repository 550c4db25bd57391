import Verif.Props.FdmGrid
import Verif.Props.RoundingError

/-!
# Property C53 in binary64: the number of time steps
-/

namespace Verif
open Spec Fdm

namespace Fdm

section
variable {F : Type} [Fl F] [Add F] [Sub F] [Mul F] [Div F] [Neg F]

/-- The times `0, dt, dt + dt, ...` as the loop computes them. -/
def times (dt : F) : ℕ → F
  | 0 => lit 0
  | k + 1 => times dt k + dt

/-- In every arithmetic the number of steps is determined by the times. -/
theorem timeLoop_times (sc : Scheme F) (p : Pde F) : ∀ (n k fuel : ℕ) (s : Fdm F), s.tPrev = times s.dt k → s.tCurr = times s.dt k →
    (∀ i, k ≤ i → i < k + n → Fl.lt (times s.dt i) s.tDom = true) → Fl.lt (times s.dt (k + n)) s.tDom = false → n < fuel →
    timeLoop sc p fuel s = Eff.forN (fun _ => step sc p) n () s
  | 0, k, fuel + 1, s, _, hc, _, hn, _ => by
    rw [timeLoop, Eff.withState_apply, hc, if_neg (by simpa using hn)]
    rfl
  | n + 1, k, fuel + 1, s, hp, hc, hi, hn, hf => by
    rw [timeLoop, Eff.withState_apply, hc, if_pos (hi k le_rfl (by omega)), Eff.forN]
    rcases he : step sc p s with ⟨r, s1⟩
    cases r with
    | ok a =>
      rw [Eff.bind_of_ok he, Eff.bind_of_ok he]
      obtain ⟨v, c, -, -, -, rfl⟩ := step_ok he
      refine timeLoop_times sc p n (k + 1) fuel _ (by rw [hp]; rfl) (by rw [hp]; rfl) (fun i h1 h2 => hi i (by omega) (by omega)) ?_ (by omega)
      rw [show k + 1 + n = k + (n + 1) by omega]
      exact hn
    | throw x => rw [Eff.bind_of_throw he, Eff.bind_of_throw he]
    | ub => rw [Eff.bind_of_ub he, Eff.bind_of_ub he]

/-- A run of `solve` with `m` steps. -/
theorem solve_of_steps {sc : Scheme F} {p : Pde F} {fuel m : ℕ} {s s' : Fdm F} {v : List F} (hs : solve sc p fuel s = (.ok v, s'))
    (hloop : timeLoop sc p fuel s = Eff.forN (fun _ => step sc p) m () s) :
    ∃ st : ℕ → Fdm F, st 0 = s ∧ (∀ n < m, step sc p (st n) = (.ok (), st (n + 1))) ∧ v = (st m).newPrices ∧ s' = { st m with solved := true } := by
  unfold solve at hs
  rcases hx : timeLoop sc p fuel s with ⟨r, s1⟩
  cases r with
  | ok a =>
    rw [Eff.bind_of_ok hx, Eff.bind_of_ok (Eff.modify_apply _ _), Eff.read_apply] at hs
    rw [hloop] at hx
    obtain ⟨st, h0, hn, hk⟩ := forN_states _ _ _ hx
    refine ⟨st, h0, hk, ?_, ?_⟩
    · rw [hn]; exact (Res.ok.inj (Prod.mk.inj hs).1).symm
    · rw [hn]; exact (Prod.mk.inj hs).2.symm
  | throw x => rw [Eff.bind_of_throw hx] at hs; cases (Prod.mk.inj hs).1
  | ub => rw [Eff.bind_of_ub hx] at hs; cases (Prod.mk.inj hs).1

/-- What the constructor says about the times. -/
theorem construct_times {sc : Scheme F} {xDom tDom : F} {J N : ℕ} {p : Pde F} {junk : ℕ → F} {s : Fdm F}
    (h : construct sc xDom J tDom N p junk = .ok s) :
    s.tDom = tDom ∧ s.dt = tDom / lit (ulpred N : ℚ) ∧ s.tPrev = lit 0 ∧ s.tCurr = lit 0 := by
  unfold construct at h
  rw [Res.bind_eq_ok] at h
  obtain ⟨s0, h0, h⟩ := h
  have hs : s = s0 := by
    cases sc with
    | explicit => exact (Res.ok.inj h).symm
    | implicit _ => dsimp only at h; split at h <;> cases h; rfl
    | crankNicolson _ => dsimp only at h; split at h <;> cases h; rfl
  subst hs
  unfold constructBase at h0
  dsimp only at h0
  rw [Res.bind_eq_ok] at h0
  obtain ⟨old, -, h2⟩ := h0
  cases h2
  exact ⟨rfl, rfl, rfl, rfl⟩

/-- The time after the steps. -/
theorem times_of_steps {sc : Scheme F} {p : Pde F} {m : ℕ} {st : ℕ → Fdm F} (hk : ∀ n < m, step sc p (st n) = (.ok (), st (n + 1)))
    (h0 : (st 0).tPrev = lit 0 ∧ (st 0).tCurr = lit 0) : ∀ n ≤ m, (st n).dt = (st 0).dt ∧ (st n).tPrev = times (st 0).dt n ∧ (st n).tCurr = times (st 0).dt n
  | 0, _ => ⟨rfl, h0.1, h0.2⟩
  | n + 1, hn => by
    obtain ⟨i1, i2, -⟩ := times_of_steps hk h0 n (by omega)
    obtain ⟨w, c, -, -, -, e'⟩ := step_ok (hk n (by omega))
    rw [e']
    refine ⟨i1, ?_, ?_⟩ <;> · show (st n).tPrev + (st n).dt = _; rw [i1, i2]; rfl

end

/-! ## binary64 -/

theorem times_foldl (d : ℝ) (k : ℕ) : ((List.replicate k d).map fun x : ℝ => (Dbl.num (x : EReal) : Dbl .binary64)).foldl (· + ·) (Dbl.num 0) =
    times (Dbl.num (d : EReal)) k := by
  induction k with
  | zero => simp [times]
  | succ k ih =>
    rw [List.replicate_succ', List.map_append, List.foldl_append, ih]
    rfl

/-- The arithmetic behind the upper bound of `times_bounds`. -/
theorem times_upper {n U Q T d y k : ℝ} (hr1 : 1 ≤ n) (hu0 : 0 < U) (hU1 : U ≤ 1/8) (hnU0 : 0 < n * U) (hnU : n * U ≤ 1/8) (hnn : n * n * U ≤ 1/8)
    (hnQ : n * Q ≤ U * T / 8) (hT : 0 < T) (hdQ : 0 ≤ d + Q) (D2 : d * n ≤ (1 + U) * T + n * Q) (hk0 : 0 ≤ k) (hk' : k + 1 ≤ n)
    (a : y ≤ (1 + 2 * k * U) * (k * (d + Q))) : y * n < T * n := by
  have hr0 : 0 < n := by linarith
  have e1 : n * (d + Q) ≤ (1 + 2 * U) * T := by nlinarith
  have e2 : y * n ≤ (1 + 2 * k * U) * k * (n * (d + Q)) := by
    have := mul_le_mul_of_nonneg_right a hr0.le
    linarith
  have e3 : (1 + 2 * k * U) * k * (n * (d + Q)) ≤ (1 + 2 * n * U) * (n - 1) * ((1 + 2 * U) * T) := by
    refine mul_le_mul (mul_le_mul ?_ (by linarith) hk0 (by nlinarith)) e1 (mul_nonneg hr0.le (by linarith)) (mul_nonneg (by nlinarith) (by linarith))
    nlinarith
  have e4 : (1 + 2 * n * U) * (1 + 2 * U) ≤ 1 + 5 * (n * U) := by nlinarith
  have e5 : (1 + 2 * n * U) * (n - 1) * ((1 + 2 * U) * T) ≤ (1 + 5 * (n * U)) * ((n - 1) * T) := by
    have := mul_le_mul_of_nonneg_right e4 (mul_nonneg (by linarith) hT.le : 0 ≤ (n - 1) * T)
    linarith
  have e6 : (1 + 5 * (n * U)) * ((n - 1) * T) < n * T := by
    have e7 : (1 + 5 * (n * U)) * (n - 1) < n := by nlinarith
    have := mul_lt_mul_of_pos_right e7 hT
    linarith
  linarith

/-- The arithmetic behind the lower bound of `times_bounds`. -/
theorem times_lower {n U Q T d y : ℝ} (hr1 : 1 ≤ n) (hu0 : 0 < U) (hU1 : U ≤ 1/8) (hnU0 : 0 < n * U) (hnU : n * U ≤ 1/8) (hnn : n * n * U ≤ 1/8)
    (hη0 : 0 < Q) (hnQ : n * Q ≤ U * T / 8) (hT : 0 < T) (D1 : (1 - U) * T - n * Q ≤ d * n)
    (b : (1 - (n + 1) * U) * ((n + 1) * d) - (n + 1) * Q ≤ y) : T * n ≤ y * n := by
  have hr0 : 0 < n := by linarith
  have c0 : 0 ≤ 1 - (n + 1) * U := by nlinarith
  have c1 : (1 - (n + 1) * U) * (n + 1) * ((1 - U) * T - n * Q) - (n + 1) * (n * Q) ≤ y * n := by
    have k1 := mul_le_mul_of_nonneg_left D1 (mul_nonneg c0 (by linarith : (0 : ℝ) ≤ n + 1))
    have k2 := mul_le_mul_of_nonneg_right b hr0.le
    linarith
  have c2 : n * T ≤ (1 - (n + 1) * U) * (n + 1) * ((1 - U) * T - n * Q) - (n + 1) * (n * Q) := by
    have f1 : (n + 1) * (n * Q) ≤ 2 * n * (U * T / 8) := by
      refine mul_le_mul (by linarith) hnQ (by positivity) (by positivity)
    have f2 : 2 * n * (U * T / 8) ≤ T / 32 := by nlinarith
    have f3 : (1 - (n + 1) * U) * (n + 1) * (n * Q) ≤ (n + 1) * (n * Q) := by
      have : 0 ≤ (n + 1) * U * ((n + 1) * (n * Q)) := by positivity
      linarith
    have f4 : (1 - 3 * (n * U)) * (n + 1) ≤ (1 - (n + 1) * U) * (n + 1) * (1 - U) := by
      have : 1 - 3 * (n * U) ≤ (1 - (n + 1) * U) * (1 - U) := by nlinarith
      have := mul_le_mul_of_nonneg_right this (by linarith : (0 : ℝ) ≤ n + 1)
      linarith
    have f5 : n + 1/4 ≤ (1 - 3 * (n * U)) * (n + 1) := by nlinarith
    have f6 := mul_le_mul_of_nonneg_right (f5.trans f4) hT.le
    linarith
  linarith

/-- The bounds on the times with `n` steps to the time `T`. -/
theorem times_bounds {T : ℝ} (h1 : 2 ^ (-900 : ℤ) ≤ T) (h2 : T ≤ 2 ^ (900 : ℤ)) {n : ℕ} (hn : 0 < n) (hn2 : n ≤ 2 ^ 25) :
    ∃ d : ℝ, Binary64.rnd (T / n) = d ∧ (∀ k < n, ∃ y : ℝ, times (Dbl.num (d : EReal) : Dbl .binary64) k = Dbl.num y ∧ y < T) ∧
      (∃ y : ℝ, times (Dbl.num (d : EReal) : Dbl .binary64) n = Dbl.num y) ∧
      ∃ y : ℝ, times (Dbl.num (d : EReal) : Dbl .binary64) (n + 1) = Dbl.num y ∧ T ≤ y := by
  have hr1 : (1 : ℝ) ≤ n := by exact_mod_cast hn
  have hr0 : (0 : ℝ) < n := by linarith
  have hr2 : (n : ℝ) ≤ 2 ^ (25 : ℕ) := by exact_mod_cast hn2
  have hT : 0 < T := lt_of_lt_of_le (by positivity) h1
  have hacc := binary64_accurate
  have hu : (2 : ℝ) ^ (-53 : ℤ) = 1 / 2 ^ (53 : ℕ) := by norm_num
  have hη0 : (0 : ℝ) < 2 ^ (-1075 : ℤ) := by positivity
  have hu0 : (0 : ℝ) < 2 ^ (-53 : ℤ) := by positivity
  have hη : (2 : ℝ) ^ (-1075 : ℤ) ≤ 2 ^ (-53 : ℤ) * 2 ^ (-53 : ℤ) * T := by
    have e : (2 : ℝ) ^ (-1075 : ℤ) ≤ 2 ^ (-53 : ℤ) * 2 ^ (-53 : ℤ) * 2 ^ (-900 : ℤ) := by
      rw [← zpow_add₀ (by norm_num), ← zpow_add₀ (by norm_num)]
      exact zpow_le_zpow_right₀ (by norm_num) (by norm_num)
    exact e.trans (mul_le_mul_of_nonneg_left h1 (by positivity))
  have hbig : 16 * 2 ^ (25 : ℕ) * T ≤ 2 ^ (1023 : ℤ) := by
    calc 16 * 2 ^ (25 : ℕ) * T ≤ 2 ^ (29 : ℤ) * 2 ^ (900 : ℤ) := by
          refine mul_le_mul (by norm_num) h2 hT.le (by positivity)
      _ = 2 ^ (929 : ℤ) := by rw [← zpow_add₀ (by norm_num)]; norm_num
      _ ≤ _ := zpow_le_zpow_right₀ (by norm_num) (by norm_num)
  clear h1 h2
  generalize (2 : ℝ) ^ (1023 : ℤ) = P at *
  generalize (2 : ℝ) ^ (-1075 : ℤ) = Q at *
  generalize hU : (2 : ℝ) ^ (-53 : ℤ) = U at *
  have hnn : (n : ℝ) * n * U ≤ 1/8 := by
    have : (n : ℝ) * n ≤ 2 ^ (25 : ℕ) * 2 ^ (25 : ℕ) := mul_le_mul hr2 hr2 hr0.le (by positivity)
    rw [hu]
    calc (n : ℝ) * n * (1 / 2 ^ (53 : ℕ)) ≤ 2 ^ (25 : ℕ) * 2 ^ (25 : ℕ) * (1 / 2 ^ (53 : ℕ)) := mul_le_mul_of_nonneg_right this (by positivity)
      _ = 1/8 := by norm_num
  have h25 : (1 : ℝ) ≤ 2 ^ (25 : ℕ) := by norm_num
  generalize (2 : ℝ) ^ (25 : ℕ) = W at *
  clear hu hU
  have hnU0 : 0 < (n : ℝ) * U := by positivity
  have hnU : (n : ℝ) * U ≤ 1/8 := by nlinarith
  have hU1 : U ≤ 1/8 := by nlinarith
  have hnQ : (n : ℝ) * Q ≤ U * T / 8 := by
    calc (n : ℝ) * Q ≤ n * (U * U * T) := mul_le_mul_of_nonneg_left hη hr0.le
      _ = n * U * (U * T) := by ring
      _ ≤ 1/8 * (U * T) := mul_le_mul_of_nonneg_right hnU (by positivity)
      _ = U * T / 8 := by ring
  have hUT : U * T ≤ T / 8 := by nlinarith
  have hTW : 16 * T ≤ P := by nlinarith
  obtain ⟨d, ed, d0, d1, d2⟩ := hacc.nonneg (x := T / n) (by positivity) ((div_le_self hT.le hr1).trans (by linarith))
  have D1 : (1 - U) * T - n * Q ≤ d * n := by
    have := mul_le_mul_of_nonneg_right d1 hr0.le
    rw [sub_mul, mul_assoc, div_mul_cancel₀ _ hr0.ne'] at this
    linarith
  have D2 : d * n ≤ (1 + U) * T + n * Q := by
    have := mul_le_mul_of_nonneg_right d2 hr0.le
    rw [add_mul, mul_assoc, div_mul_cancel₀ _ hr0.ne'] at this
    linarith
  have pow1 : ∀ k : ℕ, k ≤ n + 1 → (1 + U) ^ k ≤ 1 + 2 * k * U := by
    intro k hk
    refine one_add_pow_le hu0.le k ?_
    have : (k : ℝ) ≤ n + 1 := by exact_mod_cast hk
    nlinarith
  have key : ∀ k : ℕ, k ≤ n + 1 → ∃ y : ℝ, times (Dbl.num (d : EReal) : Dbl .binary64) k = Dbl.num y ∧
      y ≤ (1 + 2 * k * U) * (k * (d + Q)) ∧ (1 - k * U) * (k * d) - k * Q ≤ y := by
    intro k hk
    have hk' : (k : ℝ) ≤ n + 1 := by exact_mod_cast hk
    have hk0 : (0 : ℝ) ≤ k := Nat.cast_nonneg k
    have hkd : 0 ≤ (k : ℝ) * d := mul_nonneg hk0 d0
    have hkdQ : 0 ≤ (k : ℝ) * (d + Q) := mul_nonneg hk0 (by linarith)
    have hsum : (List.replicate k d).sum = k * d := by simp
    have hlen : (List.replicate k d).length = k := by simp
    have hP := pow1 k hk
    have hP1 : (1 + U) ^ k ≤ 2 := by nlinarith
    obtain ⟨y, e, -, a, b⟩ := sum_error hacc hu0.le (by linarith) hη0.le (List.replicate k d) (fun x hx => by
        rw [List.eq_of_mem_replicate hx]; exact d0) (by
        rw [hsum, hlen]
        have k1 : (k : ℝ) * (d + Q) ≤ 2 * n * (d + Q) := mul_le_mul_of_nonneg_right (by linarith) (by linarith)
        have k2 : (1 + U) ^ k * (k * d + k * Q) ≤ 2 * (k * (d + Q)) := by
          rw [← mul_add]
          exact mul_le_mul_of_nonneg_right hP1 hkdQ
        nlinarith)
    rw [hsum, hlen] at a b
    rw [times_foldl] at e
    refine ⟨y, e, a.trans ?_, le_trans ?_ b⟩
    · rw [← mul_add]
      exact mul_le_mul_of_nonneg_right hP hkdQ
    · have := mul_le_mul_of_nonneg_right (one_sub_pow_ge (u := U) (by linarith) k) hkd
      linarith
  refine ⟨d, ed, fun k hk => ?_, ?_, ?_⟩
  · obtain ⟨y, e, a, -⟩ := key k (by omega)
    refine ⟨y, e, ?_⟩
    have hk' : (k : ℝ) + 1 ≤ n := by exact_mod_cast hk
    have hk0 : (0 : ℝ) ≤ k := Nat.cast_nonneg k
    have e8 : y * n < T * n := times_upper hr1 hu0 hU1 hnU0 hnU hnn hnQ hT (by linarith) D2 hk0 hk' a
    exact lt_of_mul_lt_mul_right e8 hr0.le
  · obtain ⟨y, e, -⟩ := key n (by omega)
    exact ⟨y, e⟩
  · obtain ⟨y, e, -, b⟩ := key (n + 1) le_rfl
    refine ⟨y, e, ?_⟩
    push_cast at b
    exact le_of_mul_le_mul_right (times_lower hr1 hu0 hU1 hnU0 hnU hnn hη0 hnQ hT D1 b) hr0

/-! ### A differential equation for which every run of explicit Euler returns -/

/-- None of the functions of the equation throws. -/
structure Total {F : Type} (p : Pde F) : Prop where
  diffusion : ∀ t x, ∃ y, p.diffusion t x = .ok y
  convection : ∀ t x, ∃ y, p.convection t x = .ok y
  reaction : ∀ t x, ∃ y, p.reaction t x = .ok y
  rightHandSide : ∀ t x, ∃ y, p.rightHandSide t x = .ok y
  boundaryLeft : ∀ t x, ∃ y, p.boundaryLeft t x = .ok y
  boundaryRight : ∀ t x, ∃ y, p.boundaryRight t x = .ok y
  initialCondition : ∀ x, ∃ y, p.initialCondition x = .ok y

section
variable {F : Type} [Fl F] [Add F] [Sub F] [Mul F] [Div F] [Neg F]

theorem explicitValue_total {p : Pde F} (hp : Total p) {s : Fdm F} {J : ℕ} {xs old : ℕ → F} (hx : s.xValues = vec J xs) (ho : s.oldPrices = vec J old)
    {j : ℕ} (h1 : 1 ≤ j) (h2 : j + 1 < J) : ∃ y, explicitValue p j s = .ok y := by
  obtain ⟨d, hd⟩ := hp.diffusion s.tPrev (xs j)
  obtain ⟨c, hc⟩ := hp.convection s.tPrev (xs j)
  obtain ⟨r, hr⟩ := hp.reaction s.tPrev (xs j)
  obtain ⟨f, hf⟩ := hp.rightHandSide s.tPrev (xs j)
  simp [explicitValue, sigs, hx, ho, vget_vec, show j < J by omega, show j - 1 < J by omega, h2, hd, hc, hr, hf]

theorem step_total {p : Pde F} (hp : Total p) {s : Fdm F} (hJ : 2 ≤ s.J) (hx : s.xValues.length = s.J) (ho : s.oldPrices.length = s.J)
    (hn : s.newPrices.length = s.J) : ∃ s', step .explicit p s = (.ok (), s') := by
  have ex := eq_vec (lit 0 : F) s.xValues
  have eo := eq_vec (lit 0 : F) s.oldPrices
  have en := eq_vec (lit 0 : F) s.newPrices
  rw [hx] at ex
  rw [ho] at eo
  rw [hn] at en
  obtain ⟨l, hl⟩ := hp.boundaryLeft s.tPrev (s.xValues.getD 0 (lit 0))
  obtain ⟨r, hr⟩ := hp.boundaryRight s.tPrev (s.xValues.getD (s.J - 1) (lit 0))
  have hw : ∀ j, ∃ y, 1 ≤ j → j + 1 < s.J → explicitValue p j { s with tCurr := s.tPrev + s.dt } = .ok y := by
    intro j
    by_cases h : 1 ≤ j ∧ j + 1 < s.J
    · obtain ⟨y, hy⟩ := explicitValue_total hp (s := { s with tCurr := s.tPrev + s.dt }) ex eo h.1 h.2
      exact ⟨y, fun _ _ => hy⟩
    · exact ⟨lit 0, fun a b => absurd ⟨a, b⟩ h⟩
  choose w hw using hw
  have hm : ∃ s1, march .explicit p { s with tCurr := s.tPrev + s.dt } = (.ok (), s1) := by
    unfold march
    dsimp only
    rw [Eff.bind_of_ok (boundary_ok (p := p) (time := (·.tPrev)) (s := { s with tCurr := s.tPrev + s.dt }) hJ en ex (fun _ => rfl) hl hr)]
    unfold innerExplicit
    rw [Eff.withState_apply]
    dsimp only
    rw [ulpred_pos (by omega)]
    exact ⟨_, forJ_store (N := s.J) (w := w) { s with tCurr := s.tPrev + s.dt } (s.J - 1 - 1) 1 _ (by omega)
      (fun j h1 h2 v _ => hw j h1 (by omega))⟩
  obtain ⟨s1, h1⟩ := hm
  exact ⟨_, step_of_march h1⟩

theorem steps_total {p : Pde F} (hp : Total p) : ∀ (n : ℕ) (s : Fdm F), 2 ≤ s.J → s.xValues.length = s.J → s.oldPrices.length = s.J →
    s.newPrices.length = s.J → ∃ s', Eff.forN (fun _ => step .explicit p) n () s = (.ok (), s')
  | 0, s, _, _, _, _ => ⟨s, rfl⟩
  | n + 1, s, h1, h2, h3, h4 => by
    obtain ⟨s1, e⟩ := step_total hp h1 h2 h3 h4
    obtain ⟨v, c, -, hv, -, e'⟩ := step_ok e
    rw [Eff.forN, Eff.bind_of_ok e]
    rw [e']
    exact steps_total hp n _ h1 h2 (hv.trans h4) (hv.trans h4)

theorem construct_total {p : Pde F} (hp : Total p) (xDom tDom : F) (J N : ℕ) (junk : ℕ → F) :
    ∃ s, construct .explicit xDom J tDom N p junk = .ok s ∧ s.J = J ∧ s.xValues.length = J ∧ s.oldPrices.length = J ∧ s.newPrices.length = J := by
  choose w hw using hp.initialCondition
  have e := each_vec (f := p.initialCondition) (n := J) (g := fun j : ℕ => (lit (j : ℚ) : F) * (xDom / lit (ulpred J : ℚ)))
    (w := fun j => w (lit (j : ℚ) * (xDom / lit (ulpred J : ℚ)))) (fun i _ => hw _)
  unfold construct constructBase
  dsimp only
  unfold vec at e
  rw [e]
  exact ⟨_, rfl, rfl, by simp, by simp, by simp⟩

end

/-- `1 / 10` in binary64. -/
theorem rnd_tenth : Binary64.rnd (1 / ((10 : ℕ) : ℝ)) = ((7205759403792794 / 2 ^ 56 : ℝ) : EReal) := by
  rw [Binary64.rnd_eq (-56) 7205759403792794] <;> norm_num [abs_of_pos, abs_of_neg, abs_div]

/-- One addition of the time loop, with numerators and exponents. -/
theorem rnd_add_dyadic (a m D : ℕ) (i e j : ℕ) (hD : 0 < D) (he : e ≤ 100) (h1 : 2 ^ 52 * 2 ^ (i + j) ≤ (a * 2 ^ j + D * 2 ^ i) * 2 ^ e)
    (h2 : (a * 2 ^ j + D * 2 ^ i) * 2 ^ e < 2 ^ 53 * 2 ^ (i + j))
    (h3 : 2 * |(m * 2 ^ (i + j) : ℤ) - (a * 2 ^ j + D * 2 ^ i) * 2 ^ e| ≤ 2 ^ (i + j))
    (h4 : 2 * |(m * 2 ^ (i + j) : ℤ) - (a * 2 ^ j + D * 2 ^ i) * 2 ^ e| = 2 ^ (i + j) → Even m) (hm : m ≤ 2 ^ 53) :
    Binary64.rnd ((a / 2 ^ i : ℝ) + D / 2 ^ j) = ((m / 2 ^ e : ℝ) : EReal) := by
  have hx : ((a / 2 ^ i : ℝ) + D / 2 ^ j) = (a * 2 ^ j + D * 2 ^ i : ℝ) / 2 ^ (i + j) := by
    rw [pow_add]; field_simp
  have hD' : (0 : ℝ) < D := by exact_mod_cast hD
  have hx0 : 0 < (a * 2 ^ j + D * 2 ^ i : ℝ) / 2 ^ (i + j) := by positivity
  have hz : (2 : ℝ) ^ (-(e : ℤ)) = 1 / 2 ^ e := by rw [zpow_neg, zpow_natCast, one_div]
  have hd : (m : ℝ) - (a * 2 ^ j + D * 2 ^ i : ℝ) / 2 ^ (i + j) / (1 / 2 ^ e) =
      ((m * 2 ^ (i + j) - (a * 2 ^ j + D * 2 ^ i) * 2 ^ e : ℤ) : ℝ) / 2 ^ (i + j) := by
    push_cast; field_simp
  have h1' : (2 : ℝ) ^ 52 * 2 ^ (i + j) ≤ (a * 2 ^ j + D * 2 ^ i) * 2 ^ e := by exact_mod_cast h1
  have h2' : ((a : ℝ) * 2 ^ j + D * 2 ^ i) * 2 ^ e < 2 ^ 53 * 2 ^ (i + j) := by exact_mod_cast h2
  rw [hx, Binary64.rnd_eq (-(e : ℤ)) m]
  · rw [hz]; congr 1; push_cast; ring
  · omega
  · omega
  · rw [abs_of_pos hx0, hz, mul_one_div, div_le_div_iff₀ (by positivity) (by positivity)]
    exact h1'
  · rw [abs_of_pos hx0, hz, mul_one_div, div_lt_div_iff₀ (by positivity) (by positivity)]
    exact h2'
  · rw [hz]
    show |(((m : ℕ) : ℤ) : ℝ) - _| ≤ _
    rw [Int.cast_natCast, hd, abs_div, abs_of_pos (by positivity : (0 : ℝ) < 2 ^ (i + j)), div_le_iff₀ (by positivity), ← Int.cast_abs]
    have : (2 : ℝ) * (|(m * 2 ^ (i + j) : ℤ) - (a * 2 ^ j + D * 2 ^ i) * 2 ^ e| : ℤ) ≤ 2 ^ (i + j) := by exact_mod_cast h3
    linarith
  · rw [hz]
    show |(((m : ℕ) : ℤ) : ℝ) - _| = _ → _
    rw [Int.cast_natCast, hd, abs_div, abs_of_pos (by positivity : (0 : ℝ) < 2 ^ (i + j)), div_eq_iff (by positivity), ← Int.cast_abs]
    intro h
    have : (2 : ℝ) * (|(m * 2 ^ (i + j) : ℤ) - (a * 2 ^ j + D * 2 ^ i) * 2 ^ e| : ℤ) = 2 ^ (i + j) := by linarith
    exact (Int.even_coe_nat m).mpr (h4 (by exact_mod_cast this))
  · rw [Nat.abs_cast]; exact_mod_cast hm

/-- One addition of the time loop. -/
theorem times_tenth {k a m i e : ℕ} (ht : times (Dbl.num ((7205759403792794 / 2 ^ 56 : ℝ) : EReal) : Dbl .binary64) k = .num ((a / 2 ^ i : ℝ) : EReal))
    (he : e ≤ 100) (h1 : 2 ^ 52 * 2 ^ (i + 56) ≤ (a * 2 ^ 56 + 7205759403792794 * 2 ^ i) * 2 ^ e)
    (h2 : (a * 2 ^ 56 + 7205759403792794 * 2 ^ i) * 2 ^ e < 2 ^ 53 * 2 ^ (i + 56))
    (h3 : 2 * |(m * 2 ^ (i + 56) : ℤ) - (a * 2 ^ 56 + 7205759403792794 * 2 ^ i) * 2 ^ e| ≤ 2 ^ (i + 56))
    (h4 : 2 * |(m * 2 ^ (i + 56) : ℤ) - (a * 2 ^ 56 + 7205759403792794 * 2 ^ i) * 2 ^ e| = 2 ^ (i + 56) → Even m) (hm : m ≤ 2 ^ 53) :
    times (Dbl.num ((7205759403792794 / 2 ^ 56 : ℝ) : EReal) : Dbl .binary64) (k + 1) = .num ((m / 2 ^ e : ℝ) : EReal) := by
  rw [times, ht, Dbl.add_coe]
  exact congrArg Dbl.num (rnd_add_dyadic a m 7205759403792794 i e 56 (by norm_num) he h1 h2 h3 h4 hm)

/-- The times with `dt = 0.1`: ten steps end before 1, and the eleventh time is about 1.1. -/
theorem times_one_eleven : times (Dbl.num ((7205759403792794 / 2 ^ 56 : ℝ) : EReal) : Dbl .binary64) 10 = .num ((9007199254740991 / 2 ^ 53 : ℝ) : EReal) ∧
    times (Dbl.num ((7205759403792794 / 2 ^ 56 : ℝ) : EReal) : Dbl .binary64) 11 = .num ((4953959590107545 / 2 ^ 52 : ℝ) : EReal) := by
  have t0 : times (Dbl.num ((7205759403792794 / 2 ^ 56 : ℝ) : EReal) : Dbl .binary64) 0 = .num (((0 : ℕ) / 2 ^ 0 : ℝ) : EReal) := by
    simp [times]
  have t1 := times_tenth (m := 7205759403792794) (e := 56) t0 (by norm_num) (by norm_num) (by norm_num) (by norm_num) (by decide) (by norm_num)
  have t2 := times_tenth (m := 7205759403792794) (e := 55) t1 (by norm_num) (by norm_num) (by norm_num) (by norm_num) (by decide) (by norm_num)
  have t3 := times_tenth (m := 5404319552844596) (e := 54) t2 (by norm_num) (by norm_num) (by norm_num) (by norm_num) (by decide) (by norm_num)
  have t4 := times_tenth (m := 7205759403792794) (e := 54) t3 (by norm_num) (by norm_num) (by norm_num) (by norm_num) (by decide) (by norm_num)
  have t5 := times_tenth (m := 4503599627370496) (e := 53) t4 (by norm_num) (by norm_num) (by norm_num) (by norm_num) (by decide) (by norm_num)
  have t6 := times_tenth (m := 5404319552844595) (e := 53) t5 (by norm_num) (by norm_num) (by norm_num) (by norm_num) (by decide) (by norm_num)
  have t7 := times_tenth (m := 6305039478318694) (e := 53) t6 (by norm_num) (by norm_num) (by norm_num) (by norm_num) (by decide) (by norm_num)
  have t8 := times_tenth (m := 7205759403792793) (e := 53) t7 (by norm_num) (by norm_num) (by norm_num) (by norm_num) (by decide) (by norm_num)
  have t9 := times_tenth (m := 8106479329266892) (e := 53) t8 (by norm_num) (by norm_num) (by norm_num) (by norm_num) (by decide) (by norm_num)
  have t10 := times_tenth (m := 9007199254740991) (e := 53) t9 (by norm_num) (by norm_num) (by norm_num) (by norm_num) (by decide) (by norm_num)
  have t11 := times_tenth (m := 4953959590107545) (e := 52) t10 (by norm_num) (by norm_num) (by norm_num) (by norm_num) (by decide) (by norm_num)
  exact ⟨by exact_mod_cast t10, by exact_mod_cast t11⟩

/-- The number of steps is `N - 1` or `N`. -/
theorem steps_double {T : ℝ} (h1 : 2 ^ (-900 : ℤ) ≤ T) (h2 : T ≤ 2 ^ (900 : ℤ)) {N : ℕ} (hN : 2 ≤ N) (hN2 : N ≤ 2 ^ 25)
    {sc : Scheme (Dbl .binary64)} {p : Pde (Dbl .binary64)} {xDom : Dbl .binary64} {J : ℕ} {junk : ℕ → Dbl .binary64} {s : Fdm (Dbl .binary64)}
    (h : construct sc xDom J (.num T) N p junk = .ok s) :
    ∃ m, (m = N - 1 ∨ m = N) ∧ (∃ y : ℝ, times s.dt m = .num y ∧ T ≤ y) ∧ (∀ k < m, ∃ y : ℝ, times s.dt k = .num y ∧ y < T) ∧
      ∀ fuel, N < fuel → timeLoop sc p fuel s = Eff.forN (fun _ => step sc p) m () s := by
  obtain ⟨e1, e2, e3, e4⟩ := construct_times h
  obtain ⟨d, ed, a, ⟨y, hy⟩, z, hz, hTz⟩ := times_bounds h1 h2 (n := N - 1) (by omega) (by omega)
  have hdt : s.dt = .num (d : EReal) := by
    rw [e2, ulpred_pos (by omega), Dbl.lit_def]
    have : Rounding.binary64.rnd (((N - 1 : ℕ) : ℚ) : ℝ) = ((N - 1 : ℕ) : ℝ) := by
      rw [Rat.cast_natCast]
      exact Binary64.rnd_natCast (by omega)
    have h0 : ((N - 1 : ℕ) : ℝ) ≠ 0 := by
      rw [Nat.cast_ne_zero]; omega
    rw [this, Dbl.div_coe _ h0]
    exact congrArg Dbl.num ed
  rw [show N - 1 + 1 = N by omega] at hz
  have ht : s.tPrev = times s.dt 0 ∧ s.tCurr = times s.dt 0 := ⟨e3, e4⟩
  by_cases hc : T ≤ y
  · refine ⟨N - 1, .inl rfl, ⟨y, by rw [hdt]; exact hy, hc⟩, fun k hk => by rw [hdt]; exact a k hk, fun fuel hf => ?_⟩
    refine timeLoop_times sc p (N - 1) 0 fuel s ht.1 ht.2 (fun i _ hi => ?_) ?_ (by omega)
    · obtain ⟨w, hw, hwT⟩ := a i (by omega)
      rw [hdt, hw, e1, Dbl.lt_num]
      exact_mod_cast hwT
    · rw [zero_add, hdt, hy, e1, Dbl.lt_num_false]
      exact_mod_cast hc
  · refine ⟨N, .inr rfl, ⟨z, by rw [hdt]; exact hz, hTz⟩, ?_, fun fuel hf => ?_⟩
    · intro k hk
      rw [hdt]
      by_cases hk' : k < N - 1
      · exact a k hk'
      · obtain rfl : k = N - 1 := by omega
        exact ⟨y, hy, not_le.mp hc⟩
    · refine timeLoop_times sc p N 0 fuel s ht.1 ht.2 (fun i _ hi => ?_) ?_ hf
      · by_cases hk' : i < N - 1
        · obtain ⟨w, hw, hwT⟩ := a i hk'
          rw [hdt, hw, e1, Dbl.lt_num]
          exact_mod_cast hwT
        · obtain rfl : i = N - 1 := by omega
          rw [hdt, hy, e1, Dbl.lt_num]
          exact_mod_cast not_le.mp hc
      · rw [zero_add, hdt, hz, e1, Dbl.lt_num_false]
        exact_mod_cast hTz

end Fdm

/-- **C53 (partial).** In binary64, for up to `2 ^ 25` time points and maturities between `2 ^ -900` and `2 ^ 900`, every solver
makes `N - 1` steps or one step more, and stops at the first time at or after the end of the domain.  Missing: exactly `N - 1`
steps, which is false (`C53_double_fails`). -/
theorem C53_double_partial (sc : Scheme (Dbl .binary64)) (p : Pde (Dbl .binary64)) (xDom : Dbl .binary64) (T : ℝ) (J N : ℕ)
    (junk : ℕ → Dbl .binary64) (s : Fdm (Dbl .binary64)) (hN : 2 ≤ N) (hN2 : N ≤ 2 ^ 25) (h1 : 2 ^ (-900 : ℤ) ≤ T) (h2 : T ≤ 2 ^ (900 : ℤ))
    (h : construct sc xDom J (.num T) N p junk = .ok s) (fuel : ℕ) (hf : N < fuel) (v : List (Dbl .binary64)) (s' : Fdm (Dbl .binary64))
    (hs : solve sc p fuel s = (.ok v, s')) :
    ∃ (m : ℕ) (st : ℕ → Fdm (Dbl .binary64)), (m = N - 1 ∨ m = N) ∧ st 0 = s ∧ (∀ n < m, step sc p (st n) = (.ok (), st (n + 1))) ∧
      (∀ n < m, ∃ y : ℝ, (st n).tCurr = .num y ∧ y < T) ∧ (∃ y : ℝ, (st m).tCurr = .num y ∧ T ≤ y) ∧
      v = (st m).newPrices ∧ s' = { st m with solved := true } := by
  obtain ⟨m, hm, ⟨y, hy, hTy⟩, hlt, hloop⟩ := steps_double h1 h2 hN hN2 h
  obtain ⟨st, e0, hst, hv, hs'⟩ := solve_of_steps hs (hloop fuel hf)
  have ht := times_of_steps hst (by rw [e0]; exact (construct_times h).2.2)
  refine ⟨m, st, hm, e0, hst, fun n hn => ?_, ⟨y, ?_, hTy⟩, hv, hs'⟩
  · obtain ⟨z, hz, hz'⟩ := hlt n hn
    exact ⟨z, by rw [(ht n hn.le).2.2, e0, hz], hz'⟩
  · rw [(ht m le_rfl).2.2, e0, hy]

/-- The equation with coefficients 1, which never throws. -/
noncomputable def unitPde : Pde (Dbl .binary64) where
  diffusion _ _ := .ok (.num 1)
  convection _ _ := .ok (.num 0)
  reaction _ _ := .ok (.num 0)
  rightHandSide _ _ := .ok (.num 0)
  boundaryLeft _ _ := .ok (.num 0)
  boundaryRight _ x := .ok x
  initialCondition x := .ok x

theorem unitPde_total : Total unitPde where
  diffusion _ _ := ⟨_, rfl⟩
  convection _ _ := ⟨_, rfl⟩
  reaction _ _ := ⟨_, rfl⟩
  rightHandSide _ _ := ⟨_, rfl⟩
  boundaryLeft _ _ := ⟨_, rfl⟩
  boundaryRight _ _ := ⟨_, rfl⟩
  initialCondition _ := ⟨_, rfl⟩

/-- A run returns. -/
theorem unitPde_returns (T : ℝ) (h1 : 2 ^ (-900 : ℤ) ≤ T) (h2 : T ≤ 2 ^ (900 : ℤ)) (N : ℕ) (hN : 2 ≤ N) (hN2 : N ≤ 2 ^ 25) (fuel : ℕ) (hf : N < fuel) :
    ∃ s v s', construct .explicit (.num 2) 5 (.num T) N unitPde (fun _ => .nan) = .ok s ∧ solve .explicit unitPde fuel s = (.ok v, s') := by
  obtain ⟨s, hs, a, b, c, d⟩ := construct_total unitPde_total (.num 2) (.num T) 5 N (fun _ => .nan)
  obtain ⟨m, -, -, -, hloop⟩ := steps_double h1 h2 hN hN2 hs
  obtain ⟨s1, e⟩ := steps_total unitPde_total m s (by omega) (by omega) (by omega) (by omega)
  refine ⟨s, s1.newPrices, { s1 with solved := true }, hs, ?_⟩
  have := hloop fuel hf
  rw [e] at this
  unfold solve
  rw [Eff.bind_of_ok this, Eff.bind_of_ok (Eff.modify_apply _ _), Eff.read_apply]

example (N : ℕ) (hN : 2 ≤ N) (hN2 : N ≤ 2 ^ 25) : ∃ (m : ℕ) (st : ℕ → Fdm (Dbl .binary64)), (m = N - 1 ∨ m = N) ∧
    (∀ n < m, step .explicit unitPde (st n) = (.ok (), st (n + 1))) ∧ ∃ y : ℝ, (st m).tCurr = .num y ∧ 3 ≤ y := by
  have h1 : (2 : ℝ) ^ (-900 : ℤ) ≤ 3 := (zpow_le_one_of_nonpos₀ (by norm_num) (by norm_num)).trans (by norm_num)
  have h2 : (3 : ℝ) ≤ 2 ^ (900 : ℤ) := le_trans (by norm_num) (zpow_le_zpow_right₀ (by norm_num) (show (2 : ℤ) ≤ 900 by norm_num))
  obtain ⟨s, v, s', e1, e2⟩ := unitPde_returns 3 h1 h2 N hN hN2 (N + 1) (by omega)
  obtain ⟨m, st, a, -, b, -, c, -⟩ := C53_double_partial .explicit unitPde (.num 2) 3 5 N _ s hN hN2 h1 h2 e1 (N + 1) (by omega) v s' e2
  exact ⟨m, st, a, b, c⟩

/-- **C53 (fails).** In binary64, with maturity 1 and `N = 11`, every run of every solver makes 11 steps instead of 10 and the
prices it returns are those at time 1.1: ten additions of 0.1 give 0.9999999999999999, which is below 1. -/
theorem C53_double_fails (sc : Scheme (Dbl .binary64)) (p : Pde (Dbl .binary64)) (xDom : Dbl .binary64) (J : ℕ) (junk : ℕ → Dbl .binary64)
    (s : Fdm (Dbl .binary64)) (h : construct sc xDom J (.num 1) 11 p junk = .ok s) (fuel : ℕ) (hf : 11 < fuel) (v : List (Dbl .binary64))
    (s' : Fdm (Dbl .binary64)) (hs : solve sc p fuel s = (.ok v, s')) :
    ∃ st : ℕ → Fdm (Dbl .binary64), st 0 = s ∧ (∀ n < 11, step sc p (st n) = (.ok (), st (n + 1))) ∧ v = (st 11).newPrices ∧
      ∃ y : ℝ, (st 11).tCurr = .num y ∧ 1 + 9999/100000 < y := by
  have h1 : (2 : ℝ) ^ (-900 : ℤ) ≤ 1 := zpow_le_one_of_nonpos₀ (by norm_num) (by norm_num)
  have h2 : (1 : ℝ) ≤ 2 ^ (900 : ℤ) := one_le_zpow₀ (by norm_num) (by norm_num)
  have h' : construct sc xDom J (.num ((1 : ℝ) : EReal)) 11 p junk = .ok s := h
  have hdt : s.dt = .num ((7205759403792794 / 2 ^ 56 : ℝ) : EReal) := by
    rw [(construct_times h').2.1, ulpred_pos (by norm_num), Dbl.lit_def]
    have : Rounding.binary64.rnd (((11 - 1 : ℕ) : ℚ) : ℝ) = ((10 : ℕ) : ℝ) := by
      rw [Rat.cast_natCast]
      exact Binary64.rnd_natCast (by norm_num)
    rw [this, Dbl.div_coe _ (by norm_num)]
    exact congrArg Dbl.num rnd_tenth
  obtain ⟨m, hm, ⟨y, hy, hTy⟩, -, hloop⟩ := steps_double h1 h2 (by norm_num) (by norm_num) h'
  obtain ⟨t10, t11⟩ := times_one_eleven
  have hm' : m = 11 := by
    rcases hm with rfl | rfl
    · rw [hdt, t10] at hy
      have := EReal.coe_eq_coe_iff.mp (Dbl.num.inj hy)
      rw [← this] at hTy
      norm_num at hTy
    · rfl
  subst hm'
  obtain ⟨st, e0, hst, hv, -⟩ := solve_of_steps hs (hloop fuel hf)
  have ht := times_of_steps hst (by rw [e0]; exact (construct_times h').2.2)
  refine ⟨st, e0, hst, hv, 4953959590107545 / 2 ^ 52, ?_, by norm_num⟩
  rw [(ht 11 le_rfl).2.2, e0, hdt, t11]

example : ∃ s v s', construct .explicit (.num 2) 5 (.num 1) 11 unitPde (fun _ => .nan) = .ok s ∧ solve .explicit unitPde 12 s = (.ok v, s') :=
  unitPde_returns 1 (zpow_le_one_of_nonpos₀ (by norm_num) (by norm_num)) (one_le_zpow₀ (by norm_num) (by norm_num)) 11 (by norm_num) (by norm_num) 12 (by norm_num)

end Verif
